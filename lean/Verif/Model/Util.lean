import Verif.Model.Machine
import Mathlib.Order.Defs.LinearOrder
import Mathlib.Algebra.Group.Defs

/-!
# Models of `library/util/{coordinate_compressor,run_length_encoder,permutation,search,cumulative_sum,cumulative_sum_2d,step_sum,subset_iterator}.hpp`
-/

namespace Compressor
open Cxx
variable {α : Type} [LinearOrder α]

/-- `std::unique` followed by `erase`: drop every element equal to its predecessor. -/
def unique : List α → List α
  | [] => []
  | [x] => [x]
  | x :: y :: l => if x = y then unique (y :: l) else x :: unique (y :: l)

/-- `is_strictly_sorted` — coordinate_compressor.hpp:84-86. -/
def isStrictlySorted : List α → Bool
  | [] => true
  | [_] => true
  | x :: y :: l => !decide (x ≥ y) && isStrictlySorted (y :: l)

/-- `build()` — coordinate_compressor.hpp:124-127, with the assertion of the constructor (21-23). `std::sort` by its contract (a stable merge sort has the
same result on a linear order). -/
def build (xs : List α) : M (Array α) := do
  let ys := unique (xs.mergeSort fun a b => decide (a ≤ b))
  check (isStrictlySorted ys)
  return ys.toArray

/-- `std::lower_bound(begin, end, e)`, by its contract on a sorted range: the first position whose element is not less than `e`. -/
def lowerBound (xs : List α) (e : α) : Nat := xs.findIdx fun x => !decide (x < e)

/-- `std::upper_bound(begin, end, e)`: the first position whose element is greater than `e`. -/
def upperBound (xs : List α) (e : α) : Nat := xs.findIdx fun x => decide (e < x)

/-- `std::lower_bound(rbegin, rend, e, greater)`: the first position from the back whose element is not greater than `e`. -/
def lowerBoundRev (xs : List α) (e : α) : Nat := xs.reverse.findIdx fun x => !decide (x > e)

/-- `std::upper_bound(rbegin, rend, e, greater)`: the first position from the back whose element is less than `e`. -/
def upperBoundRev (xs : List α) (e : α) : Nat := xs.reverse.findIdx fun x => decide (e > x)

/-- `min_gt_index` — coordinate_compressor.hpp:67-69. -/
def minGtIndex (xs : Array α) (e : α) : Int := upperBound xs.toList e

/-- `min_geq_index` — coordinate_compressor.hpp:71-73. -/
def minGeqIndex (xs : Array α) (e : α) : Int := lowerBound xs.toList e

/-- `max_lt_index` — coordinate_compressor.hpp:75-77. -/
def maxLtIndex (xs : Array α) (e : α) : Int := (xs.size : Int) - upperBoundRev xs.toList e - 1

/-- `max_leq_index` — coordinate_compressor.hpp:79-81. -/
def maxLeqIndex (xs : Array α) (e : α) : Int := (xs.size : Int) - lowerBoundRev xs.toList e - 1

/-- `size` — coordinate_compressor.hpp:26-28. -/
def size (xs : Array α) : Int := xs.size

/-- `std::binary_search`: is there an equivalent element — coordinate_compressor.hpp:30-32. -/
def hasKey (xs : Array α) (e : α) : M Bool := do
  let i := lowerBound xs.toList e
  if i = xs.size then return false
  else do
    let x ← rd xs i
    return !decide (e < x)

/-- `comp(e, default_value)` — coordinate_compressor.hpp:34-37. -/
def comp (xs : Array α) (e : α) (default : Int) : M Int := do
  let res := minGeqIndex xs e
  if res ≠ size xs then do
    let x ← rd xs res.toNat
    if x = e then return res else return default
  else return default

/-- `decomp` — coordinate_compressor.hpp:39-41. -/
def decomp (xs : Array α) (i : Nat) : M α := rd xs i

/-- `min_gt` — coordinate_compressor.hpp:47-50. -/
def minGt (xs : Array α) (e d : α) : M α :=
  if upperBound xs.toList e = xs.size then return d else rd xs (upperBound xs.toList e)

/-- `min_geq` — coordinate_compressor.hpp:52-55. -/
def minGeq (xs : Array α) (e d : α) : M α :=
  if lowerBound xs.toList e = xs.size then return d else rd xs (lowerBound xs.toList e)

/-- `max_lt` — coordinate_compressor.hpp:57-60; `*it` of a reverse iterator at offset `i` is element `size - 1 - i`. -/
def maxLt (xs : Array α) (e d : α) : M α :=
  if upperBoundRev xs.toList e = xs.size then return d else rd xs (xs.size - 1 - upperBoundRev xs.toList e)

/-- `max_leq` — coordinate_compressor.hpp:62-65. -/
def maxLeq (xs : Array α) (e d : α) : M α :=
  if lowerBoundRev xs.toList e = xs.size then return d else rd xs (xs.size - 1 - lowerBoundRev xs.toList e)

end Compressor

namespace RunLength
open Cxx
variable {α : Type} [DecidableEq α]

/-- Members — run_length_encoder.hpp:63-64; counts are unbounded. -/
structure State (α : Type) where
  length : Nat
  comp : Array (α × Nat)

/-- `while (it_r != c.end() and *it_l == *it_r) ++it_r;` — run_length_encoder.hpp:69. -/
def runStep (c : Array α) (l : Nat) (r : Nat) : M (Option Nat) :=
  if r = c.size then return none
  else do
    let x ← rd c l
    let y ← rd c r
    if x = y then return some (r + 1) else return none

/-- Loop of `compress` — run_length_encoder.hpp:68-71; state `(it_l, it_r, res)`. -/
def compressStep (c : Array α) (s : Nat × Nat × Array (α × Nat)) : M (Option (Nat × Nat × Array (α × Nat))) :=
  if s.1 = c.size then return none
  else do
    let r ← loop (runStep c s.1) c.size s.2.1
    let x ← rd c s.1
    return some (r, r, s.2.2.push (x, r - s.1))

/-- `compress` — run_length_encoder.hpp:66-72. -/
def compress (c : Array α) : M (Array (α × Nat)) := do
  let s ← loop (compressStep c) c.size (0, 0, #[])
  return s.2.2

/-- Constructor from a container — run_length_encoder.hpp:16-19. -/
def ofContainer (c : Array α) : M (State α) := do
  let r ← compress c
  return ⟨c.size, r⟩

/-- `comp.back().second += num` — run_length_encoder.hpp:40. -/
def bump (s : State α) (num : Nat) : M (State α) := do
  let x ← rd s.comp (s.comp.size - 1)
  let c ← wr s.comp (s.comp.size - 1) (x.1, x.2 + num)
  return ⟨s.length + num, c⟩

/-- `push_back(val, num)` — run_length_encoder.hpp:38-45. -/
def pushBack (s : State α) (v : α) (num : Nat) : M (State α) :=
  match s.comp.back? with
  | some x => if x.1 = v then bump s num else return ⟨s.length + num, s.comp.push (v, num)⟩
  | none => return ⟨s.length + num, s.comp.push (v, num)⟩

/-- `clear()` — run_length_encoder.hpp:25. -/
def clear (s : State α) : State α := ⟨s.length, #[]⟩

/-- `swap` — run_length_encoder.hpp:23. -/
def swap (s t : State α) : State α × State α := (⟨s.length, t.comp⟩, ⟨t.length, s.comp⟩)

end RunLength

namespace Permutation
open Cxx

/-- `Permutation(n)` — permutation.hpp:16-18. -/
def iota (n : Nat) : Array Nat := Array.ofFn fun i : Fin n => i.1

/-- `res[i] = a[(*this)[i]]` — permutation.hpp:27. -/
def permuteStep {α : Type} (p : Array Nat) (a : Array α) (i : Nat) (res : Array α) : M (Array α) := do
  let j ← rd p i
  let v ← rd a j
  wr res i v

/-- `permute(a)` — permutation.hpp:24-29; `d` is the value-initialised element. -/
def permute {α : Type} (d : α) (p : Array Nat) (a : Array α) : M (Array α) :=
  forUp 0 a.size (Array.replicate a.size d) (permuteStep p a)

/-- `res[(*this)[i]] = a[i]` — permutation.hpp:35. -/
def invPermuteStep {α : Type} (p : Array Nat) (a : Array α) (i : Nat) (res : Array α) : M (Array α) := do
  let j ← rd p i
  let v ← rd a i
  wr res j v

/-- `inv_permute(a)` — permutation.hpp:32-37. -/
def invPermute {α : Type} (d : α) (p : Array Nat) (a : Array α) : M (Array α) :=
  forUp 0 a.size (Array.replicate a.size d) (invPermuteStep p a)

/-- `p * q` — permutation.hpp:40-42. -/
def mul (p q : Array Nat) : M (Array Nat) := permute 0 q p

/-- `res[(*this)[i]] = i` — permutation.hpp:49. -/
def invStep (p : Array Nat) (i : Nat) (res : Array Nat) : M (Array Nat) := do
  let j ← rd p i
  wr res j i

/-- `inv()` — permutation.hpp:46-51. -/
def inv (p : Array Nat) : M (Array Nat) := forUp 0 p.size (iota p.size) (invStep p)

/-- `for (int v = (*this)[s]; v != s; v = (*this)[v]) cycle.push_back(v);` — permutation.hpp:60; state `(v, cycle)`. -/
def cycleStep (p : Array Nat) (s : Nat) (q : Nat × Array Nat) : M (Option (Nat × Array Nat)) :=
  if q.1 = s then return none
  else do
    let w ← rd p q.1
    return some (w, q.2.push q.1)

/-- Body of the inner loop — permutation.hpp:62-66; `(j + k) % l` in `long long`. State `(seen, res)`. -/
def placeStep (cycle : Array Nat) (k : Int) (j : Nat) (q : Array Bool × Array Nat) : M (Array Bool × Array Nat) := do
  let v ← rd cycle j
  let seen ← wr q.1 v true
  let t ← i64 (j + k)
  let w ← rd cycle (t.toNat % cycle.size)
  let res ← wr q.2 v w
  return (seen, res)

/-- Body of the loop over `s` for an unseen `s` — permutation.hpp:59-66. -/
def newCycle (p : Array Nat) (k : Int) (s : Nat) (q : Array Bool × Array Nat) : M (Array Bool × Array Nat) := do
  let v ← rd p s
  let c ← loop (cycleStep p s) p.size (v, #[s])
  forUp 0 c.2.size q (placeStep c.2 k)

/-- Body of the loop over `s` — permutation.hpp:58-67. -/
def powStep (p : Array Nat) (k : Int) (s : Nat) (q : Array Bool × Array Nat) : M (Array Bool × Array Nat) := do
  let b ← rd q.1 s
  if b then return q else newCycle p k s q

/-- `pow(k)` — permutation.hpp:52-69. -/
def pow (p : Array Nat) (k : Int) : M (Array Nat) := do
  check (decide (k ≥ 0))
  let r ← forUp 0 p.size (Array.replicate p.size false, iota p.size) (powStep p k)
  return r.2

/-- An operation on `hash_t`, whose values are below `lim`; a result outside is not modelled further. -/
def fits (lim x : Nat) : M Nat := if x < lim then .ok x else .error .ub

/-- Loop body of `hash` — permutation.hpp:94-98; state `(h, p, q)`. -/
def hashStep (lim i : Nat) (s : Nat × Array Nat × Array Nat) : M (Nat × Array Nat × Array Nat) := do
  let x ← rd s.2.1 i
  let t ← fits lim (s.1 * (i + 1))
  let h ← fits lim (t + x)
  let y ← rd s.2.2 i
  let p ← wr s.2.1 y x
  let x ← rd p i
  let y ← rd s.2.2 i
  let q ← wr s.2.2 x y
  return (h, p, q)

/-- `hash(per)` — permutation.hpp:89-100. -/
def hash (lim : Nat) (per : Array Nat) : M Nat := do
  let q ← inv per
  let s ← forDown per.size 0 (0, per, q) (hashStep lim)
  return s.1

/-- Loop body of `unhash` — permutation.hpp:103-107; state `(h, p, q)`. In `q[p[i]] = p[q[i]] = i` the right assignment is evaluated first. -/
def unhashStep (i : Nat) (s : Nat × Array Nat × Array Nat) : M (Nat × Array Nat × Array Nat) := do
  let p ← wr s.2.1 i (s.1 % (i + 1))
  let x ← rd p i
  let y ← rd s.2.2 x
  let q ← wr s.2.2 i y
  let y ← rd q i
  let p ← wr p y i
  let x ← rd p i
  let q ← wr q x i
  return (s.1 / (i + 1), p, q)

/-- `unhash(n, h)` — permutation.hpp:101-109. -/
def unhash (n h : Nat) : M (Array Nat) := do
  let s ← forUp 0 n (h, iota n, iota n) unhashStep
  return s.2.1

end Permutation

namespace Search
open Cxx

/-- `while ((r_ok - l_ng) > 1) …` — search.hpp:99-102, 119-122; state `(l_ng, r_ok)`, `long long`. -/
def bisectStep (f : Int → Bool) (s : Int × Int) : M (Option (Int × Int)) := do
  let d ← i64 (s.2 - s.1)
  if d > 1 then do
    let d ← i64 (s.2 - s.1)
    let m ← i64 (s.1 + d / 2)
    if f m then return some (s.1, m) else return some (m, s.2)
  else return none

/-- `binary_search(l_ng, r_ok, f)` — search.hpp:95-104. -/
def binarySearch (f : Int → Bool) (l r : Int) : M Int := do
  check (decide (l ≤ r))
  check (!f l)
  check (f r)
  let s ← loop (bisectStep f) 64 (l, r)
  return s.2

/-- `while (not f(l_ng + w)) w <<= 1;` — search.hpp:117; a left shift of a signed value that does not fit is undefined before C++20. -/
def expStep (f : Int → Bool) (l : Int) (w : Int) : M (Option Int) := do
  let x ← i64 (l + w)
  if f x then return none
  else do
    let w ← i64 (w * 2)
    return some w

/-- `binary_search_exponential(l_ng, f)` — search.hpp:114-124. -/
def binarySearchExp (f : Int → Bool) (l : Int) : M Int := do
  check (!f l)
  let w ← loop (expStep f l) 64 1
  let r ← i64 (l + w)
  let s ← loop (bisectStep f) 64 (l, r)
  return s.2

/-- `while (r - l >= 3) …` — search.hpp:44-48; state `(l, r)`. `worse x y` is `compare(f(x), f(y))`. -/
def ternaryStep (worse : Int → Int → Bool) (s : Int × Int) : M (Option (Int × Int)) := do
  let d ← i64 (s.2 - s.1)
  if d ≥ 3 then do
    let ml ← i64 (s.1 + d / 3)
    let mr ← i64 (s.2 - d / 3)
    if worse ml mr then return some (ml, s.2) else return some (s.1, mr)
  else return none

/-- `for (y = l + 1; y <= r; ++y) …` — search.hpp:51-53; state `(y, x)`. -/
def scanStep (worse : Int → Int → Bool) (r : Int) (s : Int × Int) : M (Option (Int × Int)) :=
  if s.1 ≤ r then do
    let y ← i64 (s.1 + 1)
    if worse s.2 s.1 then return some (y, s.1) else return some (y, s.2)
  else return none

/-- `ternary_search_key(l, r, f)` for integral arguments — search.hpp:41-55. Each round keeps at most two thirds of the interval, so 112 rounds are enough. -/
def ternaryKey (worse : Int → Int → Bool) (l r : Int) : M Int := do
  check (decide (l ≤ r))
  let s ← loop (ternaryStep worse) 112 (l, r)
  let y ← i64 (s.1 + 1)
  let t ← loop (scanStep worse s.2) 4 (y, s.1)
  return t.2

end Search

namespace CumulativeSum
open Cxx
variable {α : Type}

/-- Members — cumulative_sum.hpp:28-29; `none` is an indeterminate `n`. -/
structure State (α : Type) where
  n : Option Nat
  s : Array α

/-- `CumulativeSum() = default;` without an initialiser (`CumulativeSum<T> c;`) — cumulative_sum.hpp:11. -/
def defaultInit : State α := ⟨none, #[]⟩

/-- `CumulativeSum<T> c{};`: value initialisation sets `n` to zero. -/
def valueInit : State α := ⟨some 0, #[]⟩

/-- Reading `n`. -/
def getN (c : State α) : M Nat := match c.n with
  | some n => .ok n
  | none => .error .ub

/-- `s[i + 1] = add(a[i], s[i])` — cumulative_sum.hpp:13. -/
def buildStep (add : α → α → α) (a : Array α) (i : Nat) (s : Array α) : M (Array α) := do
  let x ← rd a i
  let y ← rd s i
  wr s (i + 1) (add x y)

/-- Constructor — cumulative_sum.hpp:12-14. -/
def ofVector (zero : α) (add : α → α → α) (a : Array α) : M (State α) := do
  let s ← forUp 0 a.size (Array.replicate (a.size + 1) zero) (buildStep add a)
  return ⟨some a.size, s⟩

/-- `operator()(l, r)` / `sum` — cumulative_sum.hpp:15-21. -/
def sum (sub : α → α → α) (c : State α) (l r : Nat) : M α := do
  let n ← getN c
  check (decide (l ≤ r ∧ r ≤ n))
  let x ← rd c.s r
  let y ← rd c.s l
  return sub x y

/-- `push_back` — cumulative_sum.hpp:22-26. -/
def pushBack (zero : α) (add : α → α → α) (c : State α) (v : α) : M (State α) := do
  let s := if c.s.size = 0 then #[zero] else c.s
  let b ← rd s (s.size - 1)
  let n ← getN c
  return ⟨some (n + 1), s.push (add b v)⟩

end CumulativeSum

namespace CumulativeSum2D
open Cxx
variable {α : Type}

/-- Members — cumulative_sum_2d.hpp:22-23. -/
structure State (α : Type) where
  n : Nat
  m : Nat
  s : Array (Array α)

/-- `s[i][j]` -/
def rd2 (s : Array (Array α)) (i j : Nat) : M α := do
  let r ← rd s i
  rd r j

/-- `s[i][j] = v` -/
def wr2 (s : Array (Array α)) (i j : Nat) (v : α) : M (Array (Array α)) := do
  let r ← rd s i
  let r ← wr r j v
  wr s i r

/-- Body of the double loop — cumulative_sum_2d.hpp:14. -/
def cellStep (add sub : α → α → α) (a : Array (Array α)) (i j : Nat) (s : Array (Array α)) : M (Array (Array α)) := do
  let x ← rd2 a i j
  let y ← rd2 s (i + 1) j
  let z ← rd2 s i (j + 1)
  let w ← rd2 s i j
  wr2 s (i + 1) (j + 1) (sub (add (add x y) z) w)

/-- `m(n == 0 ? 0 : a[0].size())` — cumulative_sum_2d.hpp:12. -/
def width (a : Array (Array α)) : Nat :=
  match a[0]? with
  | some r => r.size
  | none => 0

/-- Constructor — cumulative_sum_2d.hpp:12-16. -/
def ofGrid (zero : α) (add sub : α → α → α) (a : Array (Array α)) : M (State α) := do
  let s ← forUp 0 a.size (Array.replicate (a.size + 1) (Array.replicate (width a + 1) zero)) fun i s =>
    forUp 0 (width a) s (cellStep add sub a i)
  return ⟨a.size, width a, s⟩

/-- `operator()(u, d, l, r)` — cumulative_sum_2d.hpp:17-20. -/
def sum (zero : α) (add sub : α → α → α) (c : State α) (u d l r : Nat) : M α :=
  if u ≤ d ∧ d ≤ c.n ∧ l ≤ r ∧ r ≤ c.m then do
    let x ← rd2 c.s d r
    let y ← rd2 c.s u l
    let z ← rd2 c.s u r
    let w ← rd2 c.s d l
    return sub (add x y) (add z w)
  else return zero

end CumulativeSum2D

namespace StepSum
open Cxx
variable {α : Type}

/-- Members — step_sum.hpp:39-40. -/
structure State (α : Type) where
  s : Array α
  step : Nat

/-- `_sum[i] += _sum[i - _step]` — step_sum.hpp:17. -/
def buildStep (add : α → α → α) (step i : Nat) (s : Array α) : M (Array α) := do
  let x ← rd s i
  let y ← rd s (i - step)
  wr s i (add x y)

/-- `for (int i = _step; i < _n; ++i) …` — step_sum.hpp:16-18. -/
def prefixes (add : α → α → α) (a : Array α) (step : Nat) : M (Array α) :=
  if step ≤ a.size then forUp step a.size a (buildStep add step) else return a

/-- Constructor for `step ≥ 0` — step_sum.hpp:15-19. `barrett(0)` divides by zero; for `step ≥ 1` it divides exactly (C23). -/
def build (add : α → α → α) (a : Array α) (step : Nat) : M (State α) :=
  if step = 0 then .error .ub
  else do
    let s ← prefixes add a step
    return ⟨s, step⟩

/-- `ans -= _sum[s * _step + k]` — step_sum.hpp:25-28. -/
def subPart (sub : α → α → α) (c : State α) (k l : Nat) (ans : α) : M α :=
  if l > k then do
    let y ← rd c.s ((l - 1 - k) / c.step * c.step + k)
    return sub ans y
  else return ans

/-- `sum(k, l, r)` for `0 ≤ k, l, r` — step_sum.hpp:21-30. `_br.quo` takes an unsigned 64-bit argument: a negative difference wraps to a huge
value, whose quotient times the step is far outside the vector (or overflows `int`), modelled as undefined behaviour. -/
def sum (zero : α) (sub : α → α → α) (c : State α) (k l r : Nat) : M α :=
  if r ≤ k ∨ r ≤ l ∨ l ≥ c.s.size then return zero
  else if min c.s.size r - 1 < k then .error .ub
  else do
    let ans ← rd c.s ((min c.s.size r - 1 - k) / c.step * c.step + k)
    subPart sub c k l ans

end StepSum

namespace SubsetIter
open Cxx

/-- `all_subset` on a `w`-bit unsigned type — subset_iterator.hpp:17-29: the range-for loop calls `!=`, which decrements and masks `t`; state `(t, visited)`. -/
def subsetStep (s : Nat) (q : Nat × List Nat) : M (Option (Nat × List Nat)) :=
  if q.1 = 0 then return none
  else return some ((q.1 - 1) &&& s, q.2 ++ [(q.1 - 1) &&& s])

/-- `for (T t : all_subset(s))` — the visited values in order; `t` starts as `s + 1` modulo `2^w`. -/
def allSubset (w s : Nat) : M (List Nat) := do
  let q ← loop (subsetStep s) (s + 1) ((s + 1) % 2 ^ w, [])
  return q.2

/-- `_tzcnt_u32/u64`: number of trailing zeros, the word size for 0. -/
def tzcnt (w x : Nat) : Nat := ((List.range w).find? fun i => x.testBit i).getD w

/-- `_blsi`: `-x & x` in `w` bits. -/
def blsi (w x : Nat) : Nat := ((2 ^ w - x) % 2 ^ w) &&& x

/-- `__blsr`: `x & (x - 1)` in `w` bits. -/
def blsr (w x : Nat) : Nat := x &&& ((x + 2 ^ w - 1) % 2 ^ w)

/-- `for (auto i : all_setbit(s))` — subset_iterator.hpp:89-103 (32 bits), 105-119 (64 bits); state `(s, visited)`. -/
def setbitStep (w : Nat) (q : Nat × List Nat) : M (Option (Nat × List Nat)) :=
  if q.1 = 0 then return none
  else return some (blsr w q.1, q.2 ++ [tzcnt w q.1])

/-- The visited bit positions in order. -/
def allSetbit (w s : Nat) : M (List Nat) := do
  let q ← loop (setbitStep w) w (s, [])
  return q.2

/-- `_pdep(t, s)`: the low bits of `t` are deposited at the set bits of `s`, low to high. -/
def pdep (w t s : Nat) : Nat := go w t s
where
  /-- Over the remaining bits. -/
  go : Nat → Nat → Nat → Nat
    | 0, _, _ => 0
    | w + 1, t, s => if s % 2 = 1 then t % 2 + 2 * go w (t / 2) (s / 2) else 2 * go w t (s / 2)

/-- `_mm_popcnt` of a `w`-bit word. -/
def popcnt (w x : Nat) : Nat := ((List.range w).filter fun i => x.testBit i).length

/-- `operator++` of `all_subset_k_iter` — subset_iterator.hpp:41-48, 70-77; a shift by the word size is undefined. -/
def nextK (w k t : Nat) : M Nat :=
  if k = 0 then return 2 ^ w - 1
  else
    let y := (t + blsi w t) % 2 ^ w
    let z := tzcnt w (t * 4 % 2 ^ w)
    if z ≥ w then .error .ub else return y ||| ((y ^^^ t) >>> z)

/-- Loop over `all_subset_k(s, k)`; state `(t, visited)`. -/
def subsetKStep (w s k : Nat) (q : Nat × List Nat) : M (Option (Nat × List Nat)) :=
  if q.1 < 2 ^ popcnt w s then do
    let t ← nextK w k q.1
    return some (t, q.2 ++ [pdep w q.1 s])
  else return none

/-- `for (auto t : all_subset_k(s, k))` — subset_iterator.hpp:32-58 (`w = 32`), 60-87 (`w = 64`). -/
def allSubsetK (w s k : Nat) : M (List Nat) := do
  check (decide (s ≠ 2 ^ w - 1))
  if k ≥ w then .error .ub
  else do
    let q ← loop (subsetKStep w s k) (2 ^ w) ((2 ^ k - 1) % 2 ^ w, [])
    return q.2

end SubsetIter
