import Verif.Model.Bits

/-!
# Model of `library/datastructure/segment_tree/segment_tree.hpp`

`op`, `e` are the template parameters.  `max_right`/`min_left` are written in the C++ with `e` where `e()` is meant (lines
53, 56, 77, 80), so they cannot be instantiated as they stand; the model reads `e` as `e()`.
-/

namespace SegmentTree
open Cxx

/-- One evaluation of `while (m < n) m <<= 1;` — segment_tree.hpp:104. -/
def ceilStep (n m : Nat) : M (Option Nat) := if m < n then return some (m * 2) else return none

/-- `ceil_pow2` — segment_tree.hpp:102-106. -/
def ceilPow2 (n : Nat) : M Nat := loop (ceilStep n) n 1

/-- Members `n`, `m`, `data` — segment_tree.hpp:99-100. -/
structure State (T : Type) where
  n : Nat
  m : Nat
  data : Array T

variable {T : Type} (op : T → T → T) (e : T)

/-- `void update(int k)` — segment_tree.hpp:110-112. -/
def update (data : Array T) (k : Nat) : M (Array T) := do
  let a ← rd data (k * 2)
  let b ← rd data (k * 2 + 1)
  wr data k (op a b)

/-- One evaluation of `for (k >>= 1; k; k >>= 1) update(k);` — segment_tree.hpp:108. -/
def updStep (s : Nat × Array T) : M (Option (Nat × Array T)) :=
  if s.1 = 0 then return none else do
    let data ← update op s.2 s.1
    return some (s.1 / 2, data)

/-- `void update_from(int k)` — segment_tree.hpp:107-109. -/
def updateFrom (data : Array T) (k : Nat) : M (Array T) := do
  let (_, data) ← loop (updStep op) k (k / 2, data)
  return data

/-- `void build(const std::vector<T>&)` — segment_tree.hpp:19-23. -/
def build (s : State T) (a : Array T) : M (State T) := do
  check (decide (a.size ≤ s.m))
  let data ← forUp 0 a.size s.data fun i data => do wr data (s.m + i) (← rd a i)
  let data ← forDown s.m 1 data fun k data => update op data k
  return ⟨s.n, s.m, data⟩

/-- `SegmentTree(const std::vector<T>&)` — segment_tree.hpp:15-17. -/
def ofVector (a : Array T) : M (State T) := do
  let m ← ceilPow2 a.size
  build op ⟨a.size, m, Array.replicate (2 * m) e⟩ a

/-- `SegmentTree(int n)` — segment_tree.hpp:14. -/
def init (n : Nat) : M (State T) := ofVector op e (Array.replicate n e)

/-- `const T& get(int i) const` — segment_tree.hpp:24-27. -/
def get (s : State T) (i : Nat) : M T := do
  check (decide (i < s.n))
  rd s.data (i + s.m)

/-- `if (l & 1) res_l = op(res_l, data[l++]);` — segment_tree.hpp:31. -/
def takeL (data : Array T) (l : Nat) (a : T) : M (Nat × T) :=
  if l % 2 = 1 then do let d ← rd data l; return (l + 1, op a d) else return (l, a)

/-- `if (r & 1) res_r = op(data[--r], res_r);` — segment_tree.hpp:32. -/
def takeR (data : Array T) (r : Nat) (b : T) : M (Nat × T) :=
  if r % 2 = 1 then do let d ← rd data (r - 1); return (r - 1, op d b) else return (r, b)

/-- One evaluation of the loop of `operator()` — segment_tree.hpp:30-33. State: `(l, r, res_l, res_r)`. -/
def prodStep (data : Array T) (s : Nat × Nat × T × T) : M (Option (Nat × Nat × T × T)) :=
  let (l, r, a, b) := s
  if l < r then do
    let (l, a) ← takeL op data l a
    let (r, b) ← takeR op data r b
    return some (l / 2, r / 2, a, b)
  else return none

/-- `T operator()(int l, int r) const` (= `prod`) — segment_tree.hpp:28-36. -/
def prod (s : State T) (l r : Nat) : M T := do
  let (_, _, a, b) ← loop (prodStep op s.data) (r + s.m) (l + s.m, r + s.m, e, e)
  return op a b

/-- `T all_prod() const` — segment_tree.hpp:39. -/
def allProd (s : State T) : M T := rd s.data 1

/-- `auto operator[](int i)` followed by one of the modifying operators of `UpdateProxyObject` (`=`, `+=`, `apply`, …):
the leaf is rewritten by `h`, then `update_from` runs — segment_tree.hpp:41-48, update_proxy_object.hpp:12-24. -/
def modify (s : State T) (i : Nat) (h : T → T) : M (State T) := do
  check (decide (i < s.n))
  let v ← rd s.data (i + s.m)
  let data ← wr s.data (i + s.m) (h v)
  let data ← updateFrom op data (i + s.m)
  return ⟨s.n, s.m, data⟩

/-- `while (l % 2 == 0) l >>= 1;` — segment_tree.hpp:58. -/
def climbEven (l : Nat) : M Nat := loop (fun l => if l % 2 = 0 then pure (some (l / 2)) else pure none) l l

/-- Descent of `max_right` — segment_tree.hpp:60-63. -/
def descendR (g : T → Bool) (m : Nat) (data : Array T) (s : Nat × T) : M (Option (Nat × T)) :=
  if s.1 < m then do
    let l := 2 * s.1
    let d ← rd data l
    if g (op s.2 d) then return some (l + 1, op s.2 d) else return some (l, s.2)
  else return none

/-- One round of the `do … while` loop of `max_right` — segment_tree.hpp:57-68. The `Bool` of the state is "the loop has
been left", the result is then in the first component. -/
def maxStep (g : T → Bool) (n m : Nat) (data : Array T) (s : Bool × Nat × T) : M (Option (Bool × Nat × T)) :=
  let (stop, l, sum) := s
  if stop then return none else do
    let l ← climbEven l
    let d ← rd data l
    if g (op sum d) then
      let l := l + 1
      if Bits.lowbit l ≠ l then return some (false, l, op sum d) else return some (true, n, op sum d)
    else
      let (l, sum) ← loop (descendR op g m data) m (l, sum)
      return some (true, l - m, sum)

/-- `int max_right(int l, const Pred &f) const` — segment_tree.hpp:51-70. -/
def maxRight (s : State T) (l : Nat) (g : T → Bool) : M Nat := do
  check (decide (l ≤ s.n))
  check (g e)
  if l = s.n then return s.n
  let (_, r, _) ← loop (maxStep op g s.n s.m s.data) (2 * s.m) (false, l + s.m, e)
  return r

/-- `while (r > 1 && (r % 2)) r >>= 1;` — segment_tree.hpp:83. -/
def climbOdd (r : Nat) : M Nat := loop (fun r => if 1 < r ∧ r % 2 = 1 then pure (some (r / 2)) else pure none) r r

/-- Descent of `min_left` — segment_tree.hpp:85-88. -/
def descendL (g : T → Bool) (m : Nat) (data : Array T) (s : Nat × T) : M (Option (Nat × T)) :=
  if s.1 < m then do
    let r := 2 * s.1 + 1
    let d ← rd data r
    if g (op d s.2) then return some (r - 1, op d s.2) else return some (r, s.2)
  else return none

/-- One round of the `do … while` loop of `min_left` — segment_tree.hpp:81-92. -/
def minStep (g : T → Bool) (m : Nat) (data : Array T) (s : Bool × Nat × T) : M (Option (Bool × Nat × T)) :=
  let (stop, r, sum) := s
  if stop then return none else do
    let r ← climbOdd (r - 1)
    let d ← rd data r
    if g (op d sum) then
      if Bits.lowbit r ≠ r then return some (false, r, op d sum) else return some (true, 0, op d sum)
    else
      let (r, sum) ← loop (descendL op g m data) m (r, sum)
      return some (true, r + 1 - m, sum)

/-- `int min_left(int r, const Pred &f) const` — segment_tree.hpp:75-94. -/
def minLeft (s : State T) (r : Nat) (g : T → Bool) : M Nat := do
  check (decide (r ≤ s.n))
  check (g e)
  if r = 0 then return 0
  let (_, l, _) ← loop (minStep op g s.m s.data) (2 * s.m) (false, r + s.m, e)
  return l

/-- The calls a user can make. -/
inductive Op (T : Type) where
  | build (a : Array T) | modify (i : Nat) (h : T → T) | get (i : Nat) | prod (l r : Nat) | prefixProd (r : Nat)
  | suffixProd (l : Nat) | allProd | maxRight (l : Nat) (g : T → Bool) | minLeft (r : Nat) (g : T → Bool)

/-- What a call returns. -/
inductive Out (T : Type) where
  | unit | val (v : T) | idx (i : Nat)
  deriving DecidableEq

/-- One call — `prefix_prod`, `suffix_prod`: segment_tree.hpp:37-38. -/
def step (s : State T) : Op T → M (State T × Out T)
  | .build a => do let s ← build op s a; return (s, .unit)
  | .modify i h => do let s ← modify op s i h; return (s, .unit)
  | .get i => do let v ← get s i; return (s, .val v)
  | .prod l r => do let v ← prod op e s l r; return (s, .val v)
  | .prefixProd r => do let v ← prod op e s 0 r; return (s, .val v)
  | .suffixProd l => do let v ← prod op e s l s.m; return (s, .val v)
  | .allProd => do let v ← allProd s; return (s, .val v)
  | .maxRight l g => do let r ← maxRight op e s l g; return (s, .idx r)
  | .minLeft r g => do let l ← minLeft op e s r g; return (s, .idx l)

end SegmentTree
