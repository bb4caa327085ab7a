import Verif.Model.BitVector
import Verif.Model.Machine

/-!
# Model of `library/datastructure/wavelet_matrix.hpp`

`T` is an unsigned type of `D` bits (or a signed one used with non-negative values only), `w` is `bit_num`.
`std::array<BitVector, bit_num>` is an array of size `w`. The results of `bv.rank` are used as indices; a negative index is undefined.
-/

namespace WaveletMatrix
open Cxx BitVector

/-- The object — wavelet_matrix.hpp:161-163. -/
structure WM where
  n : Nat
  bv : Array BV
  mid : Array Nat

/-- `(x >> log) & 1`. -/
def bit (x log : Nat) : Bool := (x >>> log) % 2 == 1

/-- The generating function of line 31. -/
def bitAt (a : Array Nat) (log i : Nat) : M Bool := do
  let x ← rd a i
  return bit x log

/-- Line 34: state `(l, li, r, ri)`. -/
def partStep (a : Array Nat) (log i : Nat) (s : (Array Nat × Nat) × (Array Nat × Nat)) : M ((Array Nat × Nat) × (Array Nat × Nat)) := do
  let x ← rd a i
  if bit x log then do
    let r ← wr s.2.1 s.2.2 x
    return (s.1, (r, s.2.2 + 1))
  else do
    let l ← wr s.1.1 s.1.2 x
    return ((l, s.1.2 + 1), s.2)

/-- `std::copy(r.begin(), r.begin() + ri, a.begin() + li)` — line 37. -/
def copyInto (a r : Array Nat) (li ri : Nat) : M (Array Nat) :=
  forUp 0 ri a fun t a => do
    let x ← rd r t
    wr a (li + t) x

/-- The variables of `build`. -/
structure B where
  a : Array Nat
  l : Array Nat
  r : Array Nat
  wm : WM

/-- Body of the loop of `build` — wavelet_matrix.hpp:31-38. -/
def buildStep (log : Nat) (s : B) : M B := do
  let v ← BitVector.make s.wm.n (bitAt s.a log)
  let bv ← wr s.wm.bv log v
  let p ← forUp 0 s.wm.n ((s.l, 0), (s.r, 0)) (partStep s.a log)
  let a ← copyInto p.1.1 p.2.1 p.1.2 p.2.2
  let mid ← wr s.wm.mid log p.1.2
  return ⟨a, s.a, p.2.1, ⟨s.wm.n, bv, mid⟩⟩

/-- `WaveletMatrix(n, generator)` with `build` — wavelet_matrix.hpp:18-40; `gen i` is `a[i]`. -/
def make (w n : Nat) (gen : Nat → Nat) : M WM := do
  let a ← forUp 0 n (Array.replicate n 0) fun i a => wr a i (gen i)
  let s ← forDown w 0 ⟨a, Array.replicate n 0, Array.replicate n 0, ⟨n, Array.replicate w (BV.empty 0), Array.replicate w 0⟩⟩ buildStep
  return s.wm

/-- An `int` used as an index. -/
def idx (x : Int) : M Nat := if x < 0 then .error .ub else .ok x.toNat

/-- `b * mid[log] + bv[log].rank(b, i)` — lines 48, 166, 167. -/
def next (s : WM) (log : Nat) (b : Bool) (i : Nat) : M Nat := do
  let m ← rd s.mid log
  let v ← rd s.bv log
  let c ← rank v b i
  idx (b.toNat * m + c)

/-- `succ(l, r, b, log)` — wavelet_matrix.hpp:165-168. -/
def succ (s : WM) (b : Bool) (log : Nat) (lr : Nat × Nat) : M (Nat × Nat) := do
  let l ← next s log b lr.1
  let r ← next s log b lr.2
  return (l, r)

/-- Body of the loop of `operator[]` — wavelet_matrix.hpp:46-48; state `(i, res)`. -/
def getStep (s : WM) (log : Nat) (c : Nat × Nat) : M (Nat × Nat) := do
  let v ← rd s.bv log
  let b ← BitVector.get v c.1
  let i ← next s log b c.1
  return (i, c.2 ||| (b.toNat <<< log))

/-- `operator[](i)`, `access(i)` — wavelet_matrix.hpp:43-55. -/
def get (s : WM) (w i : Nat) : M Nat := do
  let c ← forDown w 0 (i, 0) (getStep s)
  return c.2

/-- `check_value_bounds(val)` — wavelet_matrix.hpp:170-172; a shift by the width of the (promoted) type is undefined. -/
def checkValue (D w val : Nat) : M Unit :=
  if w ≥ max D 32 then .error .ub else check (val >>> w == 0)

/-- `rank(val, i)` — wavelet_matrix.hpp:58-63. -/
def rankVal (D w : Nat) (s : WM) (val i : Nat) : M Int := do
  checkValue D w val
  let c ← forDown w 0 (0, i) fun log lr => succ s (bit val log) log lr
  return (c.2 : Int) - c.1

/-- The variables of the queries. -/
structure Q where
  lr : Nat × Nat
  k : Int
  res : Nat

/-- Body of the loop of `range_xor_kth_smallest` — wavelet_matrix.hpp:71-76. -/
def kthStep (s : WM) (x log : Nat) (q : Q) : M Q := do
  let z := bit x log
  let v ← rd s.bv log
  let cnt ← rankRange v z q.lr.1 q.lr.2
  let skip := decide (q.k ≥ cnt)
  let b := z ^^ skip
  let lr ← succ s b log q.lr
  return ⟨lr, q.k - skip.toNat * cnt, q.res ||| (b.toNat <<< log)⟩

/-- `range_xor_kth_smallest(l, r, k, x, default_value)` — wavelet_matrix.hpp:66-79. -/
def kth (D w : Nat) (s : WM) (l r : Nat) (k : Int) (x dflt : Nat) : M Nat :=
  if k < 0 ∨ k ≥ (r : Int) - l then return dflt
  else do
    checkValue D w x
    let q ← forDown w 0 ⟨(l, r), k, 0⟩ (kthStep s x)
    return q.res

/-- `range_xor_kth_largest(l, r, k, x, default_value)` — wavelet_matrix.hpp:81-83. -/
def kthLargest (D w : Nat) (s : WM) (l r : Nat) (k : Int) (x dflt : Nat) : M Nat := do
  let j ← i32 ((r : Int) - l - 1 - k)
  kth D w s l r j x dflt

/-- `range_xor_min(l, r, x)` — wavelet_matrix.hpp:85-88. -/
def xorMin (D w : Nat) (s : WM) (l r x : Nat) : M Nat := do
  check (decide (l < r))
  kth D w s l r 0 x (2 ^ D - 1)

/-- `range_xor_max(l, r, x)` — wavelet_matrix.hpp:90-93. -/
def xorMax (D w : Nat) (s : WM) (l r x : Nat) : M Nat := do
  check (decide (l < r))
  kthLargest D w s l r 0 x (2 ^ D - 1)

/-- `if (u) res += bv[log].rank(z, l, r)` — line 103. -/
def addRank (v : BV) (u z : Bool) (q : Q) : M Int :=
  if u then do
    let c ← rankRange v z q.lr.1 q.lr.2
    return q.k + c
  else return q.k

/-- Body of the loop of `range_xor_freq` — wavelet_matrix.hpp:102-104; `k` is `res`. -/
def freqStep (s : WM) (x upper log : Nat) (q : Q) : M Q := do
  let z := bit x log
  let u := bit upper log
  let v ← rd s.bv log
  let c ← addRank v u z q
  let lr ← succ s (z ^^ u) log q.lr
  return ⟨lr, c, 0⟩

/-- `range_xor_freq(l, r, x, upper)` — wavelet_matrix.hpp:96-107; `MAX` is `2^w - 1` (line 159). -/
def freq (D w : Nat) (s : WM) (l r x upper : Nat) : M Int :=
  if r ≤ l then return 0
  else if upper > 2 ^ w - 1 then return (r : Int) - l
  else do
    checkValue D w x
    let q ← forDown w 0 ⟨(l, r), 0, 0⟩ (freqStep s x upper)
    return q.k

/-- `range_xor_freq(l, r, x, lower, upper)` — wavelet_matrix.hpp:109-112. -/
def freq2 (D w : Nat) (s : WM) (l r x lower upper : Nat) : M Int :=
  if lower ≥ upper then return 0
  else do
    let a ← freq D w s l r x upper
    let b ← freq D w s l r x lower
    return a - b

/-- `range_xor_min_geq(l, r, x, lower, default_value)` — wavelet_matrix.hpp:115-118. -/
def minGeq (D w : Nat) (s : WM) (l r x lower dflt : Nat) : M Nat := do
  let cnt ← freq D w s l r x lower
  if cnt ≥ (r : Int) - l then return dflt
  else kth D w s l r cnt x (2 ^ D - 1)

/-- `range_xor_min_gt` — wavelet_matrix.hpp:120-122; `lower + 1` in `T`. -/
def minGt (D w : Nat) (s : WM) (l r x lower dflt : Nat) : M Nat :=
  if lower = 2 ^ w - 1 then return dflt
  else minGeq D w s l r x ((lower + 1) % 2 ^ D) dflt

/-- `range_xor_max_lt` — wavelet_matrix.hpp:124-127. -/
def maxLt (D w : Nat) (s : WM) (l r x upper dflt : Nat) : M Nat := do
  let cnt ← freq D w s l r x upper
  if cnt = 0 then return dflt
  else kth D w s l r (cnt - 1) x dflt

/-- `range_xor_max_leq` — wavelet_matrix.hpp:129-132. -/
def maxLeq (D w : Nat) (s : WM) (l r x upper dflt : Nat) : M Nat :=
  if l ≥ r then return dflt
  else if upper = 2 ^ w - 1 then xorMax D w s l r x
  else maxLt D w s l r x ((upper + 1) % 2 ^ D) dflt

end WaveletMatrix
