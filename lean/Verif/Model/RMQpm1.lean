import Verif.Model.Machine
import Verif.Model.SparseTable

/-!
# Model of `library/algorithm/rmq_pm1.hpp` (lines "a") and `library/algorithm/rmq_pm1_with_index.hpp` (lines "b")

The two headers differ only in the values they return: `T` is `int` or `pair<int, int>`, described by `Kind`. `RMQpm1` does not have the table `arg`; its presence does not change anything for `Kind.plain`. `LOG` is the parameter `lg` (4 in the headers, in which case `std::uint16_t` has `2 ^ LOG` bits); `mn` is `is_min_query`. The tables are computed at compile time and hold numbers of absolute value at most 16, no overflow is modelled there. Arguments `l`, `r` of queries are natural numbers.
-/

namespace RMQpm1
open Cxx

/-- The type of the results: `comp`, `e()` and `{value, index}`. -/
structure Kind (T : Type) where
  lt : T → T → Bool
  e : T
  of : Int → Int → T

/-- `comp` (a) and `comp_val` (b) — lines a15, b16. -/
def ltv (mn : Bool) (x y : Int) : Bool := if mn then decide (x < y) else decide (y < x)

/-- `comp` on pairs — line b15. -/
def ltp (mn : Bool) (x y : Int × Int) : Bool :=
  if mn then decide (x.1 < y.1 ∨ (x.1 = y.1 ∧ x.2 < y.2)) else decide (y.1 < x.1 ∨ (y.1 = x.1 ∧ y.2 < x.2))

/-- `RMQpm1` — lines a15-25. -/
def Kind.plain (mn : Bool) : Kind Int := ⟨ltv mn, if mn then 2 ^ 31 - 1 else -2 ^ 31, fun v _ => v⟩

/-- `RMQpm1WithIndex` — lines b15-27. -/
def Kind.indexed (mn : Bool) : Kind (Int × Int) := ⟨ltp mn, (if mn then 2 ^ 31 - 1 else -2 ^ 31, -1), fun v i => (v, i)⟩

variable {T : Type} (K : Kind T) (mn : Bool) (lg : Nat)

/-- `op` — lines a16-18, b18-20. -/
def Kind.op (x y : T) : T := if K.lt x y then x else y

/-- `prd`, `arg`, `sum` — lines a32, a40, b34-35, b44. -/
structure Tabs where
  prd : Array Int
  arg : Array Nat
  sum : Array Int

/-- The choice between the two halves — lines a43, b47-53. -/
def pick (half : Nat) (p1 s1 p2 : Int) (a1 a2 : Nat) : Int × Nat := if ltv mn p1 (s1 + p2) then (p1, a1) else (s1 + p2, half + a2)

/-- `merge` — lines a41-45, b45-55. -/
def merge (half s : Nat) (t : Tabs) : M Tabs := do
  let upper := s >>> half
  let lower := s ^^^ (upper <<< half)
  let p1 ← rd t.prd lower
  let s1 ← rd t.sum lower
  let p2 ← rd t.prd upper
  let a1 ← rd t.arg lower
  let a2 ← rd t.arg upper
  let prd ← wr t.prd s (pick mn half p1 s1 p2 a1 a2).1
  let arg ← wr t.arg s (pick mn half p1 s1 p2 a1 a2).2
  let s1 ← rd t.sum lower
  let s2 ← rd t.sum upper
  let sum ← wr t.sum s (s1 + s2)
  return ⟨prd, arg, sum⟩

/-- `prd[is_min_query] = sum[is_min_query] = -1, …` — lines a34, b37-38. -/
def start : M Tabs := do
  let prd := Array.replicate (2 ^ 2 ^ lg) 0
  let sum := Array.replicate (2 ^ 2 ^ lg) 0
  let sum ← wr sum mn.toNat (-1)
  let prd ← wr prd mn.toNat (-1)
  let sum ← wr sum (!mn).toNat 1
  let prd ← wr prd (!mn).toNat 1
  return ⟨prd, Array.replicate (2 ^ 2 ^ lg) 0, sum⟩

/-- The constructor of `S`; the loop variable is `n = 2 ^ k` — lines a33-38, b36-42. -/
def tabs : M Tabs := do
  let t ← start mn lg
  forUp 1 (lg + 1) t fun k t => forDown (2 ^ 2 ^ k) 0 t (merge mn (2 ^ k >>> 1))

/-- The object — lines a64-67, b76-79; `t` are the tables of the class. -/
structure Obj (T : Type) where
  t : Tabs
  a : Array Int
  b : Array Nat
  tabl : SparseTable.State T

/-- State of the loop in `build`: `b`, `c`, `p`. -/
structure Scan (T : Type) where
  b : Array Nat
  c : Array T
  p : T

/-- Loop body — lines a71-75, b85-90. -/
def scanStep (a : Array Int) (i : Nat) (s : Scan T) : M (Scan T) := do
  let x ← rd a i
  let q := K.of x i
  let outer := i >>> lg
  let y ← rd s.c outer
  let c ← wr s.c outer (K.op y q)
  let w ← rd s.b outer
  let b ← wr s.b outer (w ||| (K.lt q s.p).toNat <<< (i &&& (2 ^ lg - 1)))
  return ⟨b, c, q⟩

/-- `std::abs(x - y)` — lines a77, b92. -/
def diff (x y : Int) : M Nat := do
  let d ← i32 (x - y)
  let d ← i32 (d.natAbs : Int)
  return d.natAbs

/-- One comparison of `std::adjacent_find`; nothing is computed after the first hit. -/
def stepsStep (a : Array Int) (i : Nat) (ok : Bool) : M Bool :=
  if ok then do
    let x ← rd a (i - 1)
    let y ← rd a i
    let d ← diff x y
    return decide (d = 1)
  else return false

/-- `std::adjacent_find(…) == a.end()` — lines a77, b92. -/
def steps (a : Array Int) : M Bool := forUp 1 a.size true (stepsStep a)

/-- The constructor with `build` — lines a49, a69-79, b59, b81-94. `d` is the value `resize` fills in inside the sparse table. -/
def make (d : T) (x : Array Int) : M (Obj T) := do
  let t ← tabs mn lg
  let m := (x.size + 2 ^ lg - 1) >>> lg
  let a0 ← rd x 0
  let p ← i32 (a0 - 1)
  let s ← forUp 0 x.size ⟨Array.replicate m 0, Array.replicate m K.e, K.of p (-1)⟩ (scanStep K lg x)
  let a := #[p] ++ x
  let ok ← steps a
  check ok
  let tabl ← SparseTable.ofVector K.op d s.c
  return ⟨t, a, s.b, tabl⟩

/-- `cut` — lines a81-83, b96-98. -/
def cut (bits l r : Nat) : Nat := ((bits <<< (2 ^ lg - r)) % 2 ^ 2 ^ lg) >>> (2 ^ lg - r + l)

/-- The lambda `f` — lines a55-57, b65-69. -/
def part (o : Obj T) (l r : Nat) : M T :=
  if l ≥ r then return K.e else do
  let w ← rd o.b (l >>> lg)
  let idx := cut lg w (l &&& (2 ^ lg - 1)) (((r - 1) &&& (2 ^ lg - 1)) + 1)
  let x ← rd o.a l
  let p ← rd o.t.prd idx
  let v ← i32 (x + p)
  let i ← rd o.t.arg idx
  return K.of v ((l + i : Nat) : Int)

/-- `operator()` — lines a52-61, b62-73. -/
def query (o : Obj T) (l r : Nat) : M T :=
  if l ≥ r then return K.e else
  if l >>> lg = (r - 1) >>> lg then part K lg o l r else do
  let spl := (l + 2 ^ lg - 1) >>> lg
  let spr := r >>> lg
  let x ← part K lg o l (spl <<< lg)
  let y ← part K lg o (spr <<< lg) r
  let z ← SparseTable.prod K.op K.e o.tabl spl spr
  return K.op (K.op x y) z

end RMQpm1
