import Verif.Model.Machine
import Verif.Model.Util
import Mathlib.Order.Defs.LinearOrder

/-!
# Models of `library/algorithm/{maximum_rectangle,maximum_square,monotone_minima,inversion_number}.hpp`

A callback `f(…)` that updates captured variables is a function of the captured state.
-/

namespace MaxRectangle
open Cxx

variable {σ : Type}

/-- The `while` loop — maximum_rectangle.hpp:20-26; state `(stack, j, captured)`; the back of the vector is the head of the list. -/
def popStep (f : σ → Nat → Nat → Int → M σ) (r : Nat) (hr : Int) (s : List (Nat × Int) × Nat × σ) : M (Option (List (Nat × Int) × Nat × σ)) :=
  match s.1 with
  | [] => return none
  | (l, hl) :: rest =>
    if hl < hr then return none
    else do
      let c ← f s.2.2 l r hl
      return some (rest, l, c)

/-- `r < n ? h[r] : 0` — maximum_rectangle.hpp:18. -/
def height (h : Array Int) (r : Nat) : M Int := if r < h.size then rd h r else return 0

/-- Body of the loop over `r` — maximum_rectangle.hpp:17-28. -/
def histStep (h : Array Int) (f : σ → Nat → Nat → Int → M σ) (r : Nat) (s : List (Nat × Int) × σ) : M (List (Nat × Int) × σ) := do
  let hr ← height h r
  let t ← loop (popStep f r hr) s.1.length (s.1, r, s.2)
  return ((t.2.1, hr) :: t.1, t.2.2)

/-- `maximal_rectangles_hist(h, f)` — maximum_rectangle.hpp:10-29. -/
def hist (h : Array Int) (f : σ → Nat → Nat → Int → M σ) (c : σ) : M σ := do
  let s ← forUp 0 (h.size + 1) ([], c) (histStep h f)
  return s.2

/-- `g[i][r]`. -/
def cell (g : Array (Array Bool)) (i r : Nat) : M Bool := do
  let row ← rd g i
  rd row r

/-- `i + 1 != n ? not bool(g[i + 1][r]) : 1` — maximum_rectangle.hpp:42. -/
def zeroBelow (g : Array (Array Bool)) (i r : Nat) : M Int :=
  if i + 1 ≠ g.size then do
    let b ← cell g (i + 1) r
    return if b then 0 else 1
  else return 1

/-- Body of the loop over `r` — maximum_rectangle.hpp:40-43; state `(h, cnt_zero)`. -/
def rowStep (g : Array (Array Bool)) (i r : Nat) (s : Array Int × Array Int) : M (Array Int × Array Int) := do
  let b ← cell g i r
  let old ← rd s.1 r
  let h ← wr s.1 r (if b then old + 1 else 0)
  let z ← zeroBelow g i r
  let c ← rd s.2 r
  let cz ← wr s.2 (r + 1) (c + z)
  return (h, cz)

/-- The lambda given to `maximal_rectangles_hist` — maximum_rectangle.hpp:44-48. -/
def report (f : σ → Int → Int → Nat → Nat → M σ) (cz : Array Int) (i : Nat) (c : σ) (l r : Nat) (h : Int) : M σ := do
  let x ← rd cz r
  let y ← rd cz l
  if x - y ≠ 0 then f c (i - h + 1) (i + 1) l r else return c

/-- Body of the loop over rows — maximum_rectangle.hpp:39-49; state `((h, cnt_zero), captured)`. -/
def gridStep (g : Array (Array Bool)) (m : Nat) (f : σ → Int → Int → Nat → Nat → M σ) (i : Nat) (s : (Array Int × Array Int) × σ) : M ((Array Int × Array Int) × σ) := do
  let t ← forUp 0 m s.1 (rowStep g i)
  let c ← hist t.1 (report f t.2 i) s.2
  return (t, c)

/-- `maximal_rectangles(g, f)` — maximum_rectangle.hpp:33-50. -/
def rectangles (g : Array (Array Bool)) (f : σ → Int → Int → Nat → Nat → M σ) (c : σ) : M σ :=
  if g.size = 0 then return c
  else do
    let row ← rd g 0
    let m := row.size
    let s ← forUp 0 g.size ((Array.replicate m 0, Array.replicate (m + 1) 0), c) (gridStep g m f)
    return s.2

/-- The rectangles passed to the callback, in order. -/
def collect (g : Array (Array Bool)) : M (List (Int × Int × Nat × Nat)) :=
  rectangles g (fun acc u d l r => return acc ++ [(u, d, l, r)]) []

/-- The lambda of `maximum_rectngle` — maximum_rectangle.hpp:58-64; state `(max_area, max_rect)`. -/
def better (c : Int × Int × Int × Nat × Nat) (u d : Int) (l r : Nat) : M (Int × Int × Int × Nat × Nat) := do
  let area ← i32 ((d - u) * ((r : Int) - l))
  return if area > c.1 then (area, u, d, l, r) else c

/-- `maximum_rectngle(g)` — maximum_rectangle.hpp:54-67. -/
def maximum (g : Array (Array Bool)) : M (Int × Int × Int × Nat × Nat) := rectangles g better (0, 0, 0, 0, 0)

end MaxRectangle

namespace MaxSquare
open Cxx

/-- State: `dp`, `max_l`, `max_square`. -/
structure State where
  dp : Array Int
  maxL : Int
  sq : Int × Int × Int × Int

/-- The new `dp[j]` — maximum_square.hpp:22-26. -/
def value (pd dp : Array Int) (j : Nat) : M Int :=
  if j = 0 then return 1
  else do
    let x ← rd dp (j - 1)
    let y ← rd pd (j - 1)
    let z ← rd pd j
    return 1 + min (min x y) z

/-- `if (dp[j] > max_l) …` — maximum_square.hpp:27-30. -/
def upd (i j : Nat) (v : Int) (s : State) : State :=
  if v > s.maxL then { s with maxL := v, sq := (i + 1 - v, i + 1, j + 1 - v, j + 1) } else s

/-- Body of the loop over `j` for a true cell — maximum_square.hpp:22-30. -/
def onTrue (pd : Array Int) (i j : Nat) (s : State) : M State := do
  let v ← value pd s.dp j
  let dp ← wr s.dp j v
  return upd i j v { s with dp := dp }

/-- Body of the loop over `j` — maximum_square.hpp:21-31. -/
def cellStep (g : Array (Array Bool)) (pd : Array Int) (i j : Nat) (s : State) : M State := do
  let b ← MaxRectangle.cell g i j
  if b then onTrue pd i j s else return s

/-- Body of the loop over rows — maximum_square.hpp:19-33; the `dp` of the state is `pd`. -/
def rowStep (g : Array (Array Bool)) (m i : Nat) (s : State) : M State :=
  forUp 0 m { s with dp := Array.replicate m 0 } (cellStep g s.dp i)

/-- `n == 0 ? 0 : g[0].size()` — maximum_square.hpp:16. -/
def width (g : Array (Array Bool)) : M Nat :=
  if g.size = 0 then return 0
  else do
    let row ← rd g 0
    return row.size

/-- `maximum_square(g)` — maximum_square.hpp:11-35. -/
def maximum (g : Array (Array Bool)) : M (Int × Int × Int × Int × Int) := do
  let m ← width g
  let s ← forUp 0 g.size ⟨Array.replicate m 0, 0, (0, 0, 0, 0)⟩ (rowStep g m)
  let a ← i32 (s.maxL * s.maxL)
  return (a, s.sq)

end MaxSquare

namespace MonotoneMinima
open Cxx

/-- `if (not compare(row, argmin, col)) argmin = col;` — monotone_minima.hpp:23. -/
def colStep (compare : Nat → Nat → Nat → M Bool) (row col argmin : Nat) : M Nat := do
  let b ← compare row argmin col
  return if b then argmin else col

/-- The recursive lambda — monotone_minima.hpp:18-27; the fuel bounds the depth. -/
def rec (compare : Nat → Nat → Nat → M Bool) : Nat → Nat → Nat → Nat → Nat → Array Int → M (Array Int)
  | fuel, u, d, l, r, res =>
    if u = d then return res
    else match fuel with
      | 0 => .error .diverge
      | fuel + 1 => do
        check (decide (l < r))
        let row := (u + d) / 2
        let argmin ← forUp (l + 1) r l (colStep compare row)
        let res ← wr res row (argmin : Int)
        let res ← rec compare fuel u row l (argmin + 1) res
        rec compare fuel (row + 1) d argmin r res

/-- `monotone_minima(n, m, compare)` — monotone_minima.hpp:16-30. -/
def run (n m : Nat) (compare : Nat → Nat → Nat → M Bool) : M (Array Int) := rec compare n 0 n 0 m (Array.replicate n 0)

/-- `monotone_minima(n, m, matrix)` — monotone_minima.hpp:39-41. -/
def runMatrix {V : Type} [LinearOrder V] (n m : Nat) (matrix : Nat → Nat → V) : M (Array Int) :=
  run n m fun i j1 j2 => return decide (matrix i j1 ≤ matrix i j2)

end MonotoneMinima

namespace InversionNumber
open Cxx
variable {α : Type} [LinearOrder α]

/-- `atcoder::fenwick_tree<int>::sum(0, r)`, by its contract; the tree is the vector of its values. The counts are below `2^31`. -/
def sum (ft : Array Int) (r : Int) : M Int := do
  check (decide (0 ≤ r ∧ r ≤ ft.size))
  return (ft.toList.take r.toNat).sum

/-- `atcoder::fenwick_tree<int>::add(p, 1)`, by its contract. -/
def inc (ft : Array Int) (p : Int) : M (Array Int) := do
  check (decide (0 ≤ p ∧ p < ft.size))
  let x ← rd ft p.toNat
  wr ft p.toNat (x + 1)

/-- Body of the loop — inversion_number.hpp:15-18; state `(ans, ft)`. -/
def step (cmp a : Array α) (i : Nat) (s : Int × Array Int) : M (Int × Array Int) := do
  let x ← rd a i
  let j ← Compressor.comp cmp x (-1)
  let c ← sum s.2 j
  let ans ← i64 (s.1 + c)
  let ft ← inc s.2 j
  return (ans, ft)

/-- `inversion_number(a)` — inversion_number.hpp:9-20; `n` fits an `int`. -/
def run (a : Array α) : M Int := do
  let cmp ← Compressor.build a.toList
  let s ← forDown a.size 0 (0, Array.replicate cmp.size 0) (step cmp a)
  return s.1

end InversionNumber
