import Verif.Cxx

/-!
# Model of `library/datastructure/cartesian_tree.hpp`

`int` indices are integers; the number of elements is assumed to be an `int`. The comparison is a parameter.
-/

namespace CartesianTree
open Cxx
variable {α : Type}

/-- The condition and the body of the loop in line 73; the state is `(p, l)`. -/
def climb (lt : α → α → Bool) (a : Array α) (x : α) (par : Array Int) (s : Int × Nat) : M (Option (Int × Nat)) :=
  if s.1 ≥ 0 then do
    let y ← rd a s.1.toNat
    if lt x y then do
      let q ← rd par s.1.toNat
      return some (q, s.1.toNat)
    else return none
  else return none

/-- The body of the loop in lines 71-75. -/
def parStep (lt : α → α → Bool) (a : Array α) (i : Nat) (par : Array Int) : M (Array Int) := do
  let x ← rd a i
  let s ← loop (climb lt a x par) i ((i : Int) - 1, i)
  let par ← wr par s.2 (i : Int)
  wr par i s.1

/-- `calc_par(a, comp)` — lines 68-77. -/
def calcPar (lt : α → α → Bool) (a : Array α) : M (Array Int) :=
  forUp 1 a.size (Array.replicate a.size (-1)) (parStep lt a)

/-- `g[p][right] = i` — line 45. -/
def setChild (g : Array (Int × Int)) (p : Nat) (right : Bool) (i : Nat) : M (Array (Int × Int)) := do
  let c ← rd g p
  wr g p (if right then (c.1, (i : Int)) else ((i : Int), c.2))

/-- The body of the loop in lines 43-46; the state is `(root, g)`. -/
def buildStep (par : Array Int) (i : Nat) (s : Int × Array (Int × Int)) : M (Int × Array (Int × Int)) := do
  let p ← rd par i
  if p ≥ 0 then do
    let g ← setChild s.2 p.toNat (decide (p ≤ i)) i
    return (s.1, g)
  else return ((i : Int), s.2)

/-- `CartesianTreeBuilder(a, comp).build()` — lines 38 and 40-48: the root and the two children of every node, `-1` for none. -/
def build (lt : α → α → Bool) (a : Array α) : M (Int × Array (Int × Int)) := do
  let par ← calcPar lt a
  forUp 0 a.size (-1, Array.replicate a.size (-1, -1)) (buildStep par)

/-- `parent(i)` — lines 55-58. -/
def parent (lt : α → α → Bool) (a : Array α) (i : Nat) : M Int := do
  let par ← calcPar lt a
  check (decide (i < a.size))
  rd par i

/-- The recursive lambda of lines 24-28; the first argument bounds the depth. -/
def rangesRec (g : Array (Int × Int)) : Nat → Int → Int → Int → List (Int × Int) → M (List (Int × Int))
  | 0, _, _, _, _ => .error .diverge
  | f + 1, l, m, r, res =>
    if m = -1 then return res
    else if m < 0 then .error .ub
    else do
      let c ← rd g m.toNat
      let res ← rangesRec g f l c.1 m res
      rangesRec g f (m + 1) c.2 r (res ++ [(l, r)])

/-- `ranges()` — lines 21-31; `t` is the root and the children. -/
def ranges (t : Int × Array (Int × Int)) : M (List (Int × Int)) :=
  rangesRec t.2 (t.2.size + 1) 0 t.1 t.2.size []

/-- The default constructor — line 17. -/
def default : Int × Array (Int × Int) := (0, #[])

end CartesianTree
