import Verif.Model.Machine

/-!
# Model of `library/datastructure/convex_hull_trick.hpp`

For `T = long long`, so that `MultT` is a 128-bit integer. The `std::multiset` of lines is the list of its elements in order of the slopes; by
the contract of the standard library a new element is inserted after all elements that are not greater. `lower_bound` finds the first line with
`m < x` (its precondition, that the lines are partitioned, is part of the invariant proved).
-/

namespace ConvexHullTrick
open Cxx

/-- `Line` — lines 12-19. -/
structure Line where
  a : Int
  b : Int
  m : Int
deriving Repr, DecidableEq

/-- `inf` — line 37. -/
def inf : Int := 2 ^ 63 - 1

/-- Result of a 128-bit operation. -/
def i128 (x : Int) : M Int := if -2 ^ 127 ≤ x ∧ x < 2 ^ 127 then .ok x else .error .ub

/-- `div(num, den)` — lines 21-24; `/` and `%` truncate, and the exclusive or is negative if the signs differ. -/
def div (num den : Int) : M Int :=
  if den = 0 then .error .ub
  else do
    let q ← i64 (Int.tdiv num den)
    i64 (q - if (decide (num < 0) ^^ decide (den < 0)) && decide (Int.tmod num den ≠ 0) then 1 else 0)

/-- The new value of `r->m` — lines 82-86. -/
def inter (l r : Line) : M Int :=
  if l.a = r.a then return if r.b ≤ l.b then inf else -inf
  else do
    let num ← i64 (r.b - l.b)
    let den ← i64 (l.a - r.a)
    div num den

/-- `update_intersec_right(l, r)` for `r != end()` — lines 80-88. -/
def update (l r : Line) : M (Line × Bool) := do
  let m ← inter l r
  return ({ r with m := m }, decide (l.m > m))

/-- The loop of lines 46-52 and the first `erase`; the lines before the new one in reverse order. -/
def leftLoop : List Line → Line → M (List Line × Line)
  | [], it => return ([], it)
  | l :: ls, it => do
    let p ← update l it
    if p.2 then return (l :: ls, p.1) else leftLoop ls p.1

/-- The loop of lines 57-64 and the second `erase`: `cur` is `*itr`. -/
def rightLoop (it : Line) : Line → List Line → M (List Line)
  | cur, [] => return [cur]
  | cur, r :: rs =>
    if cur.m ≤ r.m then do
      let p ← update it r
      rightLoop it p.1 rs
    else return cur :: r :: rs

/-- Lines 54-65 if there is a line after the new one; `q` is the result of the call in line 54. -/
def finish (ls : List Line) (it : Line) (q : Line × Bool) (rs : List Line) : M (List Line) :=
  if q.2 then do
    let right ← rightLoop it q.1 rs
    return ls.reverse ++ it :: right
  else match ls with
    | [] => .error .ub
    | prev :: ls' => do
      let p ← update prev q.1
      let right ← rightLoop prev p.1 rs
      return ls'.reverse ++ prev :: right

/-- Lines 53-65. -/
def place (ls : List Line) (it : Line) (post : List Line) : M (List Line) :=
  match post with
  | [] => return ls.reverse ++ [it]
  | r :: rs => do
    let q ← update it r
    finish ls it q rs

/-- `add_line` after the change of signs — lines 45-65. -/
def addMin (s : List Line) (a b : Int) : M (List Line) := do
  let p ← leftLoop (s.takeWhile fun l => decide (l.a ≤ a)).reverse ⟨a, b, inf⟩
  place p.1 p.2 (s.dropWhile fun l => decide (l.a ≤ a))

/-- `add_line(slope, intercept)` — lines 43-66. -/
def addLine (isMin : Bool) (s : List Line) (a b : Int) : M (List Line) :=
  if isMin then addMin s a b
  else do
    let a ← i64 (-a)
    let b ← i64 (-b)
    addMin s a b

/-- `*--lower_bound(x)` — line 70. -/
def lookup (s : List Line) (x : Int) : M Line :=
  match (s.takeWhile fun l => decide (l.m ≥ x)).getLast? with
  | none => .error .ub
  | some l => .ok l

/-- `query(x)` — lines 68-77. -/
def query (isMin : Bool) (s : List Line) (x : Int) : M Int := do
  check (decide (s ≠ []))
  let l ← lookup s x
  let p ← i128 (l.a * x)
  let res ← i128 (p + l.b)
  if isMin then return res else i128 (-res)

/-- `has_line()` — lines 39-41. -/
def hasLine (s : List Line) : Bool := decide (s ≠ [])

/-- The operations. -/
inductive Op where
  | hasLine
  | addLine (a b : Int)
  | query (x : Int)

/-- Their results. -/
inductive Out where
  | bool (b : Bool)
  | unit
  | val (v : Int)
deriving DecidableEq

/-- One operation. -/
def step (isMin : Bool) (s : List Line) : Op → M (List Line × Out)
  | .hasLine => return (s, .bool (hasLine s))
  | .addLine a b => do
    let s ← addLine isMin s a b
    return (s, .unit)
  | .query x => do
    let v ← query isMin s x
    return (s, .val v)

end ConvexHullTrick
