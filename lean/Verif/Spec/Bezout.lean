import Verif.Model.Bezout
import Mathlib.Data.Set.Card

/-! # Specification: restricted solutions of `a x + b y = z` -/

namespace Bezout

/-- A restriction of one coordinate. -/
inductive Con
  | minX (v : Int) | maxX (v : Int) | minY (v : Int) | maxY (v : Int)

/-- The restriction holds for `(x, y)`. -/
def Con.Holds : Con → Int → Int → Prop
  | .minX v, x, _ => v ≤ x
  | .maxX v, x, _ => x ≤ v
  | .minY v, _, y => v ≤ y
  | .maxY v, _, y => y ≤ v

/-- The restriction is one of `x`. -/
def Con.isX : Con → Bool
  | .minX _ => true
  | .maxX _ => true
  | _ => false

/-- The bound of the restriction. -/
def Con.bound : Con → Int
  | .minX v => v
  | .maxX v => v
  | .minY v => v
  | .maxY v => v

/-- The restrictions set by a call. -/
def Op.cons : Op → List Con
  | .minX v => [.minX v]
  | .maxX v => [.maxX v]
  | .minY v => [.minY v]
  | .maxY v => [.maxY v]
  | .xRange l r => [.minX l, .maxX r]
  | .yRange l r => [.minY l, .maxY r]

/-- All restrictions of a history of calls. -/
def cons (ops : List Op) : List Con := ops.flatMap Op.cons

/-- `(x, y)` solves the equation under all restrictions. -/
def Solves (a b z : Int) (cs : List Con) (x y : Int) : Prop := a * x + b * y = z ∧ ∀ c ∈ cs, c.Holds x y

/-- The absolute value is below `2^60`. -/
def Small (v : Int) : Prop := -2 ^ 60 < v ∧ v < 2 ^ 60

/-- The set of solutions. -/
def solSet (a b z : Int) (cs : List Con) : Set (Int × Int) := {p | Solves a b z cs p.1 p.2}

/-- What `count` should return. -/
def CountOk (S : Set (Int × Int)) (r : Option Int) : Prop := (r = none ∧ S.Infinite) ∨ (∃ n, r = some n ∧ S.Finite ∧ (S.ncard : Int) = n)

/-- Both coordinates are below `2^62` in absolute value. -/
def Fit (x y : Int) : Prop := (-2 ^ 62 < x ∧ x < 2 ^ 62) ∧ (-2 ^ 62 < y ∧ y < 2 ^ 62)

end Bezout
