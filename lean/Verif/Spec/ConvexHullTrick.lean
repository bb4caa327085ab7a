import Verif.Model.ConvexHullTrick
import Mathlib.Order.Bounds.Defs

/-!
# Minima and maxima of sets of lines

The abstract state is the list of all lines added so far.
-/

namespace ConvexHullTrick

/-- The values at `x` of the lines added so far. -/
def valuesAt (t : List (Int × Int)) (x : Int) : Set Int := {v | ∃ l ∈ t, v = l.1 * x + l.2}

/-- The effect of an operation. -/
def next (t : List (Int × Int)) : Op → List (Int × Int)
  | .addLine a b => t ++ [(a, b)]
  | _ => t

/-- Requirements: slopes and intercepts below `2^62` in absolute value; at least one line for a query, at a point above `-(2^63 - 1)`. -/
def Pre (t : List (Int × Int)) : Op → Prop
  | .hasLine => True
  | .addLine a b => (-2 ^ 62 < a ∧ a < 2 ^ 62) ∧ -2 ^ 62 < b ∧ b < 2 ^ 62
  | .query x => t ≠ [] ∧ -(2 ^ 63 - 1) < x ∧ x < 2 ^ 63

instance (t : List (Int × Int)) (o : Op) : Decidable (Pre t o) := by cases o <;> unfold Pre <;> infer_instance

/-- What an operation returns. -/
def Ans (isMin : Bool) (t : List (Int × Int)) : Op → Out → Prop
  | .hasLine, o => ∃ b, o = .bool b ∧ (b = true ↔ t ≠ [])
  | .addLine _ _, o => o = .unit
  | .query x, o => ∃ v, o = .val v ∧ if isMin then IsLeast (valuesAt t x) v else IsGreatest (valuesAt t x) v

end ConvexHullTrick
