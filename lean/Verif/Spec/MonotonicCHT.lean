import Verif.Model.MonotonicCHT
import Mathlib.Order.Bounds.Defs

/-!
# Specification of `MonotonicCHT`

The abstract state is the list of the lines added so far and the list of the points asked so far.
-/

namespace MonotonicCHT

/-- The lines added and the points asked. -/
structure State where
  lines : List (Int × Int)
  asked : List Int

/-- The effect of a call. -/
def next (t : State) : Op → State
  | .addLine a b => { t with lines := t.lines ++ [(a, b)] }
  | .query x => { t with asked := t.asked ++ [x] }

/-- The conditions for calls: a new slope is not greater or not less than all others; points are monotone as declared; nothing overflows. -/
def Pre (tag : Tag) (t : State) : Op → Prop
  | .addLine a b => (-2 ^ 62 < a ∧ a < 2 ^ 62) ∧ (-2 ^ 62 < b ∧ b < 2 ^ 62) ∧ ((∀ l ∈ t.lines, a ≤ l.1) ∨ (∀ l ∈ t.lines, l.1 ≤ a))
  | .query x => t.lines ≠ [] ∧ (-2 ^ 63 ≤ x ∧ x < 2 ^ 63) ∧ (tag = .inc → ∀ y ∈ t.asked, y ≤ x) ∧ (tag = .dec → ∀ y ∈ t.asked, x ≤ y) ∧
      ∀ l ∈ t.lines, (-2 ^ 63 < l.1 * x ∧ l.1 * x < 2 ^ 63) ∧ (-2 ^ 63 < l.1 * x + l.2 ∧ l.1 * x + l.2 < 2 ^ 63)

instance (tag : Tag) (t : State) (i : Op) : Decidable (Pre tag t i) := by
  cases i <;> unfold Pre <;> infer_instance

/-- The values of the lines at `x`. -/
def valuesAt (lines : List (Int × Int)) (x : Int) : Set Int := {v | ∃ l ∈ lines, v = l.1 * x + l.2}

/-- The right answers. -/
def Ans (isMin : Bool) (t : State) : Op → Out → Prop
  | .addLine .., o => o = .unit
  | .query x, o => ∃ v, o = .val v ∧ if isMin then IsLeast (valuesAt t.lines x) v else IsGreatest (valuesAt t.lines x) v

end MonotonicCHT
