import Verif.Model.RangeSetComposite
import Mathlib.Algebra.Group.Defs
import Mathlib.Algebra.BigOperators.Group.List.Basic

/-!
# Specification of `RangeSetRangeComposite`

The abstract state is the sequence, in a monoid.
-/

namespace RangeSetComposite

variable {α : Type}

/-- The effect of a call: `set` replaces the elements `l, …, r - 1`. -/
def next (a : List α) : Op α → List α
  | .set l r f => a.mapIdx fun (i : Nat) x => if l ≤ (i : Int) ∧ (i : Int) < r then f else x
  | .prod _ _ => a

/-- The arguments are a range in the sequence. -/
def Pre (a : List α) : Op α → Prop
  | .set l r _ => 0 ≤ l ∧ l ≤ r ∧ r ≤ a.length
  | .prod l r => 0 ≤ l ∧ l ≤ r ∧ r ≤ a.length

instance (a : List α) (i : Op α) : Decidable (Pre a i) := by
  cases i <;> unfold Pre <;> infer_instance

/-- The right answers: `prod` is the product of the elements `l, …, r - 1` in order. -/
def Ans [Monoid α] (a : List α) : Op α → Out α → Prop
  | .set .., o => o = .unit
  | .prod l r, o => o = .val ((a.drop l.toNat).take (r - l).toNat).prod

end RangeSetComposite
