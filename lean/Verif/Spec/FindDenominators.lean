import Mathlib.Algebra.Order.Floor.Ring
import Mathlib.Data.Rat.Floor

/-! # Specification for `FindDenominators` -/

namespace FindDenominators
namespace Spec

/-- The answer for the set `S`: `none` if it is empty, else its smallest and its largest element, and all integers between them are in `S`. -/
def IsAns (S : Int → Prop) : Option (Int × Int) → Prop
  | none => ∀ x, ¬ S x
  | some (l, r) => S l ∧ S r ∧ ∀ x, S x ↔ l ≤ x ∧ x ≤ r

/-- `{ x > 0 | floor(n / x) = q }` up to `b`. -/
def FldPos (n q b x : Int) : Prop := 0 < x ∧ x ≤ b ∧ ⌊(n : ℚ) / x⌋ = q

/-- `{ x < 0 | floor(n / x) = q }` down to `b`. -/
def FldNeg (n q b x : Int) : Prop := x < 0 ∧ b ≤ x ∧ ⌊(n : ℚ) / x⌋ = q

/-- `{ x > 0 | ceil(n / x) = q }` up to `b`. -/
def CldPos (n q b x : Int) : Prop := 0 < x ∧ x ≤ b ∧ ⌈(n : ℚ) / x⌉ = q

/-- `{ x < 0 | ceil(n / x) = q }` down to `b`. -/
def CldNeg (n q b x : Int) : Prop := x < 0 ∧ b ≤ x ∧ ⌈(n : ℚ) / x⌉ = q

end Spec
end FindDenominators
