import Verif.Model.Rational
import Mathlib.Data.Rat.Defs

/-! # Specification of `Rational<long long>` -/

namespace Rational

/-- The object is the rational number `q` in lowest terms with a positive denominator. -/
def Rep (r : R) (q : ℚ) : Prop := r.num = q.num ∧ r.den = q.den

/-- Numerator and denominator are below `2^31` in absolute value. -/
def Small (q : ℚ) : Prop := -2 ^ 31 < q.num ∧ q.num < 2 ^ 31 ∧ q.den < 2 ^ 31

/-- The result of `compare` is the sign of `a - b`. -/
def Right (a b : ℚ) (c : Int) : Prop := (c < 0 ↔ a < b) ∧ (c = 0 ↔ a = b) ∧ (0 < c ↔ b < a)

end Rational
