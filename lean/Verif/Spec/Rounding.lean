import Mathlib.Analysis.Real.Sqrt

/-!
# Specification: rounding to nearest

Only values of moderate size are needed: the exponent range is not limited; subnormal numbers and infinities play no role.
-/

namespace Rounding

/-- `y` is a non-negative floating-point number with a `p`-bit significand. -/
def Repr (p : Nat) (y : ℝ) : Prop := ∃ m e f : Nat, m < 2 ^ p ∧ y = m * 2 ^ f / 2 ^ e

/-- `y` is a floating-point number nearest to `x` (either one in case of a tie). -/
def Nearest (p : Nat) (x y : ℝ) : Prop := Repr p y ∧ ∀ z, Repr p z → |y - x| ≤ |z - x|

end Rounding
