import Verif.Proof.FindDenominators

/-!
# C180: all denominators with a given rounded quotient

`hi` is the largest value of the type; the smallest is `-hi - 1`.
The full claim is for all `n`, `q` of the type; it is false (`overflow_counterexample`) since intermediate sums overflow, and proved for `|n| + |q| + 1 ≤ hi`.
-/

namespace FindDenominators
open Cxx

/-- C180: `fld_denominators_positive(n, q, b)` describes exactly the `x` with `0 < x ≤ b` and `⌊n / x⌋ = q`. -/
theorem fld_positive_partial (hi n q b : Int) (h : |n| + |q| + 1 ≤ hi) :
    ∃ r, fldPositive hi n q b = .ok r ∧ Spec.IsAns (Spec.FldPos n q b) r := fldPositive_tot h

/-- C180: `fld_denominators_negative(n, q, b)` describes exactly the `x` with `b ≤ x < 0` and `⌊n / x⌋ = q`. -/
theorem fld_negative_partial (hi n q b : Int) (h : |n| + |q| + 1 ≤ hi) :
    ∃ r, fldNegative hi n q b = .ok r ∧ Spec.IsAns (Spec.FldNeg n q b) r := fldNegative_tot h

/-- C180: `cld_denominators_positive(n, q, b)` describes exactly the `x` with `0 < x ≤ b` and `⌈n / x⌉ = q`. -/
theorem cld_positive_partial (hi n q b : Int) (h : |n| + |q| + 1 ≤ hi) :
    ∃ r, cldPositive hi n q b = .ok r ∧ Spec.IsAns (Spec.CldPos n q b) r := cldPositive_tot h

/-- C180: `cld_denominators_negative(n, q, b)` describes exactly the `x` with `b ≤ x < 0` and `⌈n / x⌉ = q`. -/
theorem cld_negative_partial (hi n q b : Int) (h : |n| + |q| + 1 ≤ hi) :
    ∃ r, cldNegative hi n q b = .ok r ∧ Spec.IsAns (Spec.CldNeg n q b) r := cldNegative_tot h

/-- C180 fails for `int`: for each of the four functions a numerator at the end of the range and a quotient for which a denominator exists, while the call overflows. -/
theorem overflow_counterexample :
    (Spec.FldPos 2147483647 1 2147483647 2147483647 ∧ fldPositive 2147483647 2147483647 1 2147483647 = .error .ub) ∧
    (Spec.CldPos 2147483647 2 2147483647 2147483646 ∧ cldPositive 2147483647 2147483647 2 2147483647 = .error .ub) ∧
    (Spec.FldNeg (-2147483648) 1 (-2147483648) (-2147483648) ∧ fldNegative 2147483647 (-2147483648) 1 (-2147483648) = .error .ub) ∧
    (Spec.CldNeg 2147483647 (-1) (-2147483648) (-2147483647) ∧ cldNegative 2147483647 2147483647 (-1) (-2147483648) = .error .ub) := by
  refine ⟨⟨⟨by decide, by decide, (floor_iff (by decide)).2 (by decide)⟩, by decide⟩,
    ⟨cldPos_iff.2 (by decide), by decide⟩, ⟨fldNeg_iff.2 (by decide), by decide⟩, ⟨cldNeg_iff.2 (by decide), by decide⟩⟩

example : fldPositive 2147483647 100 7 2147483647 = .ok (some (13, 14)) := by decide
example : fldPositive 2147483647 (-100) (-7) 2147483647 = .ok (some (15, 16)) := by decide
example : fldPositive 2147483647 100 15 2147483647 = .ok none := by decide
example : fldNegative 2147483647 100 (-7) (-2147483648) = .ok (some (-16, -15)) := by decide
example : cldPositive 2147483647 100 7 2147483647 = .ok (some (15, 16)) := by decide
example : cldPositive 2147483647 100 1 2147483647 = .ok (some (100, 2147483647)) := by decide
example : cldNegative 2147483647 100 (-7) (-2147483648) = .ok (some (-14, -13)) := by decide
example : |(100 : Int)| + |(-7 : Int)| + 1 ≤ 2147483647 := by decide

end FindDenominators
