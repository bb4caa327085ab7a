import Mathlib.Algebra.BigOperators.Group.List.Basic
import Mathlib.Algebra.Order.Group.Int

/-! # What a summary of a list of integers says -/

namespace Beats.Spec

/-- `lo` is the minimum and `lo2` the second smallest distinct value of `vs`; `inf` stands for a missing value. -/
def IsLo (inf : Int) (vs : List Int) (lo lo2 : Int) : Prop :=
  ((vs = [] ∧ lo = inf) ∨ (lo ∈ vs ∧ ∀ v ∈ vs, lo ≤ v)) ∧
  (((∀ v ∈ vs, v = lo) ∧ lo2 = inf) ∨ (lo2 ∈ vs ∧ lo2 ≠ lo ∧ ∀ v ∈ vs, v ≠ lo → lo2 ≤ v))

/-- `hi` is the maximum and `hi2` the second largest distinct value of `vs`; `-inf` stands for a missing value. -/
def IsHi (inf : Int) (vs : List Int) (hi hi2 : Int) : Prop :=
  ((vs = [] ∧ hi = -inf) ∨ (hi ∈ vs ∧ ∀ v ∈ vs, v ≤ hi)) ∧
  (((∀ v ∈ vs, v = hi) ∧ hi2 = -inf) ∨ (hi2 ∈ vs ∧ hi2 ≠ hi ∧ ∀ v ∈ vs, v ≠ hi → v ≤ hi2))

end Beats.Spec
