import Mathlib.Algebra.BigOperators.Group.Finset.Basic
import Mathlib.Algebra.Field.Defs

/-! # Specification: systems of linear equations -/

namespace LinearSystem

variable {F : Type} [Field F]

/-- `A x = b` for the `n × m` matrix `A`; only `x 0, …, x (m - 1)` matter. -/
def Solves (n m : Nat) (A : Nat → Nat → F) (b : Nat → F) (x : Nat → F) : Prop :=
  ∀ i < n, ∑ j ∈ Finset.range m, A i j * x j = b i

/-- `y = x + c₀ B₀ + ⋯ + c_{d-1} B_{d-1}` in the first `m` coordinates, for some coefficients. -/
def InAffineSpan (m d : Nat) (x : Nat → F) (B : Nat → Nat → F) (y : Nat → F) : Prop :=
  ∃ c : Nat → F, ∀ j < m, y j = x j + ∑ t ∈ Finset.range d, c t * B t j

/-- `B₀, …, B_{d-1}` are linearly independent. -/
def Independent (m d : Nat) (B : Nat → Nat → F) : Prop :=
  ∀ c : Nat → F, (∀ j < m, ∑ t ∈ Finset.range d, c t * B t j = 0) → ∀ t < d, c t = 0

end LinearSystem
