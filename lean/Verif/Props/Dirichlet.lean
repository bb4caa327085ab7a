import Verif.Proof.Dirichlet

/-!
# C120: Dirichlet convolutions

`dirichlet_convolution(a, b, n)[k]` is the sum of `a[i] * b[j]` over all factorizations `k = i * j`, for every `k < n` (entries beyond the
end of `a` or `b` count as zero); `dirichlet_convolution_coprime` takes only coprime factors. `n ≤ 2^30`, because `n + i` is computed in `int`.
-/

namespace Dirichlet
open Cxx

variable {T : Type} [CommSemiring T]

/-- The Dirichlet convolution. -/
theorem conv_correct (a b : Array T) (n : Nat) (hn : n ≤ 2 ^ 30) :
    ∃ c, conv a b n = .ok c ∧ c.size = n ∧ ∀ k, k < n → c[k]? = some (∑ p ∈ k.divisorsAntidiagonal, a[p.1]?.getD 0 * b[p.2]?.getD 0) := by
  obtain ⟨c, e, h1, h2⟩ := conv_tot a b n hn
  refine ⟨c, e, h1, fun k hk => ?_⟩
  have := h2 k hk
  unfold at' at this
  dsimp only at this
  rw [← this, Array.getElem?_eq_getElem (by omega)]
  rfl

/-- The convolution over coprime factors. -/
theorem convCoprime_correct (a b : Array T) (n : Nat) (hn : n ≤ 2 ^ 30) :
    ∃ c, convCoprime a b n = .ok c ∧ c.size = n ∧ ∀ k, k < n →
      c[k]? = some (∑ p ∈ k.divisorsAntidiagonal with Nat.Coprime p.1 p.2, a[p.1]?.getD 0 * b[p.2]?.getD 0) := by
  obtain ⟨c, e, h1, h2⟩ := convCoprime_tot a b n hn
  refine ⟨c, e, h1, fun k hk => ?_⟩
  have := h2 k hk
  unfold at' at this
  dsimp only at this
  rw [Finset.sum_filter, ← this, Array.getElem?_eq_getElem (by omega)]
  rfl

/-- For `n = 2^31 - 1` the sum `n + i` overflows at once. -/
theorem row_overflow (a b c : Array T) (k : Nat) : row a b (2 ^ 31 - 1) k 1 c = .error .ub := rfl

/-! ### The hypotheses are satisfiable -/

example : conv #[7, 1, 2, 3, (4 : Nat)] #[9, 1, 1, 1, 1, 1, 1, 1, 1, 1] 10 = .ok #[0, 1, 3, 4, 7, 1, 6, 1, 7, 4] := by decide +kernel

example : convCoprime #[7, 1, 2, 3, (4 : Nat)] #[9, 1, 1, 1, 1, 1, 1, 1, 1, 1] 10 = .ok #[0, 1, 3, 4, 5, 1, 6, 1, 1, 1] := by decide +kernel

end Dirichlet
