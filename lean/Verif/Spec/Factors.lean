import Mathlib.Data.Nat.Factorization.Basic
import Mathlib.Data.Finset.Dedup

/-!
# Factorisations

The contract of the factoring routines of the library: a list of pairs of a prime and its exponent.
-/

namespace OrderMod

/-- `l` is the factorisation of `n` into powers of different primes. -/
structure Factors (n : Nat) (l : List (Nat × Nat)) : Prop where
  nodup : (l.map Prod.fst).Nodup
  prime : ∀ x ∈ l, x.1.Prime ∧ 0 < x.2
  prod : (l.map fun x => x.1 ^ x.2).prod = n

/-- Every positive number has such a list. -/
theorem exists_factors : ∃ fac : Nat → List (Nat × Nat), ∀ n, 0 < n → Factors n (fac n) := by
  refine ⟨fun n => n.primeFactors.toList.map fun p => (p, n.factorization p), fun n hn => ⟨?_, ?_, ?_⟩⟩
  · rw [List.map_map]
    have : (Prod.fst ∘ fun p => (p, n.factorization p)) = id := rfl
    rw [this, List.map_id]
    exact Finset.nodup_toList _
  · intro x hx
    rw [List.mem_map] at hx
    obtain ⟨p, h1, rfl⟩ := hx
    rw [Finset.mem_toList] at h1
    exact ⟨Nat.prime_of_mem_primeFactors h1, (Nat.prime_of_mem_primeFactors h1).factorization_pos_of_dvd (by omega) (Nat.dvd_of_mem_primeFactors h1)⟩
  · rw [List.map_map]
    have := Nat.prod_factorization_pow_eq_self (n := n) (by omega)
    conv_rhs => rw [← this]
    rw [Finsupp.prod, Nat.support_factorization]
    exact Finset.prod_map_toList _ _

end OrderMod
