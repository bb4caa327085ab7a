import Verif.Proof.MobiusFunction

/-! # C156: the Möbius function by a sieve -/

namespace MobiusFunction
open Cxx

/-- **C156.** The constructor succeeds for every bound `N`. Then `mobius(k)` is the Möbius function for `k` in `[1, N]`, `min_prime_factor(k)` the least prime factor
for `k` in `[2, N]`, `factorize(k)` the factorisation with increasing primes for `k` in `[1, N]`, and `is_prime(k)` decides primality for `k` in `[0, N]`. -/
theorem mobius_function_correct (N : Nat) : ∃ s, make N = .ok s ∧
    (∀ k, 1 ≤ k → k ≤ N → mobius s k = .ok (ArithmeticFunction.moebius k)) ∧
    (∀ k, 2 ≤ k → k ≤ N → ∃ p, minPrimeFactor s k = .ok p ∧ p.Prime ∧ p ∣ k ∧ ∀ q, q.Prime → q ∣ k → p ≤ q) ∧
    (∀ k, 1 ≤ k → k ≤ N → ∃ l, factorize s k = .ok l ∧ l.Pairwise (fun a b => a.1 < b.1) ∧ (∀ x ∈ l, x.1.Prime ∧ 0 < x.2) ∧ (l.map fun x => x.1 ^ x.2).prod = k) ∧
    (∀ k, k ≤ N → ∃ b, isPrime s k = .ok b ∧ (b = true ↔ k.Prime)) := by
  obtain ⟨s, e, h⟩ := make_tot N
  have hsz := h.size
  have hsd := h.dsize
  refine ⟨s, e, ?_, ?_, ?_, ?_⟩
  · intro k h1 h2
    unfold mobius
    rw [h.n_eq, decide_eq_true ⟨by omega, h2⟩, check_true, ok_bind, rd_at 1 (by omega), h.dat k h1 h2]
  · intro k h1 h2
    refine ⟨k.minFac, ?_, Nat.minFac_prime (by omega), Nat.minFac_dvd k, fun q hq hd => Nat.minFac_le_of_dvd hq.two_le hd⟩
    unfold minPrimeFactor
    rw [h.n_eq, decide_eq_true ⟨h1, h2⟩, check_true, ok_bind, rd_at 0 (by omega), h.mpf k h1 h2]
  · intro k h1 h2
    obtain ⟨l, e1, f⟩ := factorize_tot h h1 h2
    exact ⟨l, e1, f.sorted, f.prime, f.prod⟩
  · intro k h1
    unfold isPrime
    rw [h.n_eq, decide_eq_true h1, check_true, ok_bind]
    by_cases c : 2 ≤ k
    · rw [if_pos c, rd_at 0 (by omega), ok_bind, h.mpf k c h1]
      refine ⟨_, rfl, ?_⟩
      rw [decide_eq_true_eq, LinearSieve.minFac_self]
      constructor
      · rintro (h' | h')
        · exact h'
        · omega
      · exact Or.inl
    · rw [if_neg c]
      refine ⟨false, rfl, ?_⟩
      constructor
      · intro h'
        cases h'
      · intro h'
        exact absurd h'.two_le c

/-- **C156.** Arguments outside the documented ranges fail the assertions. -/
theorem out_of_range (N : Nat) : ∃ s, make N = .ok s ∧ (∀ k, k = 0 ∨ N < k → mobius s k = .error .assertion ∧ factorize s k = .error .assertion) ∧
    (∀ k, k < 2 ∨ N < k → minPrimeFactor s k = .error .assertion) ∧ ∀ k, N < k → isPrime s k = .error .assertion := by
  obtain ⟨s, e, h⟩ := make_tot N
  refine ⟨s, e, ?_, ?_, ?_⟩
  · intro k hk
    unfold mobius factorize
    rw [h.n_eq, decide_eq_false (by omega), check_false, err_bind, err_bind]
    exact ⟨rfl, rfl⟩
  · intro k hk
    unfold minPrimeFactor
    rw [h.n_eq, decide_eq_false (by omega), check_false, err_bind]
  · intro k hk
    unfold isPrime
    rw [h.n_eq, decide_eq_false (by omega), check_false, err_bind]

/-! ### Sample values -/

example : (make 30 >>= fun s => return (← mobius s 1, ← mobius s 30, ← mobius s 12, ← mobius s 21)) = .ok (1, -1, 0, 1) := by decide +kernel
example : (make 30 >>= fun s => return (← factorize s 24, ← minPrimeFactor s 25, ← isPrime s 29, ← isPrime s 27)) = .ok ([(2, 3), (3, 1)], 5, true, false) := by decide +kernel
example : (make 30 >>= fun s => mobius s 31) = .error .assertion := by decide +kernel

end MobiusFunction
