import Verif.Proof.MillerRabinSmall

/-! # Miller–Rabin: property C112 -/

namespace MillerRabin
open Cxx

/-- The bases to be tested for the range of `n`, written out independently of the model. -/
def published (n : Nat) : List Nat :=
  if n < 341531 then [9345883071009581737]
  else if n < 1050535501 then [336781006125, 9639812373923155]
  else if n < 350269456337 then [4230279247111683200, 14694767155120705706, 16641139526367750375]
  else if n < 55245642489451 then [2, 141889084524735, 1199124725622454117, 11096072698276303650]
  else if n < 7999252175582851 then [2, 4130806001517, 149795463772692060, 186635894390467037, 3967304179347715805]
  else if n < 585226005592931977 then [2, 123635709730000, 9233062284813009, 43835965440333360, 761179012939631437, 1263739024124850375]
  else [2, 325, 9375, 28178, 450775, 9780504, 1795265022]

/-- **C112**, below the first threshold: for every `n < 341531`, `is_prime(n)` says whether `n` is prime. -/
theorem isPrime_exact (n : Nat) (hn : n < 341531) : isPrime n = .ok (decide n.Prime) := isPrime_small hn

/-- **C112** (partial: `n < 2^63`; whether composite numbers from 341531 on that pass the test for all bases exist is a fact about the tabulated bases and
is not proved). `is_prime` answers for every `n < 2^63`; it never rejects a prime; it is exact below 121 and for multiples of 2, 3, 5, 7; any other composite
number it accepts is a strong pseudoprime to all of the bases of its range. -/
theorem isPrime_partial (n : Nat) (hn : n < 2 ^ 63) : ∃ r, isPrime n = .ok r ∧ (n.Prime → r = true) ∧
    (n < 121 ∨ n % 2 = 0 ∨ n % 3 = 0 ∨ n % 5 = 0 ∨ n % 7 = 0 → (r = true ↔ n.Prime)) ∧
    (r = true → ¬ n.Prime → ∃ s d, d % 2 = 1 ∧ n = d * 2 ^ s + 1 ∧
      ∀ b ∈ published n, n ∣ b ∨ b ^ d ≡ 1 [MOD n] ∨ ∃ r < s, b ^ (d * 2 ^ r) + 1 ≡ 0 [MOD n]) := by
  obtain ⟨r, e, h1, h2⟩ := test_tot hn (bases n)
  refine ⟨r, e, ?_, h1, ?_⟩
  · intro hp
    by_cases hs : n < 121 ∨ n % 2 = 0 ∨ n % 3 = 0 ∨ n % 5 = 0 ∨ n % 7 = 0
    · exact (h1 hs).2 hp
    · obtain ⟨s, d, -, hd, h⟩ := h2 hs
      exact h.2 fun b _ => strong_of_prime hp (by omega) b
  · intro hr hp
    by_cases hs : n < 121 ∨ n % 2 = 0 ∨ n % 3 = 0 ∨ n % 5 = 0 ∨ n % 7 = 0
    · exact absurd ((h1 hs).1 hr) hp
    · obtain ⟨s, d, ho, hd, h⟩ := h2 hs
      exact ⟨s, d, ho, hd, h.1 hr⟩

/-- **Finding.** `is_prime(2^64 - 2^32 + 1)` is `false` although this number is prime: above `2^63` the Montgomery multiplication overflows. -/
theorem isPrime_wrong : isPrime (2 ^ 64 - 2 ^ 32 + 1) = .ok false ∧ 2 ^ 64 - 2 ^ 32 + 1 < 2 ^ 64 ∧ Nat.Prime (2 ^ 64 - 2 ^ 32 + 1) :=
  ⟨by decide +kernel, by norm_num, goldilocks_prime⟩

example : isPrime 998244353 = .ok true := by decide +kernel
example : isPrime (998244353 * 1000000007) = .ok false := by decide +kernel

end MillerRabin
