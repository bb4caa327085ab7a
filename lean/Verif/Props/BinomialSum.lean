import Verif.Proof.BinomialSum
import Mathlib.Data.ZMod.Basic
import Mathlib.Algebra.Field.ZMod

/-!
Property C134: sums of binomial coefficients. Partial for the reason of C129: the table of factorials must not be enlarged beyond the modulus.
-/

namespace BinomSum.Props
open Cxx

theorem bound (p : Nat) [Fact p.Prime] (N : Nat) (hN : 2 * N ≤ p + 2) : ∀ k : Nat, 0 < k → k + 2 < 2 * N → (k : ZMod p) ≠ 0 := by
  intro k hk hk' e
  have := Nat.le_of_dvd hk ((ZMod.natCast_eq_zero_iff k p).mp e)
  omega

/-- `binom_sum_prefix` returns `Σ_{i ≤ n} r ^ i C(m, i)` for each query `(n, m)`, and 0 if `n` or `m` is negative; for every prime modulus,
every `r`, every set of queries with `m + 1 < N` where `2 N ≤ p + 2`, every behaviour of the sort and every bucket size. -/
theorem prefix_partial (p : Nat) [Fact p.Prime] (N : Nat) (hN : 2 * N ≤ p + 2) (hN2 : 2 < N)
    (srt : (Nat → Nat → Bool) → List Nat → List Nat) (hsrt : ∀ lt l, StrictWeak lt → (srt lt l).Perm l) (b : Nat)
    (qs : Array (Int × Int)) (hq : ∀ q ∈ qs, q.2 + 1 < N) (r : ZMod p) :
    Tot (prefixSum srt b Factorial.init qs r) fun o => o.2.size = qs.size ∧ ∀ (i : Nat) (q : Int × Int), qs[i]? = some q →
      o.2[i]? = some (if 0 ≤ q.1 ∧ 0 ≤ q.2 then ∑ j ∈ Finset.range (q.1.toNat + 1), r ^ j * (q.2.toNat.choose j : ZMod p) else 0) :=
  (prefix_tot (bound p N hN) hsrt b hq hN2 ⟨Factorial.inv_init, .inl rfl⟩ r).mono fun _ h => h.2

example : Fact (Nat.Prime 11) ∧ 2 * 6 ≤ 11 + 2 ∧ 2 < 6 ∧ (∀ q ∈ #[((2 : Int), (4 : Int)), (7, 3), (-1, 2)], q.2 + 1 < ((6 : Nat) : Int)) ∧
    (∀ (lt : Nat → Nat → Bool) (l : List Nat), StrictWeak lt → List.Perm ((fun (_ : Nat → Nat → Bool) (l : List Nat) => l) lt l) l) :=
  ⟨⟨by decide⟩, by decide, by decide, by simp, fun _ l _ => List.Perm.refl l⟩

/-- `binom_sum` returns `Σ_{a ≤ i ≤ b} r ^ i C(m, i)` for each query `(a, b, m)` with `a ≤ b + 1` and `m ≥ 0`. -/
theorem range_partial (p : Nat) [Fact p.Prime] (N : Nat) (hN : 2 * N ≤ p + 2) (hN2 : 2 < N)
    (srt : (Nat → Nat → Bool) → List Nat → List Nat) (hsrt : ∀ lt l, StrictWeak lt → (srt lt l).Perm l) (b b' : Nat)
    (qs : Array (Int × Int × Int)) (hq : ∀ q ∈ qs, q.2.2 + 1 < N) (r : ZMod p) :
    Tot (binomSum srt b b' Factorial.init qs r) fun o => o.2.size = qs.size ∧ ∀ (i : Nat) (q : Int × Int × Int), qs[i]? = some q →
      q.1 ≤ q.2.1 + 1 → 0 ≤ q.2.2 → o.2[i]? = some (∑ j ∈ Finset.Ico q.1.toNat (q.2.1 + 1).toNat, r ^ j * (q.2.2.toNat.choose j : ZMod p)) := by
  refine (binomSum_tot (bound p N hN) hsrt b b' hq hN2 ⟨Factorial.inv_init, .inl rfl⟩ r).mono ?_
  rintro o ⟨-, h1, h2⟩
  refine ⟨h1, ?_⟩
  rintro i ⟨x, y, m⟩ hi hxy hm
  have := h2 i _ hi
  rw [this]
  dsimp only at hxy hm ⊢
  congr 1
  -- the prefix up to `n` as a sum over a range
  have key : ∀ n : Int, Val r n m = ∑ j ∈ Finset.range (n + 1).toNat, r ^ j * (m.toNat.choose j : ZMod p) := by
    intro n
    unfold Val S0
    by_cases hn : 0 ≤ n
    · rw [if_pos ⟨hn, hm⟩, show (n + 1).toNat = n.toNat + 1 by omega]
    · rw [if_neg (by omega), show (n + 1).toNat = 0 by omega]
      simp
  rw [key, key, Finset.sum_Ico_eq_sub _ (by omega), show x - 1 + 1 = x by omega]

example : ∀ q ∈ #[((1 : Int), (2 : Int), (4 : Int)), (-3, 7, 3)], q.2.2 + 1 < ((6 : Nat) : Int) := by simp

end BinomSum.Props
