import Verif.Proof.Modint
import Verif.Proof.MillerRabin
import Mathlib.Tactic.NormNum.Prime
import Mathlib.NumberTheory.LucasPrimality

/-! # Proofs about the inverses of `modint` -/

namespace Modint
open Cxx

theorem invGcd_tot {a m : Nat} (hm' : m < 2 ^ 31) (ha : a < m) :
    Tot (invGcd a m) fun r => r.1 = (Nat.gcd a m : Nat) ∧ (m : Int) ∣ a * r.2 - r.1 ∧ -2 ^ 63 ≤ r.2 ∧ r.2 < 2 ^ 63 := by
  unfold invGcd
  dsimp only
  rw [safeMod_eq _ (by omega), Int.emod_eq_of_lt (by omega) (by omega)]
  by_cases h0 : (a : Int) = 0
  · rw [if_pos h0]
    have : a = 0 := by omega
    subst this
    refine Tot.pure ⟨by simp, ?_, by norm_num, by norm_num⟩
    simp
  rw [if_neg h0]
  refine (Tot.loop (P := GInv m a) (Q := fun x => GInv m a x ∧ x.t = 0) (μ := fun x => x.t.toNat) ?_ (s := ⟨m, a, 0, 1⟩) ?_ ?_).bind ?_
  · intro x hx
    by_cases ht : x.t = 0
    · unfold gcdStep
      rw [if_pos ht]
      exact Tot.pure ⟨hx, ht⟩
    · refine (gcdStep_tot (by omega) hx ht).mono ?_
      intro r hr
      cases r with
      | none => exact hr.elim
      | some y => exact hr
  · refine ⟨by dsimp only; omega, by dsimp only; omega, le_refl _, ?_, ?_, ?_, ?_, ?_⟩ <;> dsimp only
    · simp
    · simp
    · simp
    · simp
    · exact Int.gcd_comm _ _
  · dsimp only; omega
  · rintro ⟨s, t, m0, m1⟩ ⟨⟨h1, h2, h3, h4, h5, h6, h7, h8⟩, h9⟩
    dsimp only at h1 h2 h3 h4 h5 h6 h7 h8 h9 ⊢
    subst h9
    rw [Int.gcd_zero_right, Int.gcd_natCast_natCast] at h8
    have hs : s = (Nat.gcd a m : Nat) := by omega
    have q := abs_le.1 h7
    have hd : (m : Int) ∣ a * m0 - s := by
      have : (a : Int) * m0 - s = -(s - m0 * a) := by ring
      rw [this]
      exact (Int.dvd_neg).2 h4
    split
    · rename_i hn
      rw [Int.tdiv_eq_ediv_of_nonneg (by omega)]
      have b1 : (0 : Int) ≤ (m : Int) / s := Int.ediv_nonneg (by omega) (by omega)
      have b2 : (m : Int) / s ≤ m := Int.ediv_le_self _ (by omega)
      rw [i64_ok (by constructor <;> omega), ok_bind]
      refine Tot.pure ⟨hs, ?_, ?_, ?_⟩ <;> dsimp only
      · rw [mul_add, add_sub_right_comm]
        refine dvd_add hd ?_
        have d1 : s ∣ (m : Int) := by rw [hs]; exact_mod_cast Nat.gcd_dvd_right a m
        have d2 : s ∣ (a : Int) := by rw [hs]; exact_mod_cast Nat.gcd_dvd_left a m
        obtain ⟨k, hk⟩ := d1
        obtain ⟨l, hl⟩ := d2
        rw [hk, Int.mul_ediv_cancel_left _ (by omega), hl]
        exact ⟨l, by ring⟩
      · omega
      · omega
    · refine Tot.pure ⟨hs, hd, ?_, ?_⟩ <;> dsimp only <;> omega

/-- The outcome of an inversion. -/
def InvOk (m a : Nat) (r : M Nat) : Prop :=
  (Nat.Coprime a m → ∃ x < m, r = .ok x ∧ a * x % m = 1 % m) ∧ (¬ Nat.Coprime a m → r = .error .assertion)

theorem invBy_ok {dyn : Bool} {m a : Nat} (hm' : m < 2 ^ 31) (ha : a < m) : InvOk m a (invBy dyn m a) := by
  have hm : 1 ≤ m := by omega
  obtain ⟨r, hr, h1, h2, h3, h4⟩ := invGcd_tot hm' ha
  unfold InvOk invBy
  rw [hr, ok_bind]
  constructor
  · intro hc
    have hr1 : r.1 = 1 := by
      rw [h1]
      exact_mod_cast hc
    rw [decide_eq_true hr1, check_true, ok_bind]
    refine ⟨_, ofInt_lt hm hm' (by omega), rfl, ?_⟩
    have e := ofInt_eq (dyn := dyn) hm hm' (v := r.2) (by omega)
    generalize ofInt dyn m r.2 = x at e
    rw [hr1] at h2
    have : ((a * x % m : Nat) : Int) = ((1 % m : Nat) : Int) := by
      push_cast
      rw [e, Int.mul_emod, Int.emod_emod_of_dvd _ (dvd_refl _), ← Int.mul_emod]
      exact (Int.emod_emod_of_dvd _ (dvd_refl _)).symm.trans (by
        rw [Int.emod_emod_of_dvd _ (dvd_refl _)]
        exact Int.emod_eq_emod_iff_emod_sub_eq_zero.2 (Int.emod_eq_zero_of_dvd h2))
    exact_mod_cast this
  · intro hc
    have hr1 : ¬ r.1 = 1 := by
      rw [h1]
      intro e
      exact hc (by exact_mod_cast e)
    rw [decide_eq_false hr1]
    rfl

/-! ### `is_prime` -/

theorem powMod_eq {x n m : Nat} (hm : 1 ≤ m) (hm' : m < 2 ^ 31) : powMod x n m = .ok (x ^ n % m) := by
  unfold powMod
  by_cases h1 : m = 1
  · rw [if_pos h1, h1, Nat.mod_one]; rfl
  rw [if_neg h1, ← tot_eq]
  refine Powi.powi_tot (fun t k => t = x ^ k % m) ?_ ?_ n ?_
  · rw [pow_zero, Nat.mod_eq_of_lt (by omega)]
  · rw [safeMod_eq _ (by omega), pow_one]
    omega
  · rintro u v i j - rfl rfl
    refine Tot.pure ?_
    show _ * _ % 2 ^ 64 % m = _
    have l1 := Nat.mod_lt (x ^ i) (show 0 < m by omega)
    have l2 := Nat.mod_lt (x ^ j) (show 0 < m by omega)
    have : x ^ i % m * (x ^ j % m) < 2 ^ 64 := by
      have := Nat.mul_le_mul (show x ^ i % m ≤ 2 ^ 31 by omega) (show x ^ j % m ≤ 2 ^ 31 by omega)
      omega
    rw [Nat.mod_eq_of_lt this, ← Nat.mul_mod, ← pow_add]

theorem odd_tot {n : Nat} (hn : 3 ≤ n) : Tot (loop oddStep n (n - 1)) fun d => d % 2 = 1 ∧ 0 < d ∧ ∃ j, d * 2 ^ j = n - 1 := by
  refine Tot.loop (P := fun d : Nat => 0 < d ∧ ∃ j, d * 2 ^ j = n - 1) (Q := fun d => d % 2 = 1 ∧ 0 < d ∧ ∃ j, d * 2 ^ j = n - 1) (μ := fun d => d) ?_ ⟨by omega, 0, by simp⟩ (by omega)
  rintro d ⟨hd, j, hj⟩
  unfold oddStep
  refine Tot.pure ?_
  by_cases h : d % 2 = 0
  · rw [if_pos h]
    refine ⟨⟨by omega, j + 1, ?_⟩, by omega⟩
    rw [pow_succ', ← Nat.mul_assoc, show d / 2 * 2 = d by omega, hj]
  · rw [if_neg h]
    exact ⟨by omega, hd, j, hj⟩

/-- The state of the loop for base `a`. -/
structure BInv (n a : Nat) (x : Nat × Nat) : Prop where
  pos : 0 < x.1
  pw : ∃ j, x.1 * 2 ^ j = n - 1
  eq : n.Prime → x.2 = a ^ x.1 % n ∧ (x.1 % 2 = 0 → x.2 ≠ 1)

theorem sq_one {n y : Nat} (hp : n.Prime) (hy : y < n) (h : y * y % n = 1) : y = 1 ∨ y = n - 1 := by
  have h2 := hp.two_le
  have hy0 : y ≠ 0 := by
    rintro rfl
    simp at h
  have hd : n ∣ (y - 1) * (y + 1) := by
    have e : (y - 1) * (y + 1) = y * y - 1 := by
      obtain ⟨z, rfl⟩ : ∃ z, y = z + 1 := ⟨y - 1, by omega⟩
      simp only [Nat.add_sub_cancel]
      have : (z + 1) * (z + 1) = z * (z + 1 + 1) + 1 := by ring
      rw [this, Nat.add_sub_cancel]
    rw [e]
    refine (Nat.modEq_iff_dvd' ?_).1 ?_
    · exact Nat.mul_pos (by omega) (by omega)
    · show 1 % n = y * y % n
      rw [h, Nat.mod_eq_of_lt (by omega)]
  rcases (hp.dvd_mul).1 hd with h | h
  · left
    by_contra hc
    have := Nat.le_of_dvd (by omega) h
    omega
  · right
    have := Nat.le_of_dvd (by omega) h
    omega

theorem base_tot {n d a : Nat} {ok : Bool} (hn : 3 ≤ n) (hn' : n < 2 ^ 31) (hd : d % 2 = 1) (hd' : ∃ j, d * 2 ^ j = n - 1) (hca : n.Prime → Nat.Coprime a n)
    (hok : n.Prime → ok = true) : Tot (base n d ok a) fun b => n.Prime → b = true := by
  unfold base
  cases ok with
  | false => exact Tot.pure hok
  | true =>
    rw [if_pos rfl, powMod_eq (by omega) hn', ok_bind]
    refine (Tot.loop (P := BInv n a) (Q := fun x => BInv n a x ∧ (x.1 = n - 1 ∨ x.2 = 1 ∨ x.2 = n - 1)) (μ := fun x => n - x.1) ?_ (s := (d, a ^ d % n)) ?_ ?_).bind ?_
    · rintro ⟨t, y⟩ ⟨h1, ⟨j, hj⟩, h3⟩
      dsimp only at h1 hj h3
      unfold baseStep
      refine Tot.pure ?_
      dsimp only
      by_cases hc : t ≠ n - 1 ∧ y ≠ 1 ∧ y ≠ n - 1
      · rw [if_pos hc]
        dsimp only
        have hj0 : j ≠ 0 := by
          rintro rfl
          rw [pow_zero, Nat.mul_one] at hj
          exact hc.1 hj
        obtain ⟨i, rfl⟩ : ∃ i, j = i + 1 := ⟨j - 1, by omega⟩
        have hlt : t ≤ n - 1 := by
          rw [← hj]
          exact Nat.le_mul_of_pos_right _ (by positivity)
        refine ⟨⟨by dsimp only; omega, ⟨i, by dsimp only; rw [← hj]; ring⟩, ?_⟩, by omega⟩
        dsimp only
        intro hp
        obtain ⟨e1, -⟩ := h3 hp
        refine ⟨?_, ?_⟩
        · rw [e1, ← Nat.mul_mod, ← pow_add, Nat.mul_two]
        · intro _ e
          rcases sq_one hp (by rw [e1]; exact Nat.mod_lt _ (by omega)) e with e | e
          · exact hc.2.1 e
          · exact hc.2.2 e
      · rw [if_neg hc]
        dsimp only
        exact ⟨⟨h1, ⟨j, hj⟩, h3⟩, by omega⟩
    · refine ⟨by dsimp only; omega, hd', ?_⟩
      dsimp only
      exact fun _ => ⟨rfl, fun h => by omega⟩
    · dsimp only; omega
    · rintro ⟨t, y⟩ ⟨⟨h1, -, h3⟩, hx⟩
      dsimp only at h1 h3 hx ⊢
      refine Tot.pure ?_
      intro hp
      obtain ⟨e1, e2⟩ := h3 hp
      rw [Bool.not_eq_true', decide_eq_false_iff_not]
      rintro ⟨hy, ht⟩
      have hy1 := e2 ht
      have ht1 : t = n - 1 := by
        rcases hx with h | h | h
        · exact h
        · exact absurd h hy1
        · exact absurd h hy
      apply hy1
      rw [e1, ht1]
      have := Nat.ModEq.pow_totient (hca hp)
      rw [Nat.totient_prime hp] at this
      rw [this]
      exact Nat.mod_eq_of_lt (by omega)

theorem isPrime_tot {n : Nat} (hn' : n < 2 ^ 31) : Tot (isPrime n) fun b => (n.Prime → b = true) ∧ (b = true → 2 ≤ n ∧ (n = 2 ∨ n % 2 = 1)) := by
  unfold isPrime
  by_cases h1 : n ≤ 1
  · rw [if_pos h1]
    refine Tot.pure ⟨fun hp => ?_, fun h => by simp at h⟩
    have := hp.two_le
    omega
  rw [if_neg h1]
  by_cases h2 : n = 2 ∨ n = 7 ∨ n = 61
  · rw [if_pos h2]
    exact Tot.pure ⟨fun _ => rfl, fun _ => by omega⟩
  rw [if_neg h2]
  by_cases h3 : n % 2 = 0
  · rw [if_pos h3]
    refine Tot.pure ⟨fun hp => ?_, fun h => by simp at h⟩
    have := hp.eq_two_or_odd
    omega
  rw [if_neg h3]
  refine (odd_tot (by omega)).bind ?_
  rintro d ⟨hd, -, hd'⟩
  have hco : ∀ a ∈ [2, 7, 61], n.Prime → Nat.Coprime a n := by
    intro a ha hp
    have : a = 2 ∨ a = 7 ∨ a = 61 := by simpa using ha
    refine (Nat.coprime_primes ?_ hp).2 ?_
    · rcases this with rfl | rfl | rfl <;> norm_num
    · omega
  refine Tot.mono (P := fun b : Bool => n.Prime → b = true) ?_ (fun b hb => ⟨hb, fun _ => by omega⟩)
  show Tot (forEach [2, 7, 61] true (base n d)) _
  unfold forEach
  refine (base_tot (by omega) hn' hd hd' (hco 2 (by simp)) fun _ => rfl).bind fun b1 hb1 => ?_
  unfold forEach
  refine (base_tot (by omega) hn' hd hd' (hco 7 (by simp)) hb1).bind fun b2 hb2 => ?_
  unfold forEach
  refine (base_tot (by omega) hn' hd hd' (hco 61 (by simp)) hb2).bind fun b3 hb3 => ?_
  unfold forEach
  exact Tot.pure hb3

theorem inv_ok {dyn : Bool} {m a : Nat} (hm' : m < 2 ^ 31) (ha : a < m) (hs : dyn = true ∨ (isPrime m = .ok true → m.Prime)) : InvOk m a (inv dyn m a) := by
  unfold inv
  cases dyn with
  | true => rw [if_pos rfl]; exact invBy_ok hm' ha
  | false =>
    rw [if_neg (by simp)]
    obtain ⟨b, hb, -⟩ := isPrime_tot hm'
    rw [hb, ok_bind]
    cases b with
    | false => rw [if_neg (by simp)]; exact invBy_ok hm' ha
    | true =>
      rw [if_pos rfl]
      have hp : m.Prime := by
        rcases hs with h | h
        · simp at h
        · exact h hb
      have h2 := hp.two_le
      by_cases h0 : a = 0
      · subst h0
        constructor
        · intro hc
          rw [Nat.coprime_zero_left] at hc
          omega
        · intro _; rfl
      · have hc : Nat.Coprime a m := (Nat.coprime_of_lt_prime (by omega) ha hp).symm
        refine ⟨fun _ => ?_, fun h => absurd hc h⟩
        rw [decide_eq_true h0, check_true, ok_bind, pow_eq (by omega) hm' ha (by omega)]
        refine ⟨_, Nat.mod_lt _ (by omega), rfl, ?_⟩
        have e : (((m + 2 ^ 32 - 2) % 2 ^ 32 : Nat) : Int).toNat = m - 2 := by omega
        rw [e, Nat.mul_mod, Nat.mod_mod, ← Nat.mul_mod, ← pow_succ', show m - 2 + 1 = m - 1 by omega]
        have := Nat.ModEq.pow_totient hc
        rw [Nat.totient_prime hp] at this
        exact this

/-! ### The named moduli -/

theorem prime_998244353 : Nat.Prime 998244353 := by
  obtain ⟨p, hp⟩ : ∃ p : Nat, p = 998244353 := ⟨_, rfl⟩
  rw [← hp]
  have key : ∀ k : Nat, ((3 : Nat) : ZMod p) ^ k = 1 ↔ 3 ^ k % p = 1 := by
    intro k
    rw [← Nat.cast_pow, ← Nat.cast_one, ZMod.natCast_eq_natCast_iff, Nat.ModEq, Nat.mod_eq_of_lt (show 1 < p by omega)]
  refine lucas_primality p ((3 : Nat) : ZMod p) ?_ ?_
  · rw [key, hp, ← MillerRabin.powMod_eq _ (by norm_num) 64 _ _ (by norm_num)]
    decide +kernel
  · intro q hq hd
    have hf : p - 1 = 2 ^ 23 * (7 * 17) := by rw [hp]; norm_num
    rw [hf] at hd
    have hq' : q = 2 ∨ q = 7 ∨ q = 17 := by
      rcases hq.dvd_mul.1 hd with h | h
      · exact .inl ((Nat.prime_dvd_prime_iff_eq hq (by norm_num)).1 (hq.dvd_of_dvd_pow h))
      rcases hq.dvd_mul.1 h with h | h
      · exact .inr (.inl ((Nat.prime_dvd_prime_iff_eq hq (by norm_num)).1 h))
      · exact .inr (.inr (((Nat.prime_dvd_prime_iff_eq hq (by norm_num)).1 h)))
    rw [Ne, key, hp]
    rcases hq' with rfl | rfl | rfl <;>
      (rw [← MillerRabin.powMod_eq _ (by norm_num) 64 _ _ (by norm_num)]; decide +kernel)

theorem prime_500000003 : Nat.Prime 500000003 := by
  obtain ⟨p, hp⟩ : ∃ p : Nat, p = 500000003 := ⟨_, rfl⟩
  rw [← hp]
  have key : ∀ k : Nat, ((2 : Nat) : ZMod p) ^ k = 1 ↔ 2 ^ k % p = 1 := by
    intro k
    rw [← Nat.cast_pow, ← Nat.cast_one, ZMod.natCast_eq_natCast_iff, Nat.ModEq, Nat.mod_eq_of_lt (show 1 < p by omega)]
  refine lucas_primality p ((2 : Nat) : ZMod p) ?_ ?_
  · rw [key, hp, ← MillerRabin.powMod_eq _ (by norm_num) 64 _ _ (by norm_num)]
    decide +kernel
  · intro q hq hd
    have hf : p - 1 = 2 * (41 ^ 2 * 148721) := by rw [hp]; norm_num
    rw [hf] at hd
    have hq' : q = 2 ∨ q = 41 ∨ q = 148721 := by
      rcases hq.dvd_mul.1 hd with h | h
      · exact .inl ((Nat.prime_dvd_prime_iff_eq hq (by norm_num)).1 h)
      rcases hq.dvd_mul.1 h with h | h
      · exact .inr (.inl ((Nat.prime_dvd_prime_iff_eq hq (by norm_num)).1 (hq.dvd_of_dvd_pow h)))
      · exact .inr (.inr (((Nat.prime_dvd_prime_iff_eq hq (by norm_num)).1 h)))
    rw [Ne, key, hp]
    rcases hq' with rfl | rfl | rfl <;>
      (rw [← MillerRabin.powMod_eq _ (by norm_num) 64 _ _ (by norm_num)]; decide +kernel)

theorem prime_1000000007 : Nat.Prime 1000000007 := by
  obtain ⟨p, hp⟩ : ∃ p : Nat, p = 1000000007 := ⟨_, rfl⟩
  rw [← hp]
  have key : ∀ k : Nat, ((5 : Nat) : ZMod p) ^ k = 1 ↔ 5 ^ k % p = 1 := by
    intro k
    rw [← Nat.cast_pow, ← Nat.cast_one, ZMod.natCast_eq_natCast_iff, Nat.ModEq, Nat.mod_eq_of_lt (show 1 < p by omega)]
  refine lucas_primality p ((5 : Nat) : ZMod p) ?_ ?_
  · rw [key, hp, ← MillerRabin.powMod_eq _ (by norm_num) 64 _ _ (by norm_num)]
    decide +kernel
  · intro q hq hd
    have hf : p - 1 = 2 * 500000003 := by omega
    rw [hf] at hd
    have hq' : q = 2 ∨ q = 500000003 := by
      rcases hq.dvd_mul.1 hd with h | h
      · exact .inl ((Nat.prime_dvd_prime_iff_eq hq (by norm_num)).1 h)
      · exact .inr (((Nat.prime_dvd_prime_iff_eq hq (prime_500000003)).1 h))
    rw [Ne, key, hp]
    rcases hq' with rfl | rfl <;>
      (rw [← MillerRabin.powMod_eq _ (by norm_num) 64 _ _ (by norm_num)]; decide +kernel)

end Modint
