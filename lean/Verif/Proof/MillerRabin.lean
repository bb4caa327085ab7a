import Mathlib.NumberTheory.LucasPrimality
import Mathlib.Tactic.NormNum.Prime
import Verif.Model.MillerRabin
import Verif.Props.ModArith
import Mathlib.FieldTheory.Finite.Basic
import Mathlib.Tactic.NormNum.Prime
import Mathlib.Tactic.IntervalCases

/-! # The Miller–Rabin test -/

namespace MillerRabin
open Cxx

theorem split_tot {n : Nat} (hn : 0 < n) (hb : n < 2 ^ 64) : Tot (split n) fun q => q.2 % 2 = 1 ∧ q.2 * 2 ^ q.1 = n := by
  unfold split
  rw [if_neg (by omega)]
  refine Tot.loop (P := fun q => q.2 * 2 ^ q.1 = n) (fun q => Nat.log2 q.2) ?_ (by simp) ?_
  · rintro ⟨c, m⟩ h
    dsimp only at h
    unfold ctzStep
    dsimp only
    have hm : 0 < m := Nat.pos_of_ne_zero (by rintro rfl; simp at h; omega)
    by_cases e : m % 2 = 0
    · rw [if_pos e]
      refine Tot.pure ⟨?_, ?_⟩
      · dsimp only
        rw [pow_succ, ← h]
        have : m / 2 * 2 = m := by omega
        nth_rewrite 2 [← this]
        ring
      · dsimp only
        have : m / 2 ≠ 0 := by omega
        rw [Nat.log2_lt this]
        have h2 := Nat.lt_log2_self (n := m)
        have h3 : Nat.log2 m ≠ 0 := by
          intro h0
          rw [h0] at h2
          omega
        obtain ⟨k, hk⟩ := Nat.exists_eq_succ_of_ne_zero h3
        rw [hk] at h2 ⊢
        rw [pow_succ] at h2
        omega
    · rw [if_neg e]
      exact Tot.pure ⟨by omega, h⟩
  · dsimp only
    have := (Nat.log2_lt (by omega)).2 hb
    omega

/-- `n` is a strong probable prime to base `a`, written with the decomposition `n - 1 = d 2^s`. -/
def Strong (n s d a : Nat) : Prop := n ∣ a ∨ a ^ d ≡ 1 [MOD n] ∨ ∃ r < s, a ^ (d * 2 ^ r) + 1 ≡ 0 [MOD n]

open Montgomery in
theorem val_inj {n : Nat} {st : State} (hs : Good 64 st) (hn : st.n = n) {a b : Nat} (ha : a < n) (hb : b < n) (h : val 64 st a = val 64 st b) : a = b := by
  subst hn
  have h1 := val_mod hs ha
  have h2 := val_mod hs hb
  rw [h] at h1
  have := h1.symm.trans h2
  rw [Nat.ModEq, Nat.mod_eq_of_lt ha, Nat.mod_eq_of_lt hb] at this
  exact this

theorem minus_one {n x : Nat} (hn : 1 < n) (hx : x < n) : x = n - 1 ↔ x + 1 ≡ 0 [MOD n] := by
  unfold Nat.ModEq
  constructor
  · rintro rfl
    rw [Nat.sub_add_cancel (by omega)]
    simp
  · intro h
    rw [Nat.zero_mod] at h
    have := Nat.le_of_dvd (by omega) (Nat.dvd_of_mod_eq_zero h)
    omega

open Montgomery in
theorem chain_iff {n : Nat} {st : State} (hs : Good 64 st) (hn : st.n = n) (h1 : 1 < n) {mo : Nat} (hmo : mo < n) (hmv : val 64 st mo = n - 1) :
    ∀ (k y : Nat), y < n → (chain st mo k y = true ↔ ∃ r < k + 1, val 64 st y ^ (2 ^ r) + 1 ≡ 0 [MOD n]) := by
  have hv : ∀ y, y < n → (y = mo ↔ val 64 st y + 1 ≡ 0 [MOD n]) := by
    intro y hy
    rw [← minus_one h1 (hn ▸ val_lt hs (hn ▸ hy)), ← hmv]
    exact ⟨fun h => by rw [h], fun h => val_inj hs hn hy hmo h⟩
  intro k
  induction k with
  | zero =>
    intro y hy
    unfold chain
    rw [decide_eq_true_eq, hv y hy]
    constructor
    · intro h
      exact ⟨0, by omega, by simpa using h⟩
    · rintro ⟨r, hr, h⟩
      rw [show r = 0 by omega] at h
      simpa using h
  | succ k ih =>
    intro y hy
    unfold chain
    obtain ⟨m1, m2⟩ := mul_val hs (hn ▸ hy) (hn ▸ hy)
    rw [hn] at m1 m2
    have hsq : ∀ r, val 64 st (mul 64 st y y) ^ 2 ^ r + 1 ≡ 0 [MOD n] ↔ val 64 st y ^ 2 ^ (r + 1) + 1 ≡ 0 [MOD n] := by
      intro r
      have : val 64 st (mul 64 st y y) ^ 2 ^ r + 1 ≡ val 64 st y ^ 2 ^ (r + 1) + 1 [MOD n] := by
        rw [m2, pow_succ' 2 r, pow_mul]
        refine Nat.ModEq.add_right 1 (Nat.ModEq.pow _ ?_)
        rw [sq]
        exact Nat.mod_modEq _ _
      exact ⟨fun h => this.symm.trans h, fun h => this.trans h⟩
    by_cases e : y = mo
    · rw [if_pos e]
      refine ⟨fun _ => ⟨0, by omega, ?_⟩, fun _ => rfl⟩
      simpa using (hv y hy).1 e
    · rw [if_neg e, ih _ m1]
      constructor
      · rintro ⟨r, hr, h⟩
        exact ⟨r + 1, by omega, (hsq r).1 h⟩
      · rintro ⟨r, hr, h⟩
        cases r with
        | zero => exact absurd ((hv y hy).2 (by simpa using h)) e
        | succ r => exact ⟨r, by omega, (hsq r).2 h⟩

open Montgomery in
theorem base_eq {n : Nat} {st : State} (hs : Good 64 st) (hn : st.n = n) (h1 : 1 < n) {s d b : Nat} (hs0 : 0 < s) :
    Tot (base st (toMont 64 st 1) (toMont 64 st (n - 1)) s d n b) fun r => r = true ↔ Strong n s d b := by
  have hlt := hs.lt
  rw [hn] at hlt
  have ho := toMont_spec hs (t := 1) (by norm_num)
  have hm := toMont_spec hs (t := n - 1) (by omega)
  have hov := val_of hs ho.1 ho.2.symm
  have hmv := val_of hs hm.1 hm.2.symm
  rw [hn] at ho hm hov hmv
  rw [Nat.mod_eq_of_lt h1] at hov
  rw [Nat.mod_eq_of_lt (by omega)] at hmv
  unfold base Strong
  by_cases h0 : b % n = 0
  · rw [if_pos h0]
    exact Tot.pure ⟨fun _ => .inl (Nat.dvd_of_mod_eq_zero h0), fun _ => rfl⟩
  · rw [if_neg h0]
    have hbn : b % n < n := Nat.mod_lt _ (by omega)
    have hb := toMont_spec hs (t := b % n) (by omega)
    have hbv := val_of hs hb.1 hb.2.symm
    rw [hn] at hb hbv
    rw [Nat.mod_eq_of_lt hbn] at hbv
    obtain ⟨st', e', har⟩ := montgomery_partial 64 n (by rw [← hn]; exact hs.odd) (by omega)
    have hpow : Tot (pow 64 st (toMont 64 st (b % n)) d) fun y => y < n ∧ val 64 st y = b ^ d % n := by
      refine (Powi.powi_tot (fun y i => y < n ∧ val 64 st y = b ^ i % n) ⟨ho.1, ?_⟩ ⟨hb.1, ?_⟩ d ?_)
      · rw [hov, pow_zero, Nat.mod_eq_of_lt h1]
      · rw [hbv, pow_one]
      · rintro x y i j - ⟨hx, hxv⟩ ⟨hy, hyv⟩
        obtain ⟨m1, m2⟩ := mul_val hs (hn ▸ hx) (hn ▸ hy)
        rw [hn] at m1 m2
        refine Tot.pure ⟨m1, ?_⟩
        rw [m2, hxv, hyv, ← Nat.mul_mod, pow_add]
    refine Tot.bind hpow ?_
    rintro y ⟨hy, hyv⟩
    have hnd : ¬ n ∣ b := fun h => h0 (Nat.mod_eq_zero_of_dvd h)
    have hone : y = toMont 64 st 1 ↔ b ^ d ≡ 1 [MOD n] := by
      constructor
      · rintro rfl
        rw [hov] at hyv
        rw [Nat.ModEq, ← hyv, Nat.mod_eq_of_lt h1]
      · intro h
        refine val_inj hs hn hy ho.1 ?_
        rw [hyv, hov]
        rw [Nat.ModEq, Nat.mod_eq_of_lt h1] at h
        exact h
    by_cases e : y = toMont 64 st 1
    · rw [if_pos e]
      exact Tot.pure ⟨fun _ => .inr (.inl (hone.1 e)), fun _ => rfl⟩
    · rw [if_neg e]
      refine Tot.pure ?_
      rw [chain_iff hs hn h1 hm.1 hmv _ _ hy, Nat.sub_add_cancel (by omega)]
      have hp : ∀ r, val 64 st y ^ 2 ^ r + 1 ≡ b ^ (d * 2 ^ r) + 1 [MOD n] := by
        intro r
        rw [pow_mul, hyv]
        exact Nat.ModEq.add_right 1 (Nat.ModEq.pow _ (Nat.mod_modEq _ _))
      constructor
      · rintro ⟨r, hr, h⟩
        exact .inr (.inr ⟨r, hr, (hp r).symm.trans h⟩)
      · rintro (h | h | ⟨r, hr, h⟩)
        · exact absurd h hnd
        · exact absurd (hone.2 h) e
        · exact ⟨r, hr, (hp r).trans h⟩

/-- A prime is a strong probable prime to every base. -/
theorem strong_of_prime {p s d : Nat} (hp : p.Prime) (hd : d * 2 ^ s = p - 1) (a : Nat) : Strong p s d a := by
  unfold Strong
  by_cases ha : p ∣ a
  · exact .inl ha
  right
  haveI := Fact.mk hp
  have haz : (a : ZMod p) ≠ 0 := by
    rw [Ne, ZMod.natCast_eq_zero_iff]
    exact ha
  have hfer : (a : ZMod p) ^ (d * 2 ^ s) = 1 := by
    rw [hd]
    exact ZMod.pow_card_sub_one_eq_one haz
  have key : ∀ t, (a : ZMod p) ^ (d * 2 ^ t) = 1 → (a : ZMod p) ^ d = 1 ∨ ∃ r < t, (a : ZMod p) ^ (d * 2 ^ r) = -1 := by
    intro t
    induction t with
    | zero => intro h; left; simpa using h
    | succ t ih =>
      intro h
      have hsq : (a : ZMod p) ^ (d * 2 ^ t) * (a : ZMod p) ^ (d * 2 ^ t) = 1 := by
        rw [← pow_add, ← h]
        congr 1
        rw [pow_succ]; ring
      rcases mul_self_eq_one_iff.1 hsq with h | h
      · rcases ih h with h | ⟨r, hr, h⟩
        · exact .inl h
        · exact .inr ⟨r, by omega, h⟩
      · exact .inr ⟨t, by omega, h⟩
  rcases key s hfer with h | ⟨r, hr, h⟩
  · left
    rw [← ZMod.natCast_eq_natCast_iff]
    push_cast
    exact h
  · right
    refine ⟨r, hr, ?_⟩
    rw [← ZMod.natCast_eq_natCast_iff]
    push_cast
    rw [h]
    ring

theorem small_cases {n : Nat} (h : n < 121) (h1 : 1 < n) (h2 : n % 2 ≠ 0) (h3 : n % 3 ≠ 0) (h5 : n % 5 ≠ 0) (h7 : n % 7 ≠ 0) : n.Prime := by
  by_contra hp
  have hm := Nat.minFac_prime (show n ≠ 1 by omega)
  have hsq := Nat.minFac_sq_le_self (by omega) hp
  have hd := Nat.minFac_dvd n
  have hlt : n.minFac < 11 := by nlinarith
  have h11 := hm.two_le
  generalize n.minFac = q at hm hd hlt h11
  interval_cases q <;> omega

theorem test_tot {n : Nat} (hn : n < 2 ^ 63) (bs : List Nat) : Tot (test bs n) fun r =>
    (n < 121 ∨ n % 2 = 0 ∨ n % 3 = 0 ∨ n % 5 = 0 ∨ n % 7 = 0 → (r = true ↔ n.Prime)) ∧
    (¬ (n < 121 ∨ n % 2 = 0 ∨ n % 3 = 0 ∨ n % 5 = 0 ∨ n % 7 = 0) → ∃ s d, d % 2 = 1 ∧ n = d * 2 ^ s + 1 ∧ (r = true ↔ ∀ b ∈ bs, Strong n s d b)) := by
  unfold test
  by_cases h1 : n = 2 ∨ n = 3 ∨ n = 5 ∨ n = 7
  · rw [if_pos h1]
    have hp : n.Prime := by rcases h1 with rfl | rfl | rfl | rfl <;> norm_num
    exact Tot.pure ⟨fun _ => ⟨fun _ => hp, fun _ => rfl⟩, fun h => absurd (by omega) h⟩
  rw [if_neg h1]
  by_cases h2 : n ≤ 1 ∨ n % 2 = 0 ∨ n % 3 = 0 ∨ n % 5 = 0 ∨ n % 7 = 0
  · rw [if_pos h2]
    have hp : ¬ n.Prime := by
      intro hp
      have h3 := hp.two_le
      rcases h2 with h | h | h | h | h
      · omega
      · have := (Nat.prime_dvd_prime_iff_eq Nat.prime_two hp).1 (Nat.dvd_of_mod_eq_zero h); omega
      · have := (Nat.prime_dvd_prime_iff_eq Nat.prime_three hp).1 (Nat.dvd_of_mod_eq_zero h); omega
      · have := (Nat.prime_dvd_prime_iff_eq Nat.prime_five hp).1 (Nat.dvd_of_mod_eq_zero h); omega
      · have := (Nat.prime_dvd_prime_iff_eq (by norm_num : Nat.Prime 7) hp).1 (Nat.dvd_of_mod_eq_zero h); omega
    exact Tot.pure ⟨fun _ => ⟨fun h => absurd h (by simp), fun h => absurd h hp⟩, fun h => absurd (by omega) h⟩
  rw [if_neg h2]
  by_cases h3 : n < 121
  · rw [if_pos h3]
    exact Tot.pure ⟨fun _ => ⟨fun _ => small_cases h3 (by omega) (by omega) (by omega) (by omega) (by omega), fun _ => rfl⟩, fun h => absurd (by omega) h⟩
  rw [if_neg h3]
  refine Tot.bind (split_tot (by omega) (by omega)) ?_
  rintro ⟨s, d⟩ ⟨hd, hsd⟩
  dsimp only at hd hsd ⊢
  have hs0 : 0 < s := by
    refine Nat.pos_of_ne_zero ?_
    rintro rfl
    rw [pow_zero] at hsd
    omega
  refine Tot.bind (Montgomery.make_tot (w := 64) (show n % 2 = 1 by omega) (by omega)) ?_
  rintro st ⟨hstn, hst⟩
  refine (Tot.forEach (P := fun pre (r : Bool) => r = true ↔ ∀ b ∈ pre, Strong n s d b) (by simp) ?_).mono ?_
  · rintro pre b post r - hr
    unfold baseStep
    cases r with
    | false =>
      refine Tot.pure ?_
      constructor
      · intro h; exact absurd h (by simp)
      · intro h
        exact hr.2 fun b hb => h b (by simp [hb])
    | true =>
      refine (base_eq hst hstn (by omega) hs0).mono ?_
      intro r' hr'
      rw [hr']
      constructor
      · intro h x hx
        rw [List.mem_append, List.mem_singleton] at hx
        rcases hx with hx | rfl
        · exact hr.1 rfl x hx
        · exact h
      · intro h
        exact h b (by simp)
  · intro r hr
    exact ⟨fun h => absurd h (by omega), fun _ => ⟨s, d, hd, by omega, hr⟩⟩

/-- Powers modulo `p` by repeated squaring, for evaluation in the kernel. -/
def powMod (p : Nat) : Nat → Nat → Nat → Nat
  | 0, _, _ => 1
  | f + 1, a, k => powMod p f (a * a % p) (k / 2) * (if k % 2 = 1 then a else 1) % p

theorem powMod_eq (p : Nat) (hp : 1 < p) : ∀ f a k : Nat, k < 2 ^ f → powMod p f a k = a ^ k % p
  | 0, a, k, h => by
    have : k = 0 := by simpa using h
    subst this
    simp [powMod, Nat.mod_eq_of_lt hp]
  | f + 1, a, k, h => by
    rw [powMod, powMod_eq p hp f _ _ (by rw [pow_succ] at h; omega), Nat.mul_mod, ← Nat.pow_mod, Nat.mod_mod, ← Nat.mul_mod]
    congr 1
    rw [← pow_two, ← pow_mul]
    have := Nat.div_add_mod k 2
    by_cases h1 : k % 2 = 1
    · rw [if_pos h1, ← pow_succ, ← h1, this]
    · rw [if_neg h1, mul_one]; congr 1; omega




theorem goldilocks_prime : Nat.Prime (2 ^ 64 - 2 ^ 32 + 1) := by
  rw [show (2 ^ 64 - 2 ^ 32 + 1 : Nat) = 18446744069414584321 by norm_num]
  obtain ⟨p, hp⟩ : ∃ p : Nat, p = 18446744069414584321 := ⟨_, rfl⟩
  rw [← hp]
  have key : ∀ k : Nat, ((7 : Nat) : ZMod p) ^ k = 1 ↔ 7 ^ k % p = 1 := by
    intro k
    rw [← Nat.cast_pow, ← Nat.cast_one, ZMod.natCast_eq_natCast_iff, Nat.ModEq, Nat.mod_eq_of_lt (show 1 < p by omega)]
  refine lucas_primality p ((7 : Nat) : ZMod p) ?_ ?_
  · rw [key, hp]
    rw [← powMod_eq _ (by norm_num) 64 _ _ (by norm_num)]
    decide +kernel
  · intro q hq hd
    have hf : p - 1 = 2 ^ 32 * (3 * (5 * (17 * (257 * 65537)))) := by rw [hp]; norm_num
    rw [hf] at hd
    have hq' : q = 2 ∨ q = 3 ∨ q = 5 ∨ q = 17 ∨ q = 257 ∨ q = 65537 := by
      rcases hq.dvd_mul.1 hd with h | h
      · exact .inl ((Nat.prime_dvd_prime_iff_eq hq Nat.prime_two).1 (hq.dvd_of_dvd_pow h))
      rcases hq.dvd_mul.1 h with h | h
      · exact .inr (.inl ((Nat.prime_dvd_prime_iff_eq hq Nat.prime_three).1 h))
      rcases hq.dvd_mul.1 h with h | h
      · exact .inr (.inr (.inl ((Nat.prime_dvd_prime_iff_eq hq Nat.prime_five).1 h)))
      rcases hq.dvd_mul.1 h with h | h
      · exact .inr (.inr (.inr (.inl ((Nat.prime_dvd_prime_iff_eq hq (by norm_num)).1 h))))
      rcases hq.dvd_mul.1 h with h | h
      · exact .inr (.inr (.inr (.inr (.inl ((Nat.prime_dvd_prime_iff_eq hq (by norm_num)).1 h)))))
      · exact .inr (.inr (.inr (.inr (.inr ((Nat.prime_dvd_prime_iff_eq hq (by norm_num)).1 h)))))
    rw [Ne, key, hp]
    rcases hq' with rfl | rfl | rfl | rfl | rfl | rfl <;>
      (rw [← powMod_eq _ (by norm_num) 64 _ _ (by norm_num)]; decide +kernel)

end MillerRabin
