import Verif.Model.DiscreteLog
import Mathlib.FieldTheory.Finite.Basic
import Mathlib.Data.Nat.Totient
import Mathlib.Data.Nat.ChineseRemainder
import Mathlib.Data.Nat.Factorization.Basic

/-! # Helper lemmas for the discrete logarithm -/

namespace DiscreteLog
open Cxx

theorem floorLog2_tot {m : Nat} (h0 : 0 < m) (h : m < 2 ^ 30) : floorLog2 m = .ok (Nat.log2 m) := by
  obtain ⟨e1, e2⟩ := (Nat.log2_eq_iff (n := m) (by omega)).1 rfl
  obtain ⟨d, hd⟩ : ∃ d, d = Nat.log2 m := ⟨_, rfl⟩
  rw [← hd] at e1 e2 ⊢
  have hd30 : d < 30 := by
    by_contra hc
    have : 2 ^ 30 ≤ 2 ^ d := Nat.pow_le_pow_right (by omega) (by omega)
    omega
  have : Tot (floorLog2 m) fun r => r = d := by
    unfold floorLog2
    refine Tot.loopG (P := fun k (r : Nat) => r ≤ d ∧ k = d - r) (k := d) ?_ ⟨Nat.zero_le _, rfl⟩ (by omega)
    rintro k r ⟨h1, rfl⟩
    unfold logStep shl1
    rw [if_pos (by omega), ok_bind]
    by_cases c : r = d
    · subst c
      rw [if_neg (by norm_cast; omega)]
      exact (tot_ok ..).2 rfl
    · have : 2 ^ (r + 1) ≤ m := le_trans (Nat.pow_le_pow_right (by omega) (by omega)) e1
      rw [if_pos (by exact_mod_cast this)]
      exact (tot_ok ..).2 ⟨d - (r + 1), by omega, by omega, rfl⟩
  obtain ⟨r, hr, rfl⟩ := this
  exact hr

theorem inv_ok {m x : Nat} (hm : 0 < m) (h : Nat.gcd x m = 1) : ∃ u, inv m x = .ok u ∧ u < m ∧ x * u ≡ 1 [MOD m] := by
  refine ⟨((Nat.gcdA x m) % m).toNat, ?_, ?_, ?_⟩
  · unfold inv; rw [decide_eq_true h, check_true, ok_bind]; rfl
  · have h1 := Int.emod_nonneg (Nat.gcdA x m) (show (m : Int) ≠ 0 by omega)
    have h2 := Int.emod_lt_of_pos (Nat.gcdA x m) (show (0 : Int) < m by omega)
    omega
  · rw [← Int.natCast_modEq_iff]
    push_cast
    rw [Int.toNat_of_nonneg (Int.emod_nonneg _ (by omega))]
    have hb := Nat.gcd_eq_gcd_ab x m
    rw [h] at hb
    push_cast at hb
    have e1 : (x : Int) * (Nat.gcdA x m % m) ≡ x * Nat.gcdA x m [ZMOD m] := (Int.mod_modEq _ _).mul_left _
    refine e1.trans ?_
    rw [Int.modEq_iff_dvd]
    exact ⟨Nat.gcdB x m, by rw [hb]; ring⟩

/-- `k` is the least exponent for which `x ^ k` is `y`. -/
def Least (m x y k : Nat) : Prop := x ^ k ≡ y [MOD m] ∧ ∀ k', k' < k → ¬ x ^ k' ≡ y [MOD m]

theorem lookup_tryEmplace (mp : List (Nat × Nat)) (key j k : Nat) : (tryEmplace mp key j).lookup k = if k = key then some ((mp.lookup key).getD j) else mp.lookup k := by
  unfold tryEmplace
  cases h : mp.lookup key with
  | some v =>
    dsimp only
    by_cases e : k = key
    · subst e; simpa using h
    · rw [if_neg e]
  | none =>
    simp only [List.lookup]
    by_cases e : k = key
    · subst e; simp
    · have : (k == key) = false := by simpa using e
      rw [this, if_neg e]

/-- The table maps every power of `x` to its least exponent below `n`. -/
def TabOk (m x n : Nat) (mp : List (Nat × Nat)) : Prop :=
  ∀ v, (∀ j, mp.lookup v = some j → j < n ∧ x ^ j % m = v ∧ ∀ j', j' < j → x ^ j' % m ≠ v) ∧ (mp.lookup v = none → ∀ j, j < n → x ^ j % m ≠ v)

theorem fill_tot (m x p : Nat) : Tot (forUp 0 p ([], 1 % m) (fillStep m x)) fun s => TabOk m x p s.1 := by
  refine (Tot.forUp (P := fun n (s : List (Nat × Nat) × Nat) => TabOk m x n s.1 ∧ s.2 = x ^ n % m) (Nat.zero_le _) ⟨?_, by simp⟩ ?_).mono fun s h => h.1
  · intro v
    simp
  · rintro n ⟨mp, w⟩ _ _ ⟨h1, h2⟩
    dsimp only at h1 h2
    unfold fillStep
    refine Tot.pure ⟨fun v => ?_, ?_⟩
    · dsimp only
      rw [lookup_tryEmplace]
      by_cases c : v = w
      · subst c
        rw [if_pos rfl]
        refine ⟨fun j hj => ?_, fun hj => by simp at hj⟩
        obtain ⟨g1, g2⟩ := h1 v
        cases hl : List.lookup v mp with
        | some j0 =>
          rw [hl] at hj
          simp at hj
          subst hj
          obtain ⟨a, b, c⟩ := g1 j0 hl
          exact ⟨by omega, b, c⟩
        | none =>
          rw [hl] at hj
          simp at hj
          subst hj
          exact ⟨by omega, h2.symm, fun j' hj' => g2 hl j' hj'⟩
      · rw [if_neg c]
        obtain ⟨g1, g2⟩ := h1 v
        refine ⟨fun j hj => ?_, fun hj j hjn => ?_⟩
        · obtain ⟨a, b, c⟩ := g1 j hj
          exact ⟨by omega, b, c⟩
        · by_cases e : j = n
          · subst e; rw [← h2]; exact Ne.symm c
          · exact g2 hj j (by omega)
    · dsimp only
      rw [h2, pow_succ, Nat.mod_mul_mod]

/-- Baby steps and giant steps meet exactly at the exponents sought. -/
theorem meet {m x u p y i j : Nat} (hu : x * u ≡ 1 [MOD m]) : y * (u ^ p) ^ i ≡ x ^ j [MOD m] ↔ x ^ (p * i + j) ≡ y [MOD m] := by
  have h1 : x ^ (p * i) * (u ^ p) ^ i ≡ 1 [MOD m] := by
    rw [← pow_mul, ← mul_pow]
    simpa using hu.pow (p * i)
  constructor
  · intro h
    have h2 := h.mul_left (x ^ (p * i))
    have h3 : x ^ (p * i) * (y * (u ^ p) ^ i) ≡ y [MOD m] := by
      have := h1.mul_left y
      rw [mul_one] at this
      calc _ = y * (x ^ (p * i) * (u ^ p) ^ i) := by ring
        _ ≡ y [MOD m] := this
    rw [pow_add]
    exact h2.symm.trans h3
  · intro h
    have h2 := h.mul_right ((u ^ p) ^ i)
    refine h2.symm.trans ?_
    rw [pow_add]
    have := h1.mul_left (x ^ j)
    rw [mul_one] at this
    calc _ = x ^ j * (x ^ (p * i) * (u ^ p) ^ i) := by ring
      _ ≡ _ [MOD m] := this

theorem small_exp {m x y k : Nat} (hm : 1 < m) (hc : Nat.Coprime x m) (hk : x ^ k ≡ y [MOD m]) : ∃ k', k' < m ∧ x ^ k' ≡ y [MOD m] := by
  refine ⟨k % m.totient, lt_trans (Nat.mod_lt _ (Nat.totient_pos.2 (by omega))) (Nat.totient_lt m hm), ?_⟩
  have h1 : x ^ m.totient ≡ 1 [MOD m] := Nat.ModEq.pow_totient hc
  have h2 := (h1.pow (k / m.totient)).mul_right (x ^ (k % m.totient))
  rw [← pow_mul, ← pow_add, Nat.div_add_mod, one_pow, one_mul] at h2
  exact h2.symm.trans hk

def Answer (m x y : Nat) (r : Int) : Prop := (∃ k : Nat, r = k ∧ Least m x y k) ∨ (r = -1 ∧ ∀ k, ¬ x ^ k ≡ y [MOD m])

/-- The answer is below the modulus. -/
theorem Least.lt {m x y k : Nat} (hm : 1 < m) (hc : Nat.Coprime x m) (h : Least m x y k) : k < m := by
  obtain ⟨k', h1, h2⟩ := small_exp hm hc h.1
  by_contra hk
  exact h.2 k' (by omega) h2

theorem coprime_tot {m x y : Nat} (hm : 0 < m) (hm2 : m < 2 ^ 31) (hx : x < m) (hy : y < m) (hc : x = 0 ∨ Nat.Coprime x m) : Tot (coprime m x y) (Answer m x y) := by
  unfold coprime
  by_cases h1 : y = 1 ∨ m = 1
  · rw [if_pos h1]
    refine Tot.pure (Or.inl ⟨0, rfl, ?_, by omega⟩)
    rw [pow_zero]
    rcases h1 with rfl | rfl
    · rfl
    · exact Nat.modEq_one
  rw [if_neg h1]
  by_cases hx0 : x = 0
  · rw [if_pos hx0]
    subst hx0
    refine Tot.pure ?_
    have key : ∀ k, 0 ^ k ≡ y [MOD m] ↔ (k ≠ 0 ∧ y = 0) := by
      intro k
      unfold Nat.ModEq
      rw [Nat.mod_eq_of_lt hy]
      by_cases hk : k = 0
      · subst hk
        rw [pow_zero, Nat.mod_eq_of_lt (by omega)]
        constructor
        · intro h; omega
        · intro h; exact absurd rfl h.1
      · rw [zero_pow hk, Nat.zero_mod]
        constructor
        · intro h; exact ⟨hk, h.symm⟩
        · intro h; exact h.2.symm
    by_cases hy0 : y = 0
    · rw [if_pos hy0]
      refine Or.inl ⟨1, rfl, (key 1).2 ⟨by omega, hy0⟩, fun k' hk' h => ?_⟩
      exact ((key k').1 h).1 (by omega)
    · rw [if_neg hy0]
      exact Or.inr ⟨rfl, fun k h => hy0 ((key k).1 h).2⟩
  rw [if_neg hx0]
  have hc := hc.resolve_left hx0
  dsimp only
  obtain ⟨u, hu1, hu2, hu⟩ := inv_ok hm hc
  rw [hu1, ok_bind]
  obtain ⟨p, hp⟩ : ∃ p, p = Nat.sqrt m + 1 := ⟨_, rfl⟩
  rw [← hp]
  have hpp : m < p * p := by rw [hp]; exact Nat.lt_succ_sqrt m
  have hpl : p < 2 ^ 16 := by
    have := Nat.sqrt_le m
    by_contra hcc
    have : 65535 * 65535 ≤ Nat.sqrt m * Nat.sqrt m := Nat.mul_le_mul (by omega) (by omega)
    omega
  refine Tot.bind (fill_tot m x p) fun ⟨mp, w⟩ hT => ?_
  dsimp only at hT ⊢
  refine Tot.bind (P := fun s : Search => Answer m x y s.out) ?_ fun s hs => Tot.pure hs
  have key : ∀ i j, y * (u ^ p % m) ^ i % m = x ^ j % m ↔ x ^ (p * i + j) ≡ y [MOD m] := by
    intro i j
    rw [← meet (p := p) (i := i) (j := j) hu]
    unfold Nat.ModEq
    rw [Nat.mul_mod, Nat.pow_mod, Nat.mod_mod, ← Nat.pow_mod, ← Nat.mul_mod]
  refine (Tot.forUp (P := fun i (s : Search) => (∃ k : Nat, s.res = some (k : Int) ∧ Least m x y k) ∨
      (s.res = none ∧ s.ya = y * (u ^ p % m) ^ i % m ∧ ∀ k, k < p * i → ¬ x ^ k ≡ y [MOD m])) (Nat.zero_le _) (Or.inr ⟨rfl, by simp [Nat.mod_eq_of_lt hy], by simp⟩) ?_).mono ?_
  · rintro i ⟨res, ya⟩ _ hi (⟨k, h2, h3⟩ | ⟨h2, h3, h4⟩)
    · dsimp only at h2
      subst h2
      exact Tot.pure (Or.inl ⟨k, rfl, h3⟩)
    · dsimp only at h2 h3
      subst h2
      unfold findStep
      dsimp only
      obtain ⟨g1, g2⟩ := hT ya
      cases hl : mp.lookup ya with
      | some j =>
        obtain ⟨a1, a2, a3⟩ := g1 j hl
        have hL : Least m x y (p * i + j) := by
          refine ⟨(key i j).1 (by rw [← h3, a2]), fun k' hk' hk => ?_⟩
          by_cases c : k' < p * i
          · exact h4 k' c hk
          · obtain ⟨j', rfl⟩ : ∃ j', k' = p * i + j' := ⟨k' - p * i, by omega⟩
            exact a3 j' (by omega) (by rw [h3]; exact ((key i j').2 hk).symm)
        have hlt := hL.lt (by omega) hc
        have e : ((p : Int) * (i : Int)) = ((p * i : Nat) : Int) := by push_cast; rfl
        dsimp only
        rw [e, i32_ok ⟨by omega, by omega⟩, ok_bind, i32_ok ⟨by omega, by omega⟩, ok_bind]
        exact Tot.pure (Or.inl ⟨p * i + j, by push_cast; rfl, hL⟩)
      | none =>
        dsimp only
        refine Tot.pure (Or.inr ⟨rfl, ?_, ?_⟩)
        · dsimp only
          rw [h3, Nat.mod_mul_mod, pow_succ, mul_assoc]
        · intro k hk hkk
          by_cases c : k < p * i
          · exact h4 k c hkk
          · obtain ⟨j, rfl⟩ : ∃ j, k = p * i + j := ⟨k - p * i, by omega⟩
            rw [Nat.mul_succ] at hk
            exact g2 hl j (by omega) (by rw [h3]; exact ((key i j).2 hkk).symm)
  · rintro s (⟨k, h2, h3⟩ | ⟨h2, h3, h4⟩)
    · refine Or.inl ⟨k, ?_, h3⟩
      unfold Search.out; rw [h2]
    · refine Or.inr ⟨by unfold Search.out; rw [h2], fun k hk => ?_⟩
      obtain ⟨k', g1, g2⟩ := small_exp (by omega) hc hk
      exact h4 k' (by omega) g2

theorem coprime_fails {m x y : Nat} (hy1 : y ≠ 1) (hm1 : m ≠ 1) (hx : x ≠ 0) (hg : Nat.gcd x m ≠ 1) : coprime m x y = .error .assertion := by
  unfold coprime inv
  rw [if_neg (by tauto), if_neg hx]
  dsimp only
  rw [decide_eq_false hg, check_false, err_bind, err_bind]

theorem split_coprime {m x d : Nat} (hm : 0 < m) (hd : m < 2 ^ (d + 1)) : Nat.Coprime x (m / Nat.gcd (x ^ d) m) := by
  obtain ⟨g, hg⟩ : ∃ g, g = Nat.gcd (x ^ d) m := ⟨_, rfl⟩
  rw [← hg]
  have hgm : g ∣ m := hg ▸ Nat.gcd_dvd_right _ _
  rw [Nat.coprime_iff_gcd_eq_one]
  by_contra hne
  obtain ⟨p, hp, hpg⟩ := Nat.exists_prime_and_dvd hne
  have hpx : p ∣ x := hpg.trans (Nat.gcd_dvd_left _ _)
  have hpm : p ∣ m / g := hpg.trans (Nat.gcd_dvd_right _ _)
  obtain ⟨v, hv⟩ : ∃ v, v = m.factorization p := ⟨_, rfl⟩
  have h1 : p ^ v ∣ m := hv ▸ Nat.ordProj_dvd m p
  have hvd : v ≤ d := by
    by_contra hc
    have a1 : 2 ^ (d + 1) ≤ 2 ^ v := Nat.pow_le_pow_right (by omega) (by omega)
    have a2 : 2 ^ v ≤ p ^ v := Nat.pow_le_pow_left hp.two_le _
    have a3 := Nat.le_of_dvd hm h1
    omega
  have h2 : p ^ v ∣ x ^ d := (pow_dvd_pow_of_dvd hpx v).trans (pow_dvd_pow _ hvd)
  have h3 : p ^ v ∣ g := hg ▸ Nat.dvd_gcd h2 h1
  have h4 : p ^ (v + 1) ∣ m := by
    rw [pow_succ]
    have := Nat.mul_dvd_mul h3 hpm
    rwa [Nat.mul_div_cancel' hgm] at this
  rw [hv] at h4
  exact Nat.pow_succ_factorization_not_dvd (by omega) hp h4

theorem Answer.congr {m x y x' y' : Nat} {r : Int} (hx : x ≡ x' [MOD m]) (hy : y ≡ y' [MOD m]) (h : Answer m x y r) : Answer m x' y' r := by
  have e : ∀ k, x ^ k ≡ y [MOD m] ↔ x' ^ k ≡ y' [MOD m] := fun k =>
    ⟨fun h => ((hx.pow k).symm.trans h).trans hy, fun h => ((hx.pow k).trans h).trans hy.symm⟩
  rcases h with ⟨k, h1, h2, h3⟩ | ⟨h1, h2⟩
  · exact Or.inl ⟨k, h1, (e k).1 h2, fun k' hk' h => h3 k' hk' ((e k').2 h)⟩
  · exact Or.inr ⟨h1, fun k h => h2 k ((e k).2 h)⟩

theorem reduce_tot {m d x y : Nat} (hm : 1 < m) (hm2 : m < 2 ^ 30) (hd : m < 2 ^ (d + 1)) (hd2 : d < 31) (hs : ∀ k, k < d → ¬ x ^ k ≡ y [MOD m]) : Tot (reduce m d x y (x ^ d % m)) (Answer m x y) := by
  have hgg : Nat.gcd (x ^ d % m) m = Nat.gcd (x ^ d) m := by rw [← Nat.gcd_rec]; exact Nat.gcd_comm _ _
  unfold reduce
  dsimp only
  rw [hgg]
  have hco := split_coprime (x := x) (by omega) hd
  obtain ⟨g, hg⟩ : ∃ g, g = Nat.gcd (x ^ d) m := ⟨_, rfl⟩
  rw [← hg] at hco ⊢
  have hgm : g ∣ m := hg ▸ Nat.gcd_dvd_right _ _
  have hgx : g ∣ x ^ d := hg ▸ Nat.gcd_dvd_left _ _
  obtain ⟨q, hq⟩ : ∃ q, q = m / g := ⟨_, rfl⟩
  rw [← hq] at hco ⊢
  have hmq : g * q = m := by rw [hq]; exact Nat.mul_div_cancel' hgm
  have hqpos : 0 < q := by
    rcases Nat.eq_zero_or_pos q with h | h
    · rw [h, Nat.mul_zero] at hmq; omega
    · exact h
  have hgpos : 0 < g := by
    rcases Nat.eq_zero_or_pos g with h | h
    · rw [h, Nat.zero_mul] at hmq; omega
    · exact h
  have hqm : q ≤ m := by rw [← hmq]; exact Nat.le_mul_of_pos_left _ hgpos
  have hcg : Nat.Coprime g q := Nat.Coprime.coprime_dvd_left hgx (Nat.Coprime.pow_left d hco)
  have key : ∀ t, x ^ (d + t) ≡ y [MOD m] ↔ g ∣ y ∧ x ^ (d + t) ≡ y [MOD q] := by
    intro t
    have hgt : g ∣ x ^ (d + t) := hgx.trans (pow_dvd_pow _ (by omega))
    rw [← hmq]
    constructor
    · intro h
      refine ⟨?_, h.of_mul_left g⟩
      exact (Nat.ModEq.dvd_iff (h.of_mul_right q) (dvd_refl g)).1 hgt
    · rintro ⟨h1, h2⟩
      refine (Nat.modEq_and_modEq_iff_modEq_mul hcg).1 ⟨?_, h2⟩
      exact (Nat.modEq_zero_iff_dvd.2 hgt).trans (Nat.modEq_zero_iff_dvd.2 h1).symm
  by_cases hgy : y % g ≠ 0
  · rw [if_pos hgy]
    refine Tot.pure (Or.inr ⟨rfl, fun k hk => ?_⟩)
    by_cases c : k < d
    · exact hs k c hk
    · obtain ⟨t, rfl⟩ : ∃ t, k = d + t := ⟨k - d, by omega⟩
      exact hgy (Nat.mod_eq_zero_of_dvd ((key t).1 hk).1)
  rw [if_neg hgy]
  have hgy' : g ∣ y := Nat.dvd_of_mod_eq_zero (by simpa using hgy)
  have hgcd : Nat.gcd (x ^ d % m % q) q = 1 := by
    rw [Nat.mod_mod_of_dvd _ ⟨g, by rw [← hmq]; ring⟩, ← Nat.gcd_rec, Nat.gcd_comm]
    exact Nat.Coprime.pow_left d hco
  obtain ⟨u, u1, u2, u3⟩ := inv_ok hqpos hgcd
  rw [u1, ok_bind]
  have hu : x ^ d * u ≡ 1 [MOD q] := by
    refine (Nat.ModEq.mul_right u ?_).trans u3
    rw [Nat.mod_mod_of_dvd _ ⟨g, by rw [← hmq]; ring⟩]
    exact (Nat.mod_modEq _ _).symm
  have hcx : x % q = 0 ∨ Nat.Coprime (x % q) q := by
    right
    unfold Nat.Coprime
    rw [← Nat.gcd_rec, Nat.gcd_comm]
    exact hco
  refine Tot.bind (coprime_tot hqpos (by omega) (Nat.mod_lt _ hqpos) (Nat.mod_lt _ hqpos) hcx) fun t ht => ?_
  have ht' : Answer q x (y * u) t := ht.congr (Nat.mod_modEq _ _) ((Nat.mod_modEq _ _).trans ((Nat.mod_modEq _ _).mul_right u))
  have tr : ∀ k, x ^ k ≡ y * u [MOD q] ↔ x ^ (d + k) ≡ y [MOD m] := by
    intro k
    rw [key]
    constructor
    · intro h
      refine ⟨hgy', ?_⟩
      rw [pow_add]
      refine (h.mul_left (x ^ d)).trans ?_
      have := hu.mul_left y
      rw [mul_one] at this
      calc _ = y * (x ^ d * u) := by ring
        _ ≡ y [MOD q] := this
    · rintro ⟨-, h⟩
      refine Nat.ModEq.trans ?_ (h.mul_right u)
      have := hu.mul_left (x ^ k)
      rw [mul_one] at this
      refine this.symm.trans ?_
      rw [pow_add]
      calc _ = x ^ d * x ^ k * u := by ring
        _ ≡ _ [MOD q] := Nat.ModEq.refl _
  rcases ht' with ⟨k, rfl, h1, h2⟩ | ⟨rfl, h1⟩
  · rw [if_pos (by omega)]
    have hk : k ≤ q := by
      rcases Nat.lt_or_ge 1 q with c | c
      · exact (Least.lt c hco ⟨h1, h2⟩).le
      · by_contra hk
        have : q = 1 := by omega
        subst this
        exact h2 0 (by omega) Nat.modEq_one
    rw [i32_ok ⟨by omega, by omega⟩]
    refine (tot_ok ..).2 (Or.inl ⟨d + k, by push_cast; rfl, (tr k).1 h1, fun k' hk' h => ?_⟩)
    by_cases c : k' < d
    · exact hs k' c h
    · obtain ⟨t, rfl⟩ : ∃ t, k' = d + t := ⟨k' - d, by omega⟩
      exact h2 t (by omega) ((tr t).2 h)
  · rw [if_neg (by simp)]
    refine Tot.pure (Or.inr ⟨rfl, fun k hk => ?_⟩)
    by_cases c : k < d
    · exact hs k c hk
    · obtain ⟨t, rfl⟩ : ∃ t, k = d + t := ⟨k - d, by omega⟩
      exact h1 t ((tr t).2 hk)

theorem dlog_tot {m x y : Nat} (hm : 0 < m) (hm2 : m < 2 ^ 30) (hy : y < m) : Tot (dlog m x y) (Answer m x y) := by
  unfold dlog
  by_cases h1 : m = 1
  · rw [if_pos h1]
    subst h1
    exact Tot.pure (Or.inl ⟨0, rfl, Nat.modEq_one, by omega⟩)
  rw [if_neg h1, floorLog2_tot hm hm2, ok_bind]
  obtain ⟨e1, e2⟩ := (Nat.log2_eq_iff (n := m) (by omega)).1 rfl
  obtain ⟨d, hd⟩ : ∃ d, d = Nat.log2 m := ⟨_, rfl⟩
  rw [← hd] at e1 e2 ⊢
  have hd30 : d < 30 := by
    by_contra hc
    have : 2 ^ 30 ≤ 2 ^ d := Nat.pow_le_pow_right (by omega) (by omega)
    omega
  refine Tot.bind (P := fun s : Search => (∃ k : Nat, s.res = some (k : Int) ∧ Least m x y k) ∨ (s.res = none ∧ s.ya = x ^ d % m ∧ ∀ k, k < d → ¬ x ^ k ≡ y [MOD m])) ?_ fun s hs => ?_
  · refine Tot.forUp (P := fun i (s : Search) => (∃ k : Nat, s.res = some (k : Int) ∧ Least m x y k) ∨ (s.res = none ∧ s.ya = x ^ i % m ∧ ∀ k, k < i → ¬ x ^ k ≡ y [MOD m])) (Nat.zero_le _)
      (Or.inr ⟨rfl, by simp, by simp⟩) ?_
    rintro i ⟨res, ya⟩ _ hi (⟨k, h2, h3⟩ | ⟨h2, h3, h4⟩)
    · dsimp only at h2
      subst h2
      exact Tot.pure (Or.inl ⟨k, rfl, h3⟩)
    · dsimp only at h2 h3
      subst h2
      unfold smallStep
      dsimp only
      have hiff : x ^ i ≡ y [MOD m] ↔ ya = y := by
        unfold Nat.ModEq; rw [← h3, Nat.mod_eq_of_lt hy]
      by_cases c : ya = y
      · rw [if_pos c]
        exact Tot.pure (Or.inl ⟨i, rfl, hiff.2 c, h4⟩)
      · rw [if_neg c]
        refine Tot.pure (Or.inr ⟨rfl, by dsimp only; rw [h3, pow_succ, Nat.mod_mul_mod], fun k hk hkk => ?_⟩)
        by_cases e : k = i
        · subst e; exact c (hiff.1 hkk)
        · exact h4 k (by omega) hkk
  · obtain ⟨res, ya⟩ := s
    rcases hs with ⟨k, h2, h3⟩ | ⟨h2, h3, h4⟩
    · dsimp only at h2
      subst h2
      exact Tot.pure (Or.inl ⟨k, rfl, h3⟩)
    · dsimp only at h2 h3
      subst h2
      subst h3
      exact reduce_tot (by omega) hm2 e2 (by omega) h4

theorem floorLog2_ub {m : Nat} (h : 2 ^ 30 ≤ m) : floorLog2 m = .error .ub := by
  have step : ∀ r, r < 31 → logStep m r = .ok (some (r + 1)) := by
    intro r hr
    unfold logStep shl1
    by_cases c : r + 1 < 31
    · rw [if_pos c, ok_bind]
      have : 2 ^ (r + 1) ≤ m := le_trans (Nat.pow_le_pow_right (by omega) (by omega)) h
      rw [if_pos (by exact_mod_cast this)]; rfl
    · rw [if_neg c, if_pos (by omega), ok_bind, if_pos (by omega)]; rfl
  have last : logStep m 31 = .error .ub := by
    unfold logStep shl1; rfl
  have run : ∀ k fuel r, r + k = 31 → k < fuel → loop (logStep m) fuel r = .error .ub := by
    intro k
    induction k with
    | zero =>
      intro fuel r hr hf
      obtain ⟨f, rfl⟩ : ∃ f, fuel = f + 1 := ⟨fuel - 1, by omega⟩
      obtain rfl : r = 31 := by omega
      rw [loop, last, err_bind]
    | succ k ih =>
      intro fuel r hr hf
      obtain ⟨f, rfl⟩ : ∃ f, fuel = f + 1 := ⟨fuel - 1, by omega⟩
      rw [loop, step r (by omega), ok_bind]
      exact ih f (r + 1) (by omega) (by omega)
  exact run 31 64 0 rfl (by omega)

end DiscreteLog
