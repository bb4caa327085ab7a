import Verif.Model.Tetration
import Verif.Proof.FastFactorize2
import Mathlib.FieldTheory.Finite.Basic
import Mathlib.Data.Nat.Totient

/-! # Power towers: proofs -/

namespace Tetration
open Cxx

/-- `a ↑↑ b`: the tower of `b` copies of `a`. -/
def tower (a : Nat) : Nat → Nat
  | 0 => 1
  | b + 1 => a ^ tower a b

theorem tower_pos {a : Nat} (ha : 0 < a) : ∀ b, 0 < tower a b
  | 0 => by simp [tower]
  | _ + 1 => Nat.pow_pos ha

theorem sat_mul {x y : Nat} (hx : 0 < x) (hy : 0 < y) : min (min x maxValue * min y maxValue) maxValue = min (x * y) maxValue := by
  have hM : 0 < maxValue := by decide
  rcases Nat.le_total x maxValue with h1 | h1 <;> rcases Nat.le_total y maxValue with h2 | h2
  · rw [Nat.min_eq_left h1, Nat.min_eq_left h2]
  · rw [Nat.min_eq_left h1, Nat.min_eq_right h2, Nat.min_eq_right (Nat.le_mul_of_pos_left _ hx), Nat.min_eq_right (h2.trans (Nat.le_mul_of_pos_left _ hx))]
  · rw [Nat.min_eq_right h1, Nat.min_eq_left h2, Nat.min_eq_right (Nat.le_mul_of_pos_right _ hy), Nat.min_eq_right (h1.trans (Nat.le_mul_of_pos_right _ hy))]
  · rw [Nat.min_eq_right h1, Nat.min_eq_right h2, Nat.min_eq_right (Nat.le_mul_of_pos_right _ hM), Nat.min_eq_right (h1.trans (Nat.le_mul_of_pos_right _ hy))]

theorem mul_fits {x y : Nat} (hx : x < 2 ^ 31) (hy : y < 2 ^ 31) : i64 ((x : Int) * y) = .ok ((x * y : Nat) : Int) := by
  have h : x * y ≤ (2 ^ 31 - 1) * (2 ^ 31 - 1) := Nat.mul_le_mul (by omega) (by omega)
  have e : (x : Int) * y = ((x * y : Nat) : Int) := by push_cast; rfl
  rw [e]
  exact i64_ok ⟨by omega, by omega⟩

theorem pow_half (P b : Nat) : P ^ b = (P * P) ^ (b / 2) * P ^ (b % 2) := by
  rw [← pow_two, ← pow_mul, ← pow_add, Nat.div_add_mod]

theorem satPow_tot {a b : Nat} (ha : 2 ≤ a) (hb : a < 2 ^ 31) : Tot (satPow a b) fun r => r = min (a ^ b) maxValue := by
  unfold satPow
  have hMd : maxValue = 2 ^ 31 - 1 := rfl
  by_cases h : 32 ≤ b
  · rw [if_pos h]
    refine Tot.pure ?_
    have h1 : 2 ^ 32 ≤ a ^ b := (Nat.pow_le_pow_right (by omega) h).trans (Nat.pow_le_pow_left ha b)
    omega
  · rw [if_neg h]
    refine Tot.bind (P := fun s => s.2.1 = min (a ^ b) maxValue) ?_ fun s hs => Tot.pure hs
    refine Tot.loop (P := fun s : Nat × Nat × Nat => ∃ R P, s.2.1 = min R maxValue ∧ s.2.2 = min P maxValue ∧ 0 < R ∧ 0 < P ∧ R * P ^ s.1 = a ^ b)
      (fun s => s.1) ?_ ⟨1, a, by dsimp only; omega, by dsimp only; omega, by omega, by omega, by dsimp only; rw [Nat.one_mul]⟩ (by dsimp only; omega)
    rintro ⟨k, r, q⟩ ⟨R, P, h1, h2, hR, hP, e⟩
    dsimp only at h1 h2 e
    unfold satStep
    dsimp only
    by_cases hk : k = 0
    · rw [if_pos hk]
      subst hk
      rw [pow_zero, Nat.mul_one] at e
      exact Tot.pure (by rw [h1, e])
    · rw [if_neg hk, mul_fits (by omega) (by omega), ok_bind, mul_fits (by omega) (by omega), ok_bind]
      refine Tot.pure ⟨?_, by dsimp only; omega⟩
      dsimp only
      rw [Int.toNat_natCast, Int.toNat_natCast]
      refine ⟨if k % 2 = 1 then R * P else R, P * P, ?_, ?_, ?_, Nat.mul_pos hP hP, ?_⟩
      · by_cases ho : k % 2 = 1
        · rw [if_pos ho, if_pos ho, h1, h2, sat_mul hR hP]
        · rw [if_neg ho, if_neg ho, h1]
      · rw [h2, sat_mul hP hP]
      · split
        · exact Nat.mul_pos hR hP
        · exact hR
      · rw [← e, pow_half P k]
        by_cases ho : k % 2 = 1
        · rw [if_pos ho, ho, pow_one]; ring
        · rw [if_neg ho, show k % 2 = 0 by omega, pow_zero, Nat.mul_one]

theorem tower_mono {a : Nat} (ha : 2 ≤ a) {b c : Nat} (h : b ≤ c) : tower a b ≤ tower a c := by
  induction c with
  | zero => rw [show b = 0 by omega]
  | succ c ih =>
    rcases Nat.lt_or_ge c b with h1 | h1
    · rw [show b = c + 1 by omega]
    · exact (ih h1).trans (Nat.lt_pow_self (by omega)).le

theorem satTet_tot {a : Nat} (ha : 2 ≤ a) (hb : a < 2 ^ 31) (b : Nat) : Tot (satTet a b) fun e => e = min (tower a b) maxValue := by
  have hMd : maxValue = 2 ^ 31 - 1 := rfl
  unfold satTet
  rw [decide_eq_true ha, check_true, ok_bind]
  by_cases h0 : b = 0
  · rw [if_pos h0]
    subst h0
    exact Tot.pure (by simp [tower, maxValue])
  · rw [if_neg h0]
    refine Tot.bind (P := fun s => s.2 = min (tower a b) maxValue) ?_ fun s hs => Tot.pure hs
    refine Tot.loop (P := fun s : Nat × Nat => s.1 ≤ b ∧ s.2 = min (tower a s.1) maxValue) (fun s => b - s.1) ?_ ⟨by dsimp only; omega, by simp [tower, maxValue]⟩ (by dsimp only; omega)
    rintro ⟨i, e⟩ ⟨hi, he⟩
    dsimp only at hi he
    unfold satTetStep
    dsimp only
    by_cases hc : i < b ∧ e ≠ maxValue
    · rw [if_pos hc]
      refine Tot.bind (satPow_tot ha hb) fun r hr => Tot.pure ⟨⟨by dsimp only; omega, ?_⟩, by dsimp only; omega⟩
      dsimp only
      rw [hr, show e = tower a i by omega]
      rfl
    · rw [if_neg hc]
      refine Tot.pure ?_
      rcases Nat.lt_or_ge i b with h1 | h1
      · have h2 : e = maxValue := by
          by_contra h
          exact hc ⟨h1, h⟩
        have := tower_mono ha (show i ≤ b by omega)
        dsimp only
        omega
      · rw [show b = i by omega]
        exact he

theorem powMod_tot {a b m : Nat} (ha : a < 2 ^ 31) (hb : b < 2 ^ 32) (hm : 2 ≤ m) (hm2 : m < 2 ^ 31) : Tot (powMod a b m) fun r => r = a ^ b % m := by
  unfold powMod
  refine Tot.bind (P := fun s => s.2.1 = a ^ b % m) ?_ fun s hs => Tot.pure hs
  refine Tot.loopG (P := fun k (s : Nat × Nat × Nat) => s.1 < 2 ^ k ∧ s.2.1 < m ∧ s.2.2 < 2 ^ 31 ∧ s.2.1 * s.2.2 ^ s.1 ≡ a ^ b [MOD m]) (k := 32) ?_
    ⟨hb, by dsimp only; omega, ha, by dsimp only; rw [Nat.one_mul]⟩ (le_refl _)
  rintro k ⟨c, r, q⟩ ⟨h0, h1, h2, e⟩
  dsimp only at h0 h1 h2 e
  unfold powStep
  dsimp only
  by_cases hc : c = 0
  · rw [if_pos hc]
    subst hc
    rw [pow_zero, Nat.mul_one] at e
    refine Tot.pure ?_
    dsimp only
    rw [← Nat.mod_eq_of_lt h1]
    exact e
  · rw [if_neg hc, mul_fits (by omega) (by omega), ok_bind, mul_fits (by omega) (by omega), ok_bind, if_neg (by omega)]
    rw [Int.toNat_natCast, Int.toNat_natCast]
    refine Tot.pure ?_
    cases k with
    | zero => simp at h0; omega
    | succ k =>
      have hlt := Nat.mod_lt (q * q) (show 0 < m by omega)
      refine ⟨k, by omega, by dsimp only; rw [pow_succ] at h0; omega, ?_, by dsimp only; omega, ?_⟩
      · dsimp only
        split
        · exact Nat.mod_lt _ (by omega)
        · exact h1
      · dsimp only
        refine Nat.ModEq.trans ?_ e
        have hq : (q * q % m) ^ (c / 2) ≡ (q * q) ^ (c / 2) [MOD m] := (Nat.mod_modEq _ _).pow _
        by_cases ho : c % 2 = 1
        · rw [if_pos ho, pow_half q c, ho, pow_one]
          refine ((Nat.mod_modEq _ _).mul hq).trans ?_
          rw [show r * q * (q * q) ^ (c / 2) = r * ((q * q) ^ (c / 2) * q) by ring]
        · rw [if_neg ho, pow_half q c, show c % 2 = 0 by omega, pow_zero, Nat.mul_one]
          exact hq.mul_left r

/-- What the preparation computes: `m = m0 * G` with `G ∣ a^i0` and `a` coprime to `m0`. -/
structure Split (a m m0 i0 : Nat) : Prop where
  pos : 0 < m0
  cop : Nat.Coprime a m0
  dvd : m ∣ m0 * a ^ i0
  small : m0 * 2 ^ i0 ≤ m

theorem gcd_tot {a m : Nat} (ha : 2 ≤ a) (hm : 0 < m) (hb : m < 2 ^ 31) :
    Tot (loop gcdStep 32 (m, 0, Nat.gcd m a)) fun s => Split a m s.1 s.2.1 := by
  refine Tot.loopG (P := fun k (s : Nat × Nat × Nat) => 0 < s.1 ∧ s.1 < 2 ^ k ∧ m ∣ s.1 * a ^ s.2.1 ∧ s.1 * 2 ^ s.2.1 ≤ m ∧ s.2.2 ∣ s.1 ∧ s.2.2 ∣ a ∧
      ∀ p, p.Prime → p ∣ s.1 → p ∣ a → p ∣ s.2.2) (k := 32) ?_
    ⟨hm, by dsimp only; omega, by simp, by simp, Nat.gcd_dvd_left _ _, Nat.gcd_dvd_right _ _, fun p _ h1 h2 => Nat.dvd_gcd h1 h2⟩ (le_refl _)
  rintro k ⟨m0, i, g⟩ ⟨h0, hk, hd, hs, hg1, hg2, hp⟩
  dsimp only at h0 hk hd hs hg1 hg2 hp
  unfold gcdStep
  dsimp only
  by_cases h1 : g = 1
  · rw [if_pos h1]
    refine Tot.pure ⟨h0, ?_, hd, hs⟩
    refine Nat.Coprime.symm ?_
    rw [Nat.coprime_iff_gcd_eq_one]
    by_contra hne
    obtain ⟨p, hpp, hpd⟩ := Nat.exists_prime_and_dvd hne
    have := hp p hpp (hpd.trans (Nat.gcd_dvd_left _ _)) (hpd.trans (Nat.gcd_dvd_right _ _))
    rw [h1] at this
    exact hpp.one_lt.ne' (Nat.dvd_one.1 this)
  · have hgp : 0 < g := Nat.pos_of_dvd_of_pos hg1 h0
    rw [if_neg h1, if_neg (by omega)]
    obtain ⟨c, hc⟩ := hg1
    have hdiv : m0 / g = c := by rw [hc]; exact Nat.mul_div_cancel_left _ hgp
    rw [hdiv]
    have hc0 : 0 < c := by
      rcases Nat.eq_zero_or_pos c with rfl | h
      · simp at hc; omega
      · exact h
    have hle : 2 * c ≤ m0 := by rw [hc]; exact Nat.mul_le_mul_right _ (by omega)
    refine Tot.pure ?_
    cases k with
    | zero => simp at hk; omega
    | succ k =>
      refine ⟨k, by omega, hc0, by dsimp only; rw [pow_succ] at hk; omega, ?_, ?_, Nat.gcd_dvd_left _ _, (Nat.gcd_dvd_right _ _).trans hg2, ?_⟩
      · dsimp only
        refine hd.trans ?_
        rw [hc, pow_succ, show g * c * a ^ i = c * a ^ i * g by ring, ← Nat.mul_assoc]
        exact Nat.mul_dvd_mul_left _ hg2
      · dsimp only
        refine le_trans ?_ hs
        rw [pow_succ, show c * (2 ^ i * 2) = 2 * c * 2 ^ i by ring]
        exact Nat.mul_le_mul_right _ hle
      · intro p hpp h3 h4
        exact Nat.dvd_gcd h3 (hp p hpp (h3.trans ⟨g, by rw [hc, Nat.mul_comm]⟩) h4)

theorem phi_tot {n : Nat} {l : List (Nat × Nat)} (hn : 0 < n) (hb : n < 2 ^ 31) (hnd : (l.map Prod.fst).Nodup) (hp : ∀ x ∈ l, x.1.Prime ∧ 0 < x.2)
    (e : (l.map fun x => x.1 ^ x.2).prod = n) : Tot (forEach l n phiStep) fun r => r = Nat.totient n := by
  refine (Tot.forEach (P := fun pre phi => phi = Nat.totient ((pre.map fun x => x.1 ^ x.2).prod) * (n / (pre.map fun x => x.1 ^ x.2).prod)) (by simp) ?_).mono ?_
  · intro pre x post phi he h
    have hx := hp x (by rw [he]; simp)
    obtain ⟨A, hA⟩ : ∃ A, A = (pre.map fun x => x.1 ^ x.2).prod := ⟨_, rfl⟩
    obtain ⟨B, hB⟩ : ∃ B, B = (post.map fun x => x.1 ^ x.2).prod := ⟨_, rfl⟩
    have hnn : n = A * (x.1 ^ x.2 * B) := by
      rw [← e, he, List.map_append, List.prod_append, List.map_cons, List.prod_cons, hA, hB]
    have hA0 : 0 < A := by
      rcases Nat.eq_zero_or_pos A with h | h
      · rw [h] at hnn; omega
      · exact h
    have hX0 : 0 < x.1 ^ x.2 := Nat.pow_pos hx.1.pos
    rw [← hA] at h
    have hcop : Nat.Coprime A (x.1 ^ x.2) := by
      refine Nat.Coprime.pow_right _ ?_
      rw [hA, FastFactorize.coprime_prod]
      intro z hz
      obtain ⟨y, hy, rfl⟩ := List.mem_map.1 hz
      have hyp := hp y (by rw [he]; exact List.mem_append_left _ hy)
      refine Nat.Coprime.pow_left _ ((Nat.coprime_primes hyp.1 hx.1).2 ?_)
      rw [he, List.map_append, List.nodup_append] at hnd
      exact hnd.2.2 _ (List.mem_map.2 ⟨y, hy, rfl⟩) _ (List.mem_map.2 ⟨x, by simp, rfl⟩)
    rw [List.map_append, List.prod_append, List.map_cons, List.map_nil, List.prod_cons, List.prod_nil, Nat.mul_one, ← hA]
    have hq1 : n / A = x.1 ^ x.2 * B := by rw [hnn]; exact Nat.mul_div_cancel_left _ hA0
    have hq2 : n / (A * x.1 ^ x.2) = B := by rw [hnn, ← Nat.mul_assoc]; exact Nat.mul_div_cancel_left _ (Nat.mul_pos hA0 hX0)
    rw [hq1] at h
    rw [hq2]
    obtain ⟨j, hj⟩ : ∃ j, x.2 = j + 1 := ⟨x.2 - 1, by omega⟩
    have hph : phi / x.1 = Nat.totient A * (x.1 ^ j * B) := by
      rw [h, hj, show Nat.totient A * (x.1 ^ (j + 1) * B) = x.1 * (Nat.totient A * (x.1 ^ j * B)) by rw [pow_succ]; ring]
      exact Nat.mul_div_cancel_left _ hx.1.pos
    have hres : phi / x.1 * (x.1 - 1) = Nat.totient (A * x.1 ^ x.2) * B := by
      rw [hph, Nat.totient_mul hcop, hj, Nat.totient_prime_pow_succ hx.1]; ring
    have hle : phi / x.1 * (x.1 - 1) ≤ n := by
      rw [hres]
      calc Nat.totient (A * x.1 ^ x.2) * B ≤ A * x.1 ^ x.2 * B := Nat.mul_le_mul_right _ (Nat.totient_le _)
        _ = n := by rw [hnn, Nat.mul_assoc]
    unfold phiStep
    rw [if_neg hx.1.pos.ne']
    rw [show (((phi / x.1 : Nat) : Int) * ((x.1 - 1 : Nat) : Int)) = ((phi / x.1 * (x.1 - 1) : Nat) : Int) by push_cast; rfl, i32_ok ⟨by omega, by omega⟩, ok_bind]
    refine Tot.pure ?_
    rw [Int.toNat_natCast, hres]
  · intro r hr
    rw [hr, e, Nat.div_self hn, Nat.mul_one]

theorem pow_congr {a m m0 i0 : Nat} (h : Split a m m0 i0) {e1 e2 : Nat} (h1 : i0 ≤ e1) (h2 : i0 ≤ e2) (he : e1 ≡ e2 [MOD Nat.totient m0]) :
    a ^ e1 % m = a ^ e2 % m := by
  wlog hle : e1 ≤ e2 generalizing e1 e2
  · exact (this h2 h1 he.symm (by omega)).symm
  obtain ⟨k, hk⟩ := (Nat.modEq_iff_dvd' hle).1 he
  have h3 : a ^ (e2 - e1) ≡ 1 [MOD m0] := by
    rw [hk, pow_mul]
    have := (Nat.ModEq.pow_totient h.cop).pow k
    rwa [one_pow] at this
  have h4 : a ^ i0 * a ^ (e2 - e1) ≡ a ^ i0 * 1 [MOD m] := (h3.mul_left' (a ^ i0)).of_dvd (by rw [Nat.mul_comm]; exact h.dvd)
  have h5 := h4.mul_left (a ^ (e1 - i0))
  rw [Nat.mul_one, ← pow_add, ← pow_add, ← pow_add, show e1 - i0 + (i0 + (e2 - e1)) = e2 by omega, show e1 - i0 + i0 = e1 by omega] at h5
  exact h5.symm

theorem raise_tot {i0 phi e : Nat} (hi : i0 < 32) (hphi : 0 < phi) (hb : phi < 2 ^ 31) (hb2 : 0 < i0 → phi < 2 ^ 30) (he : e < phi) :
    Tot (raise i0 phi e) fun r => i0 ≤ r ∧ r ≡ e [MOD phi] ∧ r < 2 ^ 32 := by
  unfold raise
  by_cases h : e < i0
  · rw [if_pos h]
    have := hb2 (by omega)
    rw [i32_ok ⟨by omega, by omega⟩, ok_bind, if_neg (by omega)]
    rw [show ((((i0 - e : Nat) : Int) + (phi : Int)) - 1).toNat = i0 - e + phi - 1 by omega]
    have hd := Nat.div_add_mod (i0 - e + phi - 1) phi
    have hm := Nat.mod_lt (i0 - e + phi - 1) hphi
    obtain ⟨d, hdd⟩ : ∃ d, d = (i0 - e + phi - 1) / phi := ⟨_, rfl⟩
    rw [← hdd] at hd ⊢
    rw [Nat.mul_comm] at hd
    obtain ⟨x, hx⟩ : ∃ x, x = d * phi := ⟨_, rfl⟩
    rw [← hx] at hd ⊢
    rw [i32_ok ⟨by omega, by omega⟩, ok_bind]
    refine Tot.pure ⟨by omega, ?_, by omega⟩
    rw [show ((e : Int) + (x : Int)).toNat = e + x by omega, hx]
    unfold Nat.ModEq
    exact Nat.add_mul_mod_self_right _ _ _
  · rw [if_neg h]
    exact Tot.pure ⟨by omega, Nat.ModEq.refl _, by omega⟩

theorem reduce_tot {i0 phi e : Nat} (hphi : 0 < phi) (h : i0 ≤ e) : Tot (reduce i0 phi e) fun r => i0 ≤ r ∧ r ≡ e [MOD phi] ∧ r ≤ e := by
  unfold reduce
  rw [if_pos h, if_neg (by omega)]
  have hd := Nat.div_add_mod (e - i0) phi
  rw [Nat.mul_comm] at hd
  refine Tot.pure ⟨by omega, ?_, by omega⟩
  have : e = e - (e - i0) / phi * phi + (e - i0) / phi * phi := by omega
  conv_rhs => rw [this]
  unfold Nat.ModEq
  exact (Nat.add_mul_mod_self_right _ _ _).symm

end Tetration
