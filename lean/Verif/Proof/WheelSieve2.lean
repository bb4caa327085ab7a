import Verif.Proof.WheelSieve

/-! # `Sieve` -/

namespace WheelSieve
open Cxx

/-- the entry of the number `30 k + RM[j]` -/
def ent (pf : Array Nat) (k j : Nat) : Nat := at' 0 pf (8 * k + j)

structure PMark (bm p : Nat) (pf : Array Nat) (q : Nat) (s : Nat × Nat × Array Nat) : Prop where
  bk : s.1 = p * q / 30 * 8
  mq : s.2.1 < 8
  qm : q % 30 = wh s.2.1
  pq : p ≤ q
  size : s.2.2.size = bm + 8
  ents : ∀ k j, 8 * k ≤ bm → j < 8 → (Mult p q (30 * k + wh j) → ent s.2.2 k j = p) ∧ (¬ Mult p q (30 * k + wh j) → ent s.2.2 k j = ent pf k j)

theorem pfMark_tot {bm p kp mp : Nat} {pf : Array Nat} (hs : bm ≤ 2 ^ 30) (hk : p / 30 = kp) (hkb : kp ≤ 3000) (hmp : mp < 8) (hm : p % 30 = wh mp)
    (hsize : pf.size = bm + 8) :
    Tot (loop (pfMarkStep bm kp mp p) (4 * bm + 60) (p * p / 30 * 8, mp, pf)) fun s => s.2.2.size = bm + 8 ∧
      ∀ k j, 8 * k ≤ bm → j < 8 → ((∃ q, p ≤ q ∧ Nat.Coprime q 30 ∧ p * q = 30 * k + wh j) ∧ ent s.2.2 k j = p) ∨
        ((¬ ∃ q, p ≤ q ∧ Nat.Coprime q 30 ∧ p * q = 30 * k + wh j) ∧ ent s.2.2 k j = ent pf k j) := by
  have hp0 : 0 < p := by have := wh_lt mp hmp; omega
  refine Tot.loopG (P := fun μ s => ∃ q, μ = 4 * bm + 60 - q ∧ PMark bm p pf q s) ?_
    ⟨p, rfl, rfl, hmp, hm, le_rfl, hsize, ?_⟩ (Nat.sub_le _ _)
  · rintro μ s ⟨q, rfl, h⟩
    obtain ⟨hkr, hmq, hqm, hpq, hsz, hb⟩ := h
    unfold pfMarkStep
    by_cases hc : s.1 ≤ bm
    · have hq : q < 4 * bm + 30 := by
        have : p * q < 4 * bm + 30 := by omega
        nlinarith
      have ho := off_lt mp _ hmp hmq
      rw [if_pos hc, tab_OFFSET mp _ hmp hmq, ok_bind, wr_eq (by omega), ok_bind, rd_DRP _ hmq, ok_bind,
        tab_DFP _ _ hmp hmq, ok_bind]
      have hd := dr_lt _ hmq
      have hdf := df_le mp _ hmp hmq
      have hnw : s.1 + (kp * (8 * dr s.2.1) + 8 * df mp s.2.1) < 2 ^ 32 := by nlinarith
      rw [Nat.mod_eq_of_lt hnw]
      refine Tot.pure ⟨4 * bm + 60 - (q + dr s.2.1), by omega, q + dr s.2.1, rfl, ?_, next_lt _ hmq, next_mod hmq hqm, by omega, ?_, ?_⟩
      · dsimp only
        rw [hkr, ← next_row hmp hmq hk hm hqm]
        ring
      · simpa using hsz
      · intro k j hkk hj
        dsimp only
        unfold ent
        rw [Graph.at_set' 0 (by omega)]
        have hmul := mul_mod30 hmp hmq hm hqm
        have key : Mult p (q + dr s.2.1) (30 * k + wh j) ↔ Mult p q (30 * k + wh j) ∨ p * q = 30 * k + wh j := by
          constructor
          · rintro ⟨x, hx1, hx2, hx3, hx4⟩
            rcases Nat.lt_trichotomy x q with h | rfl | h
            · exact .inl ⟨x, hx1, h, hx3, hx4⟩
            · exact .inr hx4
            · have := next_coprime hmq hqm h hx3
              omega
          · rintro (⟨x, hx1, hx2, hx3, hx4⟩ | h)
            · exact ⟨x, hx1, by omega, hx3, hx4⟩
            · exact ⟨q, hpq, by omega, cop_of_index hmq hqm, h⟩
        have hwj := wh_lt j hj
        have hbk := hb k j hkk hj
        unfold ent at hbk
        have hat : 8 * k + j = s.1 + off mp s.2.1 ↔ p * q = 30 * k + wh j := by
          constructor
          · intro h
            have h1 : k = p * q / 30 := by omega
            have h2 : j = off mp s.2.1 := by omega
            rw [h2, h1]
            omega
          · intro h
            have h1 : wh (off mp s.2.1) = wh j := by omega
            have h2 := wh_inj _ _ (off_lt _ _ hmp hmq) hj h1
            omega
        rw [key]
        split
        · next e =>
          have := hat.1 (by omega)
          exact ⟨fun _ => rfl, fun h => absurd (.inr this) h⟩
        · next e =>
          refine ⟨?_, fun h => hbk.2 fun h' => h (.inl h')⟩
          rintro (h | h)
          · exact hbk.1 h
          · exact absurd (hat.2 h) (by omega)
    · rw [if_neg hc]
      refine Tot.pure ⟨hsz, ?_⟩
      intro k j hkk hj
      have hwj := wh_lt j hj
      have key : Mult p q (30 * k + wh j) ↔ ∃ q, p ≤ q ∧ Nat.Coprime q 30 ∧ p * q = 30 * k + wh j := by
        constructor
        · rintro ⟨x, hx1, -, hx3, hx4⟩
          exact ⟨x, hx1, hx3, hx4⟩
        · rintro ⟨x, hx1, hx3, hx4⟩
          refine ⟨x, hx1, ?_, hx3, hx4⟩
          by_contra hge
          have : p * q ≤ p * x := Nat.mul_le_mul_left p (by omega)
          omega
      have := hb k j hkk hj
      rw [key] at this
      by_cases h : ∃ q, p ≤ q ∧ Nat.Coprime q 30 ∧ p * q = 30 * k + wh j
      · exact .inl ⟨h, this.1 h⟩
      · exact .inr ⟨h, this.2 h⟩
  · intro k j _ _
    refine ⟨?_, fun _ => rfl⟩
    rintro ⟨x, h1, h2, -⟩
    omega

/-- nonzero entries are proper prime factors, except that of 1 -/
structure PPartial (bm : Nat) (pf : Array Nat) : Prop where
  size : pf.size = bm + 8
  sound : ∀ k j, 8 * k ≤ bm → j < 8 → 30 * k + wh j ≠ 1 → ent pf k j ≠ 0 →
    (ent pf k j).Prime ∧ ent pf k j ∣ 30 * k + wh j ∧ ent pf k j < 30 * k + wh j

structure PSound (bm : Nat) (pf : Array Nat) : Prop extends PPartial bm pf where
  one : ent pf 0 0 = 1

def PDone (bm p : Nat) (pf : Array Nat) : Prop :=
  ∀ k j, 8 * k ≤ bm → j < 8 → (∃ q, p ≤ q ∧ Nat.Coprime q 30 ∧ p * q = 30 * k + wh j) → ent pf k j ≠ 0

theorem pfCol_tot {bm kp mp : Nat} {pf : Array Nat} (hs : bm ≤ 2 ^ 30) (hkb : kp ≤ 3000) (hk : 8 * kp ≤ bm) (hmp : mp < 8) (hf : PSound bm pf)
    (hD : ∀ p, p.Prime → Nat.Coprime p 30 → p < 30 * kp + wh mp → PDone bm p pf) :
    Tot (pfCol bm kp mp pf) fun r => PSound bm r ∧ ∀ p, p.Prime → Nat.Coprime p 30 → p < 30 * kp + wh mp + 1 → PDone bm p r := by
  unfold pfCol
  rw [rd_RM mp hmp, ok_bind, rd_at 0 (by rw [hf.size]; omega), ok_bind, show kp * 8 + mp = 8 * kp + mp by ring]
  have hw := wh_lt mp hmp
  obtain ⟨p, hpe⟩ : ∃ p, p = 30 * kp + wh mp := ⟨_, rfl⟩
  have hpd : p / 30 = kp := by omega
  have hpm : p % 30 = wh mp := by omega
  have hpc : Nat.Coprime p 30 := cop_of_index hmp hpm
  by_cases hx : at' 0 pf (8 * kp + mp) = 0
  · rw [if_pos hx]
    have hp1 : p ≠ 1 := by
      rintro rfl
      have hk0 : kp = 0 := by omega
      have hj0 : mp = 0 := wh_inj mp 0 hmp (by norm_num) (by rw [← hpm]; rfl)
      have := hf.one
      unfold ent at this
      rw [hk0, hj0, this] at hx
      exact absurd hx (by norm_num)
    have hprime : p.Prime := by
      by_contra hnp
      obtain ⟨a, b, ha, hac, hab, hbc, he⟩ := composite hpc hp1 hnp
      have halt : a < p := by
        rw [← he]
        have := ha.two_le
        nlinarith
      exact hD a ha hac (by omega) kp mp hk hmp ⟨b, hab, hbc, by rw [he, hpe]⟩ hx
    have hnw : p * p / 30 * 8 < 2 ^ 32 := by
      have : p ≤ 90029 := by omega
      have : p * p ≤ 90029 * 90029 := Nat.mul_le_mul this this
      omega
    rw [start_row hmp, ← hpe, Nat.mod_eq_of_lt hnw, show kp * 30 + wh mp = p by omega]
    refine Tot.bind (pfMark_tot hs hpd hkb hmp hpm hf.size) ?_
    rintro ⟨x, y, pf'⟩ ⟨hz, he⟩
    dsimp only at hz he ⊢
    refine Tot.pure ⟨⟨⟨hz, ?_⟩, ?_⟩, ?_⟩
    · intro k j hkk hj h1 h0
      rcases he k j hkk hj with ⟨⟨q, h1, h2, h3⟩, h⟩ | ⟨-, h⟩
      · rw [h]
        refine ⟨hprime, ⟨q, h3.symm⟩, ?_⟩
        rw [← h3]
        have := hprime.two_le
        nlinarith
      · rw [h] at h0 ⊢
        exact hf.sound k j hkk hj h1 h0
    · rcases he 0 0 (by omega) (by norm_num) with ⟨⟨q, h1, h2, h3⟩, h⟩ | ⟨-, h⟩
      · have := hprime.two_le
        have h4 : p * q = 1 := h3
        have := Nat.eq_one_of_mul_eq_one_right h4
        omega
      · rw [h]; exact hf.one
    · intro a ha hac hlt k j hkk hj hex
      rcases he k j hkk hj with ⟨-, h⟩ | ⟨h', h⟩
      · rw [h]; omega
      · rw [h]
        rcases Nat.lt_or_ge a p with hap | hap
        · exact hD a ha hac (by omega) k j hkk hj hex
        · rw [show a = p by omega] at hex
          exact absurd hex h'
  · rw [if_neg hx]
    refine Tot.pure ⟨hf, ?_⟩
    intro a ha hac hlt
    rcases Nat.lt_or_ge a p with hap | hap
    · exact hD a ha hac (by omega)
    · exfalso
      have hap : a = p := by omega
      rw [hap] at ha
      have := hf.sound kp mp hk hmp (by rw [← hpe]; exact ha.one_lt.ne') hx
      rw [← hpe] at this
      obtain ⟨h1, h2, h3⟩ := this
      rcases (Nat.dvd_prime ha).1 h2 with h | h
      · exact h1.one_lt.ne' h
      · omega

/-- the table is right for all numbers up to `B` -/
structure PExact (N : Nat) (pf : Array Nat) : Prop extends PPartial (baseMax N) pf where
  one : ent pf 0 0 = 1
  zero : ∀ k j, j < 8 → 30 * k + wh j ≤ N + 1 → 30 * k + wh j ≠ 1 → (ent pf k j = 0 ↔ (30 * k + wh j).Prime)

theorem baseMax_eq {N : Nat} (hN : N + 1 < 2 ^ 29) : baseMax N = (N + 1) * 8 / 30 := by
  unfold baseMax
  rw [Nat.mod_eq_of_lt (by omega)]

theorem row_le {N k j : Nat} (hN : N + 1 < 2 ^ 29) (h : 30 * k + j ≤ N + 1) : 8 * k ≤ baseMax N := by
  rw [baseMax_eq hN]
  omega

theorem prime_next {p kp mp : Nat} (hmp : mp + 1 < 8) (hc : Nat.Coprime p 30) (h : p < 30 * kp + wh (mp + 1)) : p < 30 * kp + wh mp + 1 := by
  by_contra hcon
  have hw := wh_lt mp (by omega)
  have := next_coprime (q := 30 * kp + wh mp) (j := mp) (by omega) (by omega) (x := p) (by omega) hc
  have h2 := lt8 (P := fun j => j + 1 < 8 → wh j + dr j = wh (j + 1)) (by decide) mp (by omega) hmp
  omega

theorem sieve_tot {N : Nat} {pf : Array Nat} (hN : N + 1 < 2 ^ 29) (hf : PPartial (baseMax N) pf) : Tot (sieve N pf) (PExact N) := by
  unfold sieve
  have hbm := baseMax_eq hN
  obtain ⟨bm, hbe⟩ : ∃ bm, bm = baseMax N := ⟨_, rfl⟩
  rw [← hbe] at hf hbm
  have hbb : bm ≤ 2 ^ 30 := by omega
  rw [wr_eq (by rw [hf.size]; omega), ok_bind, Nat.mod_eq_of_lt (show N + 1 < 2 ^ 32 by omega), ← hbe]
  dsimp only
  obtain ⟨r, hr⟩ : ∃ r, r = (N + 1).sqrt := ⟨_, rfl⟩
  have hr1 : r * r ≤ N + 1 := hr ▸ Nat.sqrt_le (N + 1)
  have hr2 : N + 1 < (r + 1) * (r + 1) := hr ▸ Nat.lt_succ_sqrt (N + 1)
  have hr0 : 1 ≤ r := by
    by_contra h
    rw [show r = 0 by omega] at hr2
    omega
  have hrb : r < 2 ^ 15 := by nlinarith
  have hrn : r ≤ N + 1 := by nlinarith
  rw [← hr, show (r + 2 ^ 32 - 1) % 2 ^ 32 = r - 1 by omega]
  refine (Tot.forUp (P := fun kp fl => PSound bm fl ∧ ∀ p, p.Prime → Nat.Coprime p 30 → p < 30 * kp + 1 → PDone bm p fl) (Nat.zero_le _) ?_ ?_).mono ?_
  · have hset : ∀ k j, j < 8 → ent (pf.setIfInBounds 0 1) k j = if 8 * k + j = 0 then 1 else ent pf k j := by
      intro k j _
      unfold ent
      rw [Graph.at_set' 0 (by rw [hf.size]; omega)]
    refine ⟨⟨⟨by simpa using hf.size, ?_⟩, ?_⟩, fun p hp _ h => absurd hp.two_le (by omega)⟩
    · intro k j hk hj h1 h0
      rw [hset k j hj] at h0 ⊢
      split at h0
      · next e =>
        have hk0 : k = 0 := by omega
        have hj0 : j = 0 := by omega
        subst hk0; subst hj0
        exact absurd rfl h1
      · next e =>
        rw [if_neg e]
        exact hf.sound k j hk hj h1 h0
    · rw [hset 0 0 (by norm_num), if_pos rfl]
  · rintro kp fl - hkp ⟨hS, hD⟩
    have hk8 : 8 * kp ≤ bm := by omega
    refine (Tot.forUp (P := fun mp fl => PSound bm fl ∧ ∀ p, p.Prime → Nat.Coprime p 30 → (mp < 8 → p < 30 * kp + wh mp) → (mp = 8 → p < 30 * kp + 31) → PDone bm p fl)
      (by norm_num) ?_ ?_).mono ?_
    · refine ⟨hS, ?_⟩
      intro p hp hc h _
      exact hD p hp hc (h (by norm_num))
    · rintro mp fl - hmp ⟨hS, hD⟩
      refine (pfCol_tot hbb (by omega) hk8 hmp hS (fun p hp hc h => hD p hp hc (fun _ => h) (fun h8 => by omega))).mono ?_
      rintro fl' ⟨hS', hD'⟩
      refine ⟨hS', ?_⟩
      intro p hp hc h1 h2
      refine hD' p hp hc ?_
      by_cases h8 : mp + 1 < 8
      · exact prime_next h8 hc (h1 h8)
      · have h7 : mp = 7 := by omega
        have h3 := h2 (by omega)
        rw [h7]
        have hw7 : wh 7 = 29 := rfl
        rw [hw7]
        by_contra hcon
        have : p % 30 = 0 := by omega
        rw [cop_mod, this] at hc
        exact absurd hc (by decide)
    · rintro fl' ⟨hS', hD'⟩
      exact ⟨hS', fun p hp hc h => hD' p hp hc (fun h => by omega) (fun _ => by omega)⟩
  · rintro fl ⟨hS, hD⟩
    refine ⟨hbe ▸ hS.toPPartial, hS.one, ?_⟩
    intro k j hj hle h1
    have hk8 : 8 * k ≤ bm := by
      have := row_le hN hle
      omega
    constructor
    · intro h0
      by_contra hnp
      obtain ⟨p, q, hp, hpc, hpq, hqc, he⟩ := composite (cop_index k j hj) h1 hnp
      refine hD p hp hpc ?_ k j hk8 hj ⟨q, hpq, hqc, he⟩ h0
      by_contra hcon
      have hpr : r + 1 ≤ p := by omega
      have : (r + 1) * (r + 1) ≤ p * q := Nat.mul_le_mul hpr (by omega)
      omega
    · intro hp
      by_contra h0
      obtain ⟨h2, h3, h4⟩ := hS.sound k j hk8 hj h1 h0
      rcases (Nat.dvd_prime hp).1 h3 with h | h
      · exact h2.one_lt.ne' h
      · omega

theorem pfZero_partial (N : Nat) : PPartial (baseMax N) (pfZero N) := by
  have h0 : ∀ k j, ent (pfZero N) k j = 0 := by
    intro k j
    unfold ent at' pfZero
    by_cases h : 8 * k + j < baseMax N + 8
    · simp [h]
    · simp [h]
  refine ⟨by simp [pfZero], ?_⟩
  intro k j _ _ _ h
  exact absurd (h0 k j) h

end WheelSieve
