import Verif.Model.WheelSieve
import Verif.Proof.GraphBasic
import Mathlib.Data.Nat.Prime.Basic
import Mathlib.Tactic.Ring
import Mathlib.Tactic.Linarith
import Mathlib.Tactic.IntervalCases
import Mathlib.Tactic.NormNum.Prime

/-! # The wheel modulo 30 -/

namespace WheelSieve
open Cxx

/-- the `j`-th residue -/
def wh (j : Nat) : Nat := RM.getD j 0
/-- the gap behind the `j`-th residue -/
def dr (j : Nat) : Nat := DR.getD j 0
def df (i j : Nat) : Nat := (DF.getD i #[]).getD j 0
def off (i j : Nat) : Nat := (OFFSET.getD i #[]).getD j 0

theorem lt8 {P : Nat → Prop} (h : ∀ j : Fin 8, P j) (j : Nat) (hj : j < 8) : P j := h ⟨j, hj⟩
theorem lt8' {P : Nat → Nat → Prop} (h : ∀ i j : Fin 8, P i j) (i j : Nat) (hi : i < 8) (hj : j < 8) : P i j := h ⟨i, hi⟩ ⟨j, hj⟩

theorem rd_RM : ∀ j, j < 8 → rd RM j = .ok (wh j) := lt8 (by decide)
theorem rd_DR : ∀ j, j < 8 → rd DR j = .ok (dr j) := lt8 (by decide)
theorem rd_DRP : ∀ j, j < 8 → rd DRP j = .ok (8 * dr j) := lt8 (by decide)
theorem tab_DF : ∀ i j, i < 8 → j < 8 → tab DF i j = .ok (df i j) := lt8' (by decide)
theorem tab_DFP : ∀ i j, i < 8 → j < 8 → tab DFP i j = .ok (8 * df i j) := lt8' (by decide)
theorem tab_OFFSET : ∀ i j, i < 8 → j < 8 → tab OFFSET i j = .ok (off i j) := lt8' (by decide)
theorem tab_MASK : ∀ i j, i < 8 → j < 8 → tab MASK i j = .ok (2 ^ off i j) := lt8' (by decide)
theorem off_lt : ∀ i j, i < 8 → j < 8 → off i j < 8 := lt8' (by decide)
theorem wh_lt : ∀ j, j < 8 → wh j < 30 ∧ 0 < wh j ∧ wh j ≤ 29 := lt8 (by decide)
theorem dr_lt : ∀ j, j < 8 → 0 < dr j ∧ dr j ≤ 6 := lt8 (by decide)
theorem df_le : ∀ i j, i < 8 → j < 8 → df i j ≤ 6 := lt8' (by decide)
theorem wh_inj : ∀ i j, i < 8 → j < 8 → wh i = wh j → i = j := lt8' (by decide)
theorem wh_next : ∀ j, j < 8 → (wh j + dr j) % 30 = wh ((j + 1) &&& 7) := lt8 (by decide)
theorem next_lt : ∀ j, j < 8 → (j + 1) &&& 7 < 8 := lt8 (by decide)
theorem wh_off : ∀ i j, i < 8 → j < 8 → wh i * wh j % 30 = wh (off i j) := lt8' (by decide)
theorem wh_df : ∀ i j, i < 8 → j < 8 → wh i * (wh j + dr j) / 30 = wh i * wh j / 30 + df i j := lt8' (by decide)
theorem wh_gap : ∀ j, j < 8 → ∀ d : Fin 6, 0 < d.1 → d.1 < dr j → ¬ Nat.Coprime ((wh j + d.1) % 30) 30 := lt8 (by decide)
theorem wh_coprime : ∀ j, j < 8 → Nat.Coprime (wh j) 30 := lt8 (by decide)

theorem cop_mod (n : Nat) : Nat.Coprime n 30 ↔ Nat.Coprime (n % 30) 30 := by
  unfold Nat.Coprime
  rw [Nat.gcd_comm, Nat.gcd_rec]

theorem exists_index {n : Nat} (h : Nat.Coprime n 30) : ∃ j, j < 8 ∧ n % 30 = wh j := by
  rw [cop_mod] at h
  have hb : n % 30 < 30 := Nat.mod_lt _ (by norm_num)
  generalize n % 30 = r at h hb
  have : ∀ r : Fin 30, Nat.Coprime r 30 → ∃ j : Fin 8, r.1 = wh j := by decide
  obtain ⟨j, hj⟩ := this ⟨r, hb⟩ h
  exact ⟨j, j.2, hj⟩

theorem cop_of_index {n j : Nat} (hj : j < 8) (h : n % 30 = wh j) : Nat.Coprime n 30 := by
  rw [cop_mod, h]
  exact wh_coprime j hj

theorem residueIndex_some {r j : Nat} (h : residueIndex r = some j) : j < 8 ∧ r = wh j := by
  unfold residueIndex at h
  split at h <;> first | (cases h; exact ⟨by decide, rfl⟩) | exact absurd h (by simp)

theorem residueIndex_none {n : Nat} (h : residueIndex (n % 30) = none) : ¬ Nat.Coprime n 30 := by
  intro hc
  obtain ⟨j, hj, e⟩ := exists_index hc
  rw [e] at h
  exact absurd h (lt8 (P := fun j => residueIndex (wh j) ≠ none) (by decide) j hj)

/-- the next number coprime to 30 -/
theorem next_coprime {q j x : Nat} (hj : j < 8) (hq : q % 30 = wh j) (h1 : q < x) (hx : Nat.Coprime x 30) : q + dr j ≤ x := by
  by_contra hc
  obtain ⟨d, rfl⟩ := Nat.exists_eq_add_of_lt h1
  have hd := (dr_lt j hj).2
  have := wh_gap j hj ⟨d + 1, by omega⟩ (by simp) (by show d + 1 < dr j; omega)
  refine this ?_
  rw [← hq]
  show Nat.Coprime ((q % 30 + (d + 1)) % 30) 30
  rw [Nat.mod_add_mod, ← cop_mod]
  exact hx

theorem next_mod {q j : Nat} (hj : j < 8) (hq : q % 30 = wh j) : (q + dr j) % 30 = wh ((j + 1) &&& 7) := by
  rw [← wh_next j hj, ← hq, Nat.mod_add_mod]

theorem mul_div30 {p q i j : Nat} (hp : p % 30 = wh i) (hq : q % 30 = wh j) : p * q / 30 = p / 30 * q + wh i * (q / 30) + wh i * wh j / 30 := by
  obtain ⟨a, ha⟩ : ∃ a, a = p / 30 := ⟨_, rfl⟩
  obtain ⟨b, hb⟩ : ∃ b, b = q / 30 := ⟨_, rfl⟩
  have e1 : p = 30 * a + wh i := by omega
  have e2 : q = 30 * b + wh j := by omega
  have : p * q = 30 * (a * q + wh i * b) + wh i * wh j := by
    rw [e1, e2]; ring
  rw [this, ← ha, ← hb, Nat.mul_add_div (by norm_num)]

theorem mul_mod30 {p q i j : Nat} (hi : i < 8) (hj : j < 8) (hp : p % 30 = wh i) (hq : q % 30 = wh j) : p * q % 30 = wh (off i j) := by
  rw [Nat.mul_mod, hp, hq, wh_off i j hi hj]

theorem start_row {kp i : Nat} (hi : i < 8) : kp * (30 * kp + 2 * wh i) + wh i * wh i / 30 = (30 * kp + wh i) * (30 * kp + wh i) / 30 := by
  have hw := wh_lt i hi
  have hm : (30 * kp + wh i) % 30 = wh i := by rw [Nat.mul_add_mod, Nat.mod_eq_of_lt hw.1]
  have hd : (30 * kp + wh i) / 30 = kp := by omega
  rw [mul_div30 hm hm, hd]
  ring

/-- the row of the next multiple -/
theorem next_row {p q kp i j : Nat} (hi : i < 8) (hj : j < 8) (hk : p / 30 = kp) (hp : p % 30 = wh i) (hq : q % 30 = wh j) :
    p * q / 30 + (kp * dr j + df i j) = p * (q + dr j) / 30 := by
  obtain ⟨b, hb⟩ : ∃ b, b = q / 30 := ⟨_, rfl⟩
  have e1 : p = 30 * kp + wh i := by omega
  have e2 : q = 30 * b + wh j := by omega
  have e3 : p * (q + dr j) = 30 * (kp * q + wh i * b + kp * dr j) + wh i * (wh j + dr j) := by
    rw [e1, e2]; ring
  rw [mul_div30 hp hq, e3, Nat.mul_add_div (by norm_num), wh_df i j hi hj, hk, ← hb]
  ring

theorem maskToIndex_bits : ∀ b : Fin 256, b.1 ≠ 0 → ∃ j : Fin 8, maskToIndex (b.1 &&& (256 - b.1)) = .ok j.1 ∧ b.1.testBit j = true ∧
    (∀ i : Fin 8, (b.1 &&& (b.1 - 1)).testBit i = (b.1.testBit i && decide (i ≠ j))) ∧ (b.1 &&& (b.1 - 1)) < 256 ∧
    (b.1 ^^^ (b.1 &&& (256 - b.1))) = (b.1 &&& (b.1 - 1)) ∧ (∀ i : Fin 8, b.1.testBit i = true → j ≤ i) := by decide +kernel

theorem low_bit {b : Nat} (h : b < 256) (h0 : b ≠ 0) : ∃ j, j < 8 ∧ maskToIndex (b &&& (256 - b)) = .ok j ∧ b.testBit j = true ∧
    (∀ i, i < 8 → ((b &&& (b - 1)).testBit i = true ↔ b.testBit i = true ∧ i ≠ j)) ∧ (b &&& (b - 1)) < 256 ∧
    (b ^^^ (b &&& (256 - b))) = (b &&& (b - 1)) ∧ ∀ i, i < 8 → b.testBit i = true → j ≤ i := by
  obtain ⟨j, h1, h2, h3, h4, h5, h6⟩ := maskToIndex_bits ⟨b, h⟩ h0
  refine ⟨j, j.2, h1, h2, ?_, h4, h5, fun i hi hb => h6 ⟨i, hi⟩ hb⟩
  intro i hi
  have := h3 ⟨i, hi⟩
  dsimp only at this
  rw [this]
  simp only [Bool.and_eq_true, decide_eq_true_eq, ne_eq, Fin.ext_iff]

theorem compl_bit : ∀ f : Fin 256, ∀ j : Fin 8, (255 - f.1).testBit j = !f.1.testBit j := by decide +kernel

/-- number of set bits, the variant of the loops over the bits -/
def pc (b : Nat) : Nat := ((List.range 8).filter fun i => b.testBit i).length

theorem pc_low : ∀ b : Fin 256, b.1 ≠ 0 → pc (b.1 &&& (b.1 - 1)) < pc b.1 := by decide +kernel
theorem pc_le (b : Nat) : pc b ≤ 8 := by
  unfold pc
  exact (List.length_filter_le _ _).trans (by simp)

theorem zero_of_bits {b : Nat} (h : b < 256) (hb : ∀ i, i < 8 → b.testBit i = false) : b = 0 := by
  have : ∀ b : Fin 256, (∀ i : Fin 8, b.1.testBit i = false) → b.1 = 0 := by decide +kernel
  exact this ⟨b, h⟩ fun i => hb i i.2

/-! ### `SimpleSieve` -/

/-- the flag of the number `30 k + RM[j]` -/
def bit (flag : Array Nat) (k j : Nat) : Prop := (at' 0 flag k).testBit j = true

/-- `n` is `p` times a number from `[p, q0)` coprime to 30 -/
def Mult (p q0 n : Nat) : Prop := ∃ q, p ≤ q ∧ q < q0 ∧ Nat.Coprime q 30 ∧ p * q = n

def Small (flag : Array Nat) : Prop := ∀ k, at' 0 flag k < 256

structure MarkInv (sz p : Nat) (flag : Array Nat) (q : Nat) (s : Nat × Nat × Array Nat) : Prop where
  kr : s.1 = p * q / 30
  mq : s.2.1 < 8
  qm : q % 30 = wh s.2.1
  pq : p ≤ q
  size : s.2.2.size = sz
  small : Small s.2.2
  bits : ∀ k j, k < sz → j < 8 → (bit s.2.2 k j ↔ bit flag k j ∨ Mult p q (30 * k + wh j))

theorem mark_tot {sz p kp mp : Nat} {flag : Array Nat} (hs : sz ≤ 2 ^ 31) (hk : p / 30 = kp) (hkb : kp ≤ 3000) (hmp : mp < 8) (hm : p % 30 = wh mp)
    (hsize : flag.size = sz) (hsm : Small flag) :
    Tot (loop (markStep sz kp mp) (30 * sz + 30) (p * p / 30, mp, flag)) fun s => s.2.2.size = sz ∧ Small s.2.2 ∧
      ∀ k j, k < sz → j < 8 → (bit s.2.2 k j ↔ bit flag k j ∨ ∃ q, p ≤ q ∧ Nat.Coprime q 30 ∧ p * q = 30 * k + wh j) := by
  have hp0 : 0 < p := by have := wh_lt mp hmp; omega
  refine Tot.loopG (P := fun μ s => ∃ q, μ = 30 * sz + 30 - q ∧ MarkInv sz p flag q s) ?_
    ⟨p, rfl, rfl, hmp, hm, le_rfl, hsize, hsm, ?_⟩ (Nat.sub_le _ _)
  · rintro μ s ⟨q, rfl, h⟩
    obtain ⟨hkr, hmq, hqm, hpq, hsz, hsm', hb⟩ := h
    unfold markStep
    by_cases hc : s.1 < sz
    · have hq : q < 30 * sz := by
        have : p * q < 30 * sz := by omega
        nlinarith
      rw [if_pos hc, rd_at 0 (by omega), ok_bind, tab_MASK mp _ hmp hmq, ok_bind, wr_eq (by omega), ok_bind, rd_DR _ hmq, ok_bind,
        tab_DF _ _ hmp hmq, ok_bind]
      have hd := dr_lt _ hmq
      have hdf := df_le mp _ hmp hmq
      have hnw : s.1 + (kp * dr s.2.1 + df mp s.2.1) < 2 ^ 32 := by nlinarith
      rw [Nat.mod_eq_of_lt hnw]
      refine Tot.pure ⟨30 * sz + 30 - (q + dr s.2.1), by omega, q + dr s.2.1, rfl, ?_, next_lt _ hmq, next_mod hmq hqm, by omega, ?_, ?_, ?_⟩
      · dsimp only
        rw [hkr, next_row hmp hmq hk hm hqm]
      · simpa using hsz
      · intro k
        dsimp only
        rw [Graph.at_set' 0 (by omega)]
        split
        · exact Nat.or_lt_two_pow (n := 8) (hsm' _) (by
            have := off_lt mp _ hmp hmq
            exact Nat.pow_lt_pow_right (by norm_num) this)
        · exact hsm' k
      · intro k j hkk hj
        dsimp only
        unfold bit
        rw [Graph.at_set' 0 (by omega)]
        have hmul := mul_mod30 hmp hmq hm hqm
        have key : Mult p (q + dr s.2.1) (30 * k + wh j) ↔ Mult p q (30 * k + wh j) ∨ p * q = 30 * k + wh j := by
          constructor
          · rintro ⟨x, hx1, hx2, hx3, hx4⟩
            rcases Nat.lt_trichotomy x q with h | rfl | h
            · exact .inl ⟨x, hx1, h, hx3, hx4⟩
            · exact .inr hx4
            · have := next_coprime hmq hqm h hx3
              omega
          · rintro (⟨x, hx1, hx2, hx3, hx4⟩ | h)
            · exact ⟨x, hx1, by omega, hx3, hx4⟩
            · exact ⟨q, hpq, by omega, cop_of_index hmq hqm, h⟩
        have hwj := wh_lt j hj
        have hbk := hb k j hkk hj
        unfold bit at hbk
        split
        · next e =>
          rw [e] at hbk key
          rw [Nat.testBit_or, Bool.or_eq_true, e, hbk, key, Nat.testBit_two_pow, decide_eq_true_eq, or_assoc]
          refine or_congr_right (or_congr_right ?_)
          constructor
          · rintro rfl
            omega
          · intro h
            have : wh (off mp s.2.1) = wh j := by omega
            exact wh_inj _ _ (off_lt _ _ hmp hmq) hj this
        · next e =>
          rw [hbk, key, ← or_assoc]
          constructor
          · exact .inl
          · rintro (h | h)
            · exact h
            · exact absurd (show k = s.1 by omega) (by first | exact e | exact fun h => e h.symm)
    · rw [if_neg hc]
      refine Tot.pure ⟨hsz, hsm', ?_⟩
      intro k j hkk hj
      rw [hb k j hkk hj]
      refine or_congr_right ⟨?_, ?_⟩
      · rintro ⟨x, hx1, -, hx3, hx4⟩
        exact ⟨x, hx1, hx3, hx4⟩
      · rintro ⟨x, hx1, hx3, hx4⟩
        refine ⟨x, hx1, ?_, hx3, hx4⟩
        have hwj := wh_lt j hj
        by_contra hge
        have : p * q ≤ p * x := Nat.mul_le_mul_left p (by omega)
        omega
  · intro k j _ _
    refine ⟨.inl, ?_⟩
    rintro (h | ⟨x, h1, h2, -⟩)
    · exact h
    · omega

/-- no prime is marked, and 1 is marked -/
structure Sound (sz : Nat) (flag : Array Nat) : Prop where
  size : flag.size = sz
  small : Small flag
  sound : ∀ k j, k < sz → j < 8 → bit flag k j → ¬ (30 * k + wh j).Prime
  one : 0 < sz → bit flag 0 0

/-- the multiples of `p` are marked -/
def Done (sz p : Nat) (flag : Array Nat) : Prop :=
  ∀ k j, k < sz → j < 8 → (∃ q, p ≤ q ∧ Nat.Coprime q 30 ∧ p * q = 30 * k + wh j) → bit flag k j

/-- the marks of the first array are kept -/
def Ext (sz : Nat) (flag flag' : Array Nat) : Prop := ∀ k j, k < sz → j < 8 → bit flag k j → bit flag' k j

theorem Done.mono {sz p : Nat} {a b : Array Nat} (h : Done sz p a) (he : Ext sz a b) : Done sz p b :=
  fun k j hk hj hq => he k j hk hj (h k j hk hj hq)

/-- one row: all unmarked numbers of the row (in particular its primes) have been sieved -/
theorem row_tot {sz kp : Nat} {flag : Array Nat} (hs : sz ≤ 2 ^ 31) (hkb : kp ≤ 3000) (hk : kp < sz) (hf : Sound sz flag) :
    Tot (row sz kp flag) fun r => Sound sz r ∧ Ext sz flag r ∧ ∀ p, p.Prime → Nat.Coprime p 30 → p / 30 = kp → Done sz p r := by
  unfold row
  rw [rd_at 0 (by rw [hf.size]; exact hk), ok_bind]
  obtain ⟨f, hfe⟩ : ∃ f, f = at' 0 flag kp := ⟨_, rfl⟩
  have hf256 : f < 256 := hfe ▸ hf.small kp
  rw [← hfe]
  refine Tot.bind (P := fun s => Sound sz s.2 ∧ Ext sz flag s.2 ∧ ∀ p, p.Prime → Nat.Coprime p 30 → p / 30 = kp → Done sz p s.2) ?_
    fun s h => Tot.pure h
  refine Tot.loop (P := fun s => s.1 < 256 ∧ Sound sz s.2 ∧ Ext sz flag s.2 ∧
      (∀ j, j < 8 → s.1.testBit j = true → f.testBit j = false) ∧
      (∀ j, j < 8 → f.testBit j = false → s.1.testBit j = false → Done sz (30 * kp + wh j) s.2)) (fun s => pc s.1) ?_ ?_ (pc_le _)
  · rintro ⟨b, fl⟩ ⟨hb, hS, hE, h1, h2⟩
    unfold bitsStep
    dsimp only at *
    by_cases hb0 : b = 0
    · rw [if_pos hb0]
      refine Tot.pure ⟨hS, hE, ?_⟩
      intro p hp hc hpk
      obtain ⟨j, hj, e⟩ := exists_index hc
      have hpe : p = 30 * kp + wh j := by omega
      rw [hpe]
      refine h2 j hj ?_ (by rw [hb0]; simp)
      by_contra hcon
      have hmark : bit flag kp j := by
        unfold bit
        rw [← hfe]
        simpa using hcon
      exact hf.sound kp j hk hj hmark (hpe ▸ hp)
    · rw [if_neg hb0]
      obtain ⟨mp, hmp, e1, e2, e3, e4, -, -⟩ := low_bit hb hb0
      rw [e1, ok_bind, rd_RM mp hmp, ok_bind]
      have hw := wh_lt mp hmp
      obtain ⟨p, hpe⟩ : ∃ p, p = 30 * kp + wh mp := ⟨_, rfl⟩
      have hpd : p / 30 = kp := by omega
      have hpm : p % 30 = wh mp := by omega
      have hnw : p * p / 30 < 2 ^ 32 := by
        have : p ≤ 90029 := by omega
        have : p * p ≤ (90029) * (90029) := Nat.mul_le_mul this this
        omega
      rw [start_row hmp, ← hpe, Nat.mod_eq_of_lt hnw]
      refine Tot.bind (mark_tot hs hpd hkb hmp hpm hS.size hS.small) ?_
      rintro ⟨kr, mq, fl'⟩ ⟨hz, hsm, hbit⟩
      dsimp only at hz hsm hbit ⊢
      have hpne : p ≠ 1 := by
        rintro rfl
        have hk0 : kp = 0 := by omega
        have hj0 : mp = 0 := wh_inj mp 0 hmp (by norm_num) (by rw [← hpm]; rfl)
        have := hf.one (by omega)
        unfold bit at this
        have h3 := h1 mp hmp e2
        rw [hfe, hk0, hj0, this] at h3
        exact absurd h3 (by simp)
      have hE' : Ext sz fl fl' := fun k j hk hj h => (hbit k j hk hj).2 (.inl h)
      refine Tot.pure ⟨⟨e4, ⟨hz, hsm, ?_, ?_⟩, fun k j hk hj h => hE' k j hk hj (hE k j hk hj h), ?_, ?_⟩, pc_low ⟨b, hb⟩ hb0⟩
      · intro k j hk hj h
        rcases (hbit k j hk hj).1 h with h | ⟨q, hq1, hq2, hq3⟩
        · exact hS.sound k j hk hj h
        · rw [← hq3]
          have : p ≠ 0 := by omega
          exact Nat.not_prime_mul (by omega) (by omega)
      · intro h0
        exact hE' 0 0 h0 (by norm_num) (hS.one h0)
      · intro j hj h
        exact h1 j hj ((e3 j hj).1 h).1
      · intro j hj hfj hbj
        by_cases hjm : j = mp
        · subst hjm
          intro k i hk hi hq
          rw [← hpe] at hq
          exact (hbit k i hk hi).2 (.inr hq)
        · refine (h2 j hj hfj ?_).mono hE'
          by_contra hcon
          have := (e3 j hj).2 ⟨by simpa using hcon, hjm⟩
          rw [this] at hbj
          exact absurd hbj (by simp)
  · refine ⟨by dsimp only; omega, hf, fun _ _ _ _ h => h, ?_, ?_⟩
    · intro j hj h
      have := compl_bit ⟨f, hf256⟩ ⟨j, hj⟩
      dsimp only at this h
      rw [this] at h
      simpa using h
    · intro j hj h1 h2
      have := compl_bit ⟨f, hf256⟩ ⟨j, hj⟩
      dsimp only at this h2
      rw [this, h1] at h2
      exact absurd h2 (by simp)

/-- the state of the static array between constructors: only numbers that are not prime are marked -/
structure Partial (sz : Nat) (flag : Array Nat) : Prop where
  size : flag.size = sz
  small : Small flag
  sound : ∀ k j, k < sz → j < 8 → bit flag k j → ¬ (30 * k + wh j).Prime

/-- exactly the numbers that are not prime are marked -/
structure Exact (sz : Nat) (flag : Array Nat) : Prop extends Partial sz flag where
  exact : ∀ k j, k < sz → j < 8 → (bit flag k j ↔ ¬ (30 * k + wh j).Prime)

/-- the two factors of a composite number coprime to 30 -/
theorem composite {c : Nat} (hc : Nat.Coprime c 30) (h1 : c ≠ 1) (hp : ¬ c.Prime) : ∃ p q, p.Prime ∧ Nat.Coprime p 30 ∧ p ≤ q ∧ Nat.Coprime q 30 ∧ p * q = c := by
  have hpos : 0 < c := Nat.pos_of_ne_zero (by rintro rfl; simp at hc)
  have hd := Nat.minFac_dvd c
  obtain ⟨q, hq⟩ := hd
  have hmp := Nat.minFac_prime h1
  have hle := Nat.minFac_le_div hpos hp
  refine ⟨c.minFac, q, hmp, Nat.Coprime.coprime_dvd_left (Nat.minFac_dvd c) hc, ?_, Nat.Coprime.coprime_dvd_left ⟨c.minFac, by rw [mul_comm]; exact hq⟩ hc, hq.symm⟩
  have : c / c.minFac = q := by
    nth_rewrite 1 [hq]
    exact Nat.mul_div_cancel_left q hmp.pos
  omega

theorem cop_index (k j : Nat) (hj : j < 8) : Nat.Coprime (30 * k + wh j) 30 := by
  refine cop_of_index hj ?_
  have := wh_lt j hj
  omega

theorem simple_tot {N : Nat} {flag : Array Nat} (hN : N + 2 < 2 ^ 32) (hf : Partial (siz N) flag) : Tot (simple N flag) (Exact (siz N)) := by
  unfold simple
  have hsz : 0 < siz N := by unfold siz; omega
  have hszb : siz N ≤ 2 ^ 31 := by unfold siz; omega
  rw [rd_at 0 (by rw [hf.size]; exact hsz), ok_bind, wr_eq (by rw [hf.size]; exact hsz), ok_bind, Nat.mod_eq_of_lt hN]
  dsimp only
  obtain ⟨r, hr⟩ : ∃ r, r = (N + 2).sqrt := ⟨_, rfl⟩
  have hr1 : r * r ≤ N + 2 := hr ▸ Nat.sqrt_le (N + 2)
  have hr2 : N + 2 < (r + 1) * (r + 1) := hr ▸ Nat.lt_succ_sqrt (N + 2)
  have hrb : r < 2 ^ 16 := by nlinarith
  rw [← hr]
  have hkm : r / 30 < siz N := by
    unfold siz
    have : r ≤ N + 1 := by nlinarith
    by_cases h30 : r < 30
    · omega
    · have : r * 30 ≤ r * r := Nat.mul_le_mul_left r (by omega)
      omega
  refine (Tot.forUp (P := fun kp fl => Sound (siz N) fl ∧ ∀ p, p.Prime → Nat.Coprime p 30 → p / 30 < kp → Done (siz N) p fl) (Nat.zero_le _) ?_ ?_).mono ?_
  · refine ⟨⟨by simpa using hf.size, ?_, ?_, ?_⟩, fun p _ _ h => absurd h (by omega)⟩
    · intro k
      rw [Graph.at_set' 0 (by rw [hf.size]; exact hsz)]
      split
      · exact Nat.or_lt_two_pow (n := 8) (hf.small 0) (by norm_num)
      · exact hf.small k
    · intro k j hk hj hb
      unfold bit at hb
      rw [Graph.at_set' 0 (by rw [hf.size]; exact hsz)] at hb
      split at hb
      · next e =>
        rw [Nat.testBit_or, Bool.or_eq_true] at hb
        rcases hb with hb | hb
        · exact hf.sound k j hk hj (by unfold bit; rw [e]; exact hb)
        · rw [show (1 : Nat) = 2 ^ 0 from rfl, Nat.testBit_two_pow, decide_eq_true_eq] at hb
          rw [e, ← hb]
          exact fun h => absurd h (by decide)
      · exact hf.sound k j hk hj hb
    · intro _
      unfold bit
      rw [Graph.at_set' 0 (by rw [hf.size]; exact hsz), if_pos rfl, Nat.testBit_or]
      simp
  · rintro kp fl - hkp ⟨hS, hD⟩
    refine (row_tot hszb (by omega) (by omega) hS).mono ?_
    rintro fl' ⟨hS', hE, hD'⟩
    refine ⟨hS', ?_⟩
    intro p hp hc hlt
    rcases Nat.lt_or_ge (p / 30) kp with h | h
    · exact (hD p hp hc h).mono hE
    · exact hD' p hp hc (by omega)
  · rintro fl ⟨hS, hD⟩
    refine ⟨⟨hS.size, hS.small, hS.sound⟩, ?_⟩
    intro k j hk hj
    refine ⟨hS.sound k j hk hj, ?_⟩
    intro hnp
    have hw := wh_lt j hj
    by_cases h1 : 30 * k + wh j = 1
    · have hk0 : k = 0 := by omega
      have hj0 : j = 0 := wh_inj j 0 hj (by norm_num) (by have : wh 0 = 1 := rfl; omega)
      rw [hk0, hj0]
      exact hS.one hsz
    · obtain ⟨p, q, hp, hpc, hpq, hqc, he⟩ := composite (cop_index k j hj) h1 hnp
      refine hD p hp hpc ?_ k j hk hj ⟨q, hpq, hqc, he⟩
      by_contra hcon
      obtain ⟨i, hi, hpi⟩ := exists_index hpc
      have hwi := wh_lt i hi
      obtain ⟨m, hm⟩ : ∃ m, m = r / 30 + 1 := ⟨_, rfl⟩
      have hpm : 30 * m + 1 ≤ p := by omega
      have hrm : r + 1 ≤ 30 * m := by omega
      have hpp : (30 * m + 1) * (30 * m + 1) ≤ p * q := Nat.mul_le_mul hpm (by omega)
      have hrr : (r + 1) * (r + 1) ≤ 30 * m * (30 * m) := Nat.mul_le_mul hrm hrm
      have hsq : (30 * m + 1) * (30 * m + 1) = 30 * m * (30 * m) + 60 * m + 1 := by ring
      have : 30 * k + wh j ≤ N + 29 := by
        unfold siz at hk
        omega
      omega

theorem zero_partial (N : Nat) : Partial (siz N) (simpleZero N) := by
  have h0 : ∀ k, at' 0 (simpleZero N) k = 0 := by
    intro k
    unfold at' simpleZero
    by_cases h : k < siz N
    · simp [h]
    · simp [h]
  refine ⟨by simp [simpleZero], fun k => by rw [h0]; norm_num, ?_⟩
  intro k j _ _ h
  unfold bit at h
  rw [h0] at h
  simp at h

end WheelSieve
