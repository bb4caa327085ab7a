import Verif.Model.ExtGcd
import Mathlib.Algebra.Order.Ring.Abs
import Mathlib.Tactic.Linarith
import Mathlib.Tactic.Ring
import Mathlib.Data.Int.GCD
import Mathlib.Data.Int.ModEq

/-! # Proofs about ext_gcd -/

namespace ExtGcd
open Cxx

theorem abs_tdiv_tmod (a b : Int) : |a| = |a.tdiv b| * |b| + |a.tmod b| := by
  rw [Int.abs_eq_natAbs, Int.abs_eq_natAbs, Int.abs_eq_natAbs, Int.abs_eq_natAbs, Int.natAbs_tdiv, Int.natAbs_tmod]
  have := Nat.div_add_mod' a.natAbs b.natAbs
  exact_mod_cast this.symm

theorem tmod_signs (a b : Int) : (0 ≤ a → 0 ≤ a.tmod b ∧ 0 ≤ a.tdiv b * b) ∧ (a ≤ 0 → a.tmod b ≤ 0 ∧ a.tdiv b * b ≤ 0) := by
  have key : ∀ a b : Int, 0 ≤ a → 0 ≤ a.tmod b ∧ 0 ≤ a.tdiv b * b := by
    intro a b h
    have h1 := Int.tmod_nonneg b h
    refine ⟨h1, ?_⟩
    have h2 := abs_tdiv_tmod a b
    have h3 := Int.tdiv_mul_add_tmod a b
    rw [abs_of_nonneg h, abs_of_nonneg h1] at h2
    have h4 : 0 ≤ |a.tdiv b| * |b| := by positivity
    omega
  refine ⟨key a b, fun h => ?_⟩
  have := key (-a) b (by omega)
  rw [Int.neg_tmod, Int.neg_tdiv] at this
  refine ⟨by omega, by have := this.2; linarith⟩

theorem abs_sub_of_opp {x t : Int} (h : x * t ≤ 0) : |x - t| = |x| + |t| := by
  rcases le_total 0 x with hx | hx <;> rcases le_total 0 t with ht | ht
  · rcases eq_or_lt_of_le hx with rfl | hx
    · simp
    · have : t = 0 := by nlinarith
      subst this; simp
  · rw [abs_of_nonneg hx, abs_of_nonpos ht, abs_of_nonneg (by omega)]; ring
  · rw [abs_of_nonpos hx, abs_of_nonneg ht, abs_of_nonpos (by omega)]; ring
  · rcases eq_or_lt_of_le hx with rfl | hx
    · simp
    · have : t = 0 := by nlinarith
      subst this; simp

/-- One step on a cofactor pair. -/
theorem cof_step {a b x y c : Int} (hb : b ≠ 0) (hs : x * y * (a * b) ≤ 0) (hc : |x| * |b| + |y| * |a| = c) :
    |x - y * a.tdiv b| = |x| + |y * a.tdiv b| ∧ y * (x - y * a.tdiv b) * (b * a.tmod b) ≤ 0 ∧
    |y| * |a.tmod b| + |x - y * a.tdiv b| * |b| = c := by
  obtain ⟨p, hp⟩ : ∃ p, p = a.tdiv b := ⟨_, rfl⟩
  obtain ⟨q, hq⟩ : ∃ q, q = a.tmod b := ⟨_, rfl⟩
  have h1 := abs_tdiv_tmod a b
  have h2 := tmod_signs a b
  rw [← hp, ← hq] at h1 h2 ⊢
  have hopp : x * (y * p) ≤ 0 ∧ x * y * (b * q) ≤ 0 ∧ 0 ≤ p * b * q := by
    rcases le_total 0 a with ha | ha
    · obtain ⟨h3, h4⟩ := h2.1 ha
      have h5 : 0 ≤ p * b * q := mul_nonneg h4 h3
      refine ⟨?_, ?_, h5⟩
      · rcases eq_or_lt_of_le ha with rfl | ha
        · have : p = 0 := by rw [hp]; simp
          rw [this]; simp
        · have h6 : x * y * b ≤ 0 := by nlinarith
          rcases lt_or_gt_of_ne hb with hb | hb
          · have : p ≤ 0 := by nlinarith
            have : 0 ≤ x * y := by nlinarith
            nlinarith
          · have : 0 ≤ p := by nlinarith
            have : x * y ≤ 0 := by nlinarith
            nlinarith
      · rcases eq_or_lt_of_le ha with rfl | ha
        · have : q = 0 := by rw [hq]; simp
          rw [this]; simp
        · have h6 : x * y * b ≤ 0 := by nlinarith
          nlinarith
    · obtain ⟨h3, h4⟩ := h2.2 ha
      have h5 : 0 ≤ p * b * q := mul_nonneg_of_nonpos_of_nonpos h4 h3
      refine ⟨?_, ?_, h5⟩
      · rcases eq_or_lt_of_le ha with rfl | ha
        · have : p = 0 := by rw [hp]; simp
          rw [this]; simp
        · have h6 : 0 ≤ x * y * b := by nlinarith
          rcases lt_or_gt_of_ne hb with hb | hb
          · have : 0 ≤ p := by nlinarith
            have : x * y ≤ 0 := by nlinarith
            nlinarith
          · have : p ≤ 0 := by nlinarith
            have : 0 ≤ x * y := by nlinarith
            nlinarith
      · rcases eq_or_lt_of_le ha with rfl | ha
        · have : q = 0 := by rw [hq]; simp
          rw [this]; simp
        · have h6 : 0 ≤ x * y * b := by nlinarith
          nlinarith
  have h3 := abs_sub_of_opp hopp.1
  refine ⟨h3, ?_, ?_⟩
  · have e : y * (x - y * p) * (b * q) = x * y * (b * q) - y * y * (p * b * q) := by ring
    have := mul_nonneg (mul_self_nonneg y) hopp.2.2
    rw [e]; linarith [hopp.2.1]
  · rw [h3, abs_mul, ← hc, h1]; ring

/-- Loop invariant of `ext_gcd`. -/
structure Inv (a0 b0 : Int) (s : Vars) : Prop where
  l1 : a0 * s.x + b0 * s.z = s.a
  l2 : a0 * s.y + b0 * s.w = s.b
  g : Int.gcd s.a s.b = Int.gcd a0 b0
  cx : |s.x| * |s.b| + |s.y| * |s.a| = |b0|
  sx : s.x * s.y * (s.a * s.b) ≤ 0
  cz : |s.z| * |s.b| + |s.w| * |s.a| = |a0|
  sz : s.z * s.w * (s.a * s.b) ≤ 0
  fa : |s.a| < 2 ^ 63
  fb : |s.b| < 2 ^ 63
  fx : |s.x| < 2 ^ 63
  fz : |s.z| < 2 ^ 63
  fy : |s.y| < 2 ^ 63
  fw : |s.w| < 2 ^ 63

theorem i64_abs {x : Int} (h : |x| < 2 ^ 63) : i64 x = .ok x := by
  rw [abs_lt] at h
  exact i64_ok ⟨by omega, by omega⟩

theorem gcdStep_tot {a0 b0 : Int} (ha : |a0| < 2 ^ 63) (hb0 : |b0| < 2 ^ 63) {s : Vars} (h : Inv a0 b0 s) :
    Tot (gcdStep s) fun
      | none => Inv a0 b0 s ∧ s.b = 0
      | some s' => Inv a0 b0 s' ∧ s'.b.natAbs < s.b.natAbs := by
  unfold gcdStep
  by_cases hb : s.b = 0
  · rw [if_pos hb]; exact Tot.pure ⟨h, hb⟩
  rw [if_neg hb]
  obtain ⟨p, hp⟩ : ∃ p, p = s.a.tdiv s.b := ⟨_, rfl⟩
  obtain ⟨q, hq⟩ : ∃ q, q = s.a.tmod s.b := ⟨_, rfl⟩
  have h1 := abs_tdiv_tmod s.a s.b
  have hpos : 1 ≤ |s.b| := Int.one_le_abs hb
  obtain ⟨x1, x2, x3⟩ := cof_step hb h.sx h.cx
  obtain ⟨z1, z2, z3⟩ := cof_step hb h.sz h.cz
  have hmod := Int.tdiv_mul_add_tmod s.a s.b
  have hqb : |s.a.tmod s.b| < |s.b| := by
    rw [Int.abs_eq_natAbs, Int.abs_eq_natAbs, Int.natAbs_tmod]
    exact_mod_cast Nat.mod_lt _ (Int.natAbs_pos.2 hb)
  simp only [← hp, ← hq] at h1 x1 x2 x3 z1 z2 z3 hmod hqb ⊢
  have hpa : |p| ≤ |s.a| := by nlinarith [abs_nonneg p, abs_nonneg q]
  have bx : |s.x - s.y * p| ≤ |b0| := by nlinarith [abs_nonneg (s.x - s.y * p), abs_nonneg s.y, abs_nonneg q, mul_nonneg (abs_nonneg s.y) (abs_nonneg q)]
  have bz : |s.z - s.w * p| ≤ |a0| := by nlinarith [abs_nonneg (s.z - s.w * p), abs_nonneg s.w, abs_nonneg q, mul_nonneg (abs_nonneg s.w) (abs_nonneg q)]
  have byp : |s.y * p| < 2 ^ 63 := by have := abs_nonneg s.x; omega
  have bwp : |s.w * p| < 2 ^ 63 := by have := abs_nonneg s.z; omega
  rw [i64_abs (lt_of_le_of_lt hpa h.fa), ok_bind]
  rw [i64_abs byp, ok_bind, i64_abs (lt_of_le_of_lt bx hb0), ok_bind, i64_abs bwp, ok_bind, i64_abs (lt_of_le_of_lt bz ha), ok_bind]
  refine Tot.pure ⟨⟨h.l2, ?_, ?_, x3, x2, z3, z2, h.fb, lt_trans hqb h.fb, h.fy, h.fw, lt_of_le_of_lt bx hb0, lt_of_le_of_lt bz ha⟩, ?_⟩
  · show a0 * (s.x - s.y * p) + b0 * (s.z - s.w * p) = q
    have e1 := h.l1; have e2 := h.l2
    have : a0 * (s.x - s.y * p) + b0 * (s.z - s.w * p) = (a0 * s.x + b0 * s.z) - p * (a0 * s.y + b0 * s.w) := by ring
    rw [this, e1, e2, ← hmod]; ring
  · show Int.gcd s.b q = _
    rw [← h.g, ← hmod, Int.gcd_comm (p * s.b + q)]
    have e : p * s.b + q = q + p * s.b := by ring
    rw [e, Int.gcd_add_mul_right_right]
  · show q.natAbs < s.b.natAbs
    rw [Int.abs_eq_natAbs, Int.abs_eq_natAbs] at hqb
    exact_mod_cast hqb

theorem extGcd_tot {a b : Int} (ha : |a| < 2 ^ 63) (hb : |b| < 2 ^ 63) :
    Tot (extGcd a b) fun r => a * r.1 + b * r.2.1 = r.2.2 ∧ r.2.2 = Int.gcd a b ∧ |r.1| < 2 ^ 63 ∧ |r.2.1| < 2 ^ 63 := by
  unfold extGcd
  refine Tot.bind (Tot.loop (P := Inv a b) (Q := fun s => Inv a b s ∧ s.b = 0) (fun s => s.b.natAbs) (fun s h => (gcdStep_tot ha hb h).mono (by rintro (_ | _) h <;> exact h)) ?_ (le_refl _)) ?_
  · exact ⟨by simp, by simp, rfl, by simp, by simp, by simp, by simp, ha, hb, by norm_num, by norm_num, by norm_num, by norm_num⟩
  rintro s ⟨h, h0⟩
  have hg : (s.a.natAbs : Int) = Int.gcd a b := by
    rw [← h.g, h0, Int.gcd_zero_right]
  unfold gcdFinish
  by_cases c : s.a < 0
  · rw [if_pos c, i64_abs (by rw [abs_neg]; exact h.fx), ok_bind, i64_abs (by rw [abs_neg]; exact h.fz), ok_bind, i64_abs (by rw [abs_neg]; exact h.fa), ok_bind]
    refine Tot.pure ⟨?_, ?_, by show |-s.x| < _; rw [abs_neg]; exact h.fx, by show |-s.z| < _; rw [abs_neg]; exact h.fz⟩
    · show a * -s.x + b * -s.z = -s.a
      rw [← h.l1]; ring
    · show -s.a = _
      rw [← hg]; omega
  · rw [if_neg c]
    exact Tot.pure ⟨h.l1, by show s.a = _; rw [← hg]; omega, h.fx, h.fz⟩

theorem safeMod_tot {x m : Int} (hx : |x| < 2 ^ 63) (hm : 0 < m) (hm' : m < 2 ^ 63) :
    safeMod x m = .ok (x % m) := by
  unfold safeMod
  rw [if_neg (by omega)]
  have h1 := abs_tdiv_tmod x m
  have hpa : |x.tdiv m| ≤ |x| := by
    have : 1 ≤ |m| := Int.one_le_abs (by omega)
    nlinarith [abs_nonneg (x.tdiv m), abs_nonneg (x.tmod m)]
  rw [i64_abs (lt_of_le_of_lt hpa hx), ok_bind]
  simp only []
  rcases le_total 0 x with c | c
  · rw [Int.tmod_eq_emod_of_nonneg c, if_neg (by have := Int.emod_nonneg x (show m ≠ 0 by omega); omega)]
    rfl
  · have h2 := Int.tmod_lt_of_pos (-x) hm
    have h3 := Int.tmod_nonneg m (show 0 ≤ -x by omega)
    rw [Int.neg_tmod] at h2 h3
    have h4 := Int.tdiv_mul_add_tmod x m
    by_cases d : x.tmod m < 0
    · rw [if_pos d, i64_ok (by omega)]
      congr 1
      have : x % m = (x.tmod m + m) % m := by
        conv_lhs => rw [← h4]
        rw [Int.add_comm, Int.add_mul_emod_self_right, Int.add_emod_right]
      rw [this, Int.emod_eq_of_lt (by omega) (by omega)]
    · rw [if_neg d]
      have e : x.tmod m = 0 := by omega
      rw [e] at h4 ⊢
      rw [← h4]; simp

theorem invMod_tot {a m : Int} (ha : |a| < 2 ^ 63) (hm : 0 < m) (hm' : m < 2 ^ 63) (hg : Int.gcd a m = 1) :
    Tot (invMod a m) fun r => 0 ≤ r ∧ r < m ∧ a * r ≡ 1 [ZMOD m] := by
  unfold invMod
  refine Tot.bind (extGcd_tot ha (by rw [abs_of_pos hm]; exact hm')) ?_
  rintro ⟨x, y, g⟩ ⟨h1, h2, h3, -⟩
  dsimp only at h1 h2 h3 ⊢
  rw [hg] at h2
  rw [decide_eq_true (show g = 1 by simpa using h2), check_true, ok_bind, safeMod_tot h3 hm hm']
  refine Tot.pure ⟨Int.emod_nonneg _ (by omega), Int.emod_lt_of_pos _ hm, ?_⟩
  have : a * (x % m) ≡ a * x [ZMOD m] := Int.ModEq.mul_left _ (Int.mod_modEq _ _)
  refine this.trans ?_
  rw [Int.modEq_iff_dvd]
  refine ⟨y, ?_⟩
  have : g = 1 := by simpa using h2
  linarith

end ExtGcd
