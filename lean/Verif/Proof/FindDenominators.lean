import Verif.Model.FindDenominators
import Verif.Spec.FindDenominators
import Mathlib.Tactic.Linarith
import Mathlib.Tactic.Ring
import Mathlib.Tactic.FieldSimp

namespace FindDenominators
open Cxx

theorem floor_iff {n q x : Int} (hx : 0 < x) : ⌊(n : ℚ) / x⌋ = q ↔ q * x ≤ n ∧ n < q * x + x := by
  have h : (0 : ℚ) < x := by exact_mod_cast hx
  rw [Int.floor_eq_iff, le_div_iff₀ h, div_lt_iff₀ h]
  constructor
  · rintro ⟨a, b⟩
    refine ⟨by exact_mod_cast a, ?_⟩
    have : n < (q + 1) * x := by exact_mod_cast b
    linarith
  · rintro ⟨a, b⟩
    refine ⟨by exact_mod_cast a, ?_⟩
    have : n < (q + 1) * x := by linarith
    exact_mod_cast this

theorem ceil_iff {n q x : Int} (hx : 0 < x) : ⌈(n : ℚ) / x⌉ = q ↔ q * x - x < n ∧ n ≤ q * x := by
  have h : (0 : ℚ) < x := by exact_mod_cast hx
  rw [Int.ceil_eq_iff, lt_div_iff₀ h, div_le_iff₀ h]
  constructor
  · rintro ⟨a, b⟩
    refine ⟨?_, by exact_mod_cast b⟩
    have : (q - 1) * x < n := by exact_mod_cast a
    linarith
  · rintro ⟨a, b⟩
    refine ⟨?_, by exact_mod_cast b⟩
    have : (q - 1) * x < n := by linarith
    exact_mod_cast this

theorem neg_div' (n x : Int) : (n : ℚ) / x = ((-n : Int) : ℚ) / ((-x : Int) : ℚ) := by
  push_cast
  rw [neg_div_neg_eq]

theorem ar_eq {hi v : Int} (h : -hi - 1 ≤ v ∧ v ≤ hi) : ar hi v = .ok v := by
  unfold ar
  rw [if_pos h]
  rfl

/-- A quotient of two numbers with the same sign. -/
theorem tdiv_pos {a b : Int} (ha : 0 ≤ a) (hb : 0 < b) : 0 ≤ a.tdiv b ∧ a.tdiv b ≤ a ∧ ∀ x, (x ≤ a.tdiv b ↔ x * b ≤ a) := by
  rw [Int.tdiv_eq_ediv_of_nonneg ha]
  exact ⟨Int.ediv_nonneg ha hb.le, Int.ediv_le_self _ ha, fun x => Int.le_ediv_iff_mul_le hb⟩

theorem isAns_fin {S : Int → Prop} {l r : Int} (h : ∀ x, S x ↔ l ≤ x ∧ x ≤ r) : Spec.IsAns S (fin l r) := by
  unfold fin
  by_cases c : l ≤ r
  · rw [if_pos c]
    exact ⟨(h l).2 ⟨le_rfl, c⟩, (h r).2 ⟨c, le_rfl⟩, h⟩
  · rw [if_neg c]
    intro x hx
    have := (h x).1 hx
    omega

/-- The quotient `a / b` for numbers of the same sign, both given by absolute values. -/
theorem dv_pos {hi a b : Int} (ha : 0 ≤ a) (hb : 0 < b) (h : a ≤ hi) : dv hi a b = .ok (a.tdiv b) := by
  unfold dv
  have := tdiv_pos ha hb
  rw [if_neg (by omega), ar_eq (by omega)]

theorem dv_neg {hi a b : Int} (ha : a ≤ 0) (hb : b < 0) (h : -hi ≤ a) : dv hi a b = .ok ((-a).tdiv (-b)) := by
  unfold dv
  have := tdiv_pos (a := -a) (b := -b) (by omega) (by omega)
  have e : a.tdiv b = (-a).tdiv (-b) := by rw [Int.neg_tdiv_neg]
  rw [if_neg (by omega), e, ar_eq (by omega)]

theorem dv_np {hi a b : Int} (ha : a ≤ 0) (hb : 0 < b) (h : -hi ≤ a) : dv hi a b = .ok (-((-a).tdiv b)) := by
  unfold dv
  have := tdiv_pos (a := -a) (b := b) (by omega) (by omega)
  have e : a.tdiv b = -((-a).tdiv b) := by rw [Int.neg_tdiv, neg_neg]
  rw [if_neg (by omega), e, ar_eq (by omega)]

theorem dv_pn {hi a b : Int} (ha : 0 ≤ a) (hb : b < 0) (h : a ≤ hi) : dv hi a b = .ok (-(a.tdiv (-b))) := by
  unfold dv
  have := tdiv_pos (a := a) (b := -b) (by omega) (by omega)
  have e : a.tdiv b = -(a.tdiv (-b)) := by rw [Int.tdiv_neg, neg_neg]
  rw [if_neg (by omega), e, ar_eq (by omega)]

/-- Round up: `(a + b - 1) / b ≤ x`. -/
theorem up {a b c x : Int} (ha : 0 ≤ c) (hb : 0 < b) (hc : c = a + b - 1) : c.tdiv b ≤ x ↔ a ≤ x * b := by
  have := (tdiv_pos ha hb).2.2 (x + 1)
  rw [add_mul, one_mul] at this
  have e : c.tdiv b ≤ x ↔ ¬ (x + 1 ≤ c.tdiv b) := by omega
  rw [e, this]
  omega

variable {hi n q b : Int}

theorem fldPositive_tot (h : |n| + |q| + 1 ≤ hi) : Tot (fldPositive hi n q b) (Spec.IsAns (Spec.FldPos n q b)) := by
  have hn := le_abs_self n
  have hn' := neg_abs_le n
  have hq := le_abs_self q
  have hq' := neg_abs_le q
  have key : ∀ x, Spec.FldPos n q b x ↔ 0 < x ∧ x ≤ b ∧ q * x ≤ n ∧ n < q * x + x := fun x => by
    unfold Spec.FldPos
    constructor
    · rintro ⟨h1, h2, h3⟩; exact ⟨h1, h2, (floor_iff h1).1 h3⟩
    · rintro ⟨h1, h2, h3⟩; exact ⟨h1, h2, (floor_iff h1).2 h3⟩
  unfold fldPositive
  by_cases c : q ≥ 0
  · rw [if_pos c]
    by_cases d : n < 0
    · rw [if_pos d]
      refine Tot.pure fun x hx => ?_
      obtain ⟨h1, h2, h3, h4⟩ := (key x).1 hx
      have := mul_nonneg c h1.le
      omega
    · rw [if_neg d, ar_eq (by omega), ok_bind, ar_eq (by omega), ok_bind, ar_eq (by omega), ok_bind, dv_pos (by omega) (by omega) (by omega), ok_bind]
      have hl : ∀ x, (n + 1 + q).tdiv (q + 1) ≤ x ↔ n + 1 ≤ x * (q + 1) := fun x => up (by omega) (by omega) (by omega)
      have pos : ∀ x, n + 1 ≤ x * (q + 1) → 0 < x := fun x hx => by
        by_contra hh
        have := mul_nonneg (show 0 ≤ -x by omega) (show 0 ≤ q + 1 by omega)
        linarith
      by_cases e : q = 0
      · rw [if_pos e, pure_eq, ok_bind]
        refine Tot.pure (isAns_fin fun x => ?_)
        rw [key, hl]
        subst e
        have := pos x
        omega
      · rw [if_neg e, dv_pos (by omega) (by omega) (by omega), ok_bind, pure_eq, ok_bind]
        refine Tot.pure (isAns_fin fun x => ?_)
        rw [key, hl, le_min_iff, (tdiv_pos (show 0 ≤ n by omega) (show 0 < q by omega)).2.2]
        have p := pos x
        rw [mul_add, mul_one] at p ⊢
        rw [mul_comm q x]
        generalize x * q = t at *
        omega
  · rw [if_neg c]
    by_cases d : n ≥ 0
    · rw [if_pos d]
      refine Tot.pure fun x hx => ?_
      obtain ⟨h1, h2, h3, h4⟩ := (key x).1 hx
      have := mul_nonneg (show 0 ≤ -q - 1 by omega) h1.le
      linarith
    · rw [if_neg d, ar_eq (by omega), ok_bind, ar_eq (by omega), ok_bind, dv_neg (by omega) (by omega) (by omega), ok_bind]
      have hl : ∀ x, (-(n + q + 1)).tdiv (-q) ≤ x ↔ -n ≤ x * -q := fun x => up (by omega) (by omega) (by omega)
      have pos : ∀ x, -n ≤ x * -q → 0 < x := fun x hx => by
        by_contra hh
        have := mul_nonneg (show 0 ≤ -x by omega) (show 0 ≤ -q by omega)
        linarith
      by_cases e : q = -1
      · rw [if_pos e, pure_eq, ok_bind]
        refine Tot.pure (isAns_fin fun x => ?_)
        rw [key, hl]
        subst e
        have := pos x
        omega
      · rw [if_neg e, ar_eq (by omega), ok_bind, ar_eq (by omega), ok_bind, dv_neg (by omega) (by omega) (by omega), ok_bind, pure_eq, ok_bind]
        refine Tot.pure (isAns_fin fun x => ?_)
        rw [key, hl, le_min_iff, (tdiv_pos (show 0 ≤ -(n + 1) by omega) (show 0 < -(q + 1) by omega)).2.2]
        have p := pos x
        rw [mul_neg] at p ⊢
        rw [mul_comm q x, mul_neg, mul_add, mul_one]
        generalize x * q = t at *
        omega

/-- The results for `n`, `x` are those for `-n`, `-x`. -/
theorem fldNeg_iff {x : Int} : Spec.FldNeg n q b x ↔ x < 0 ∧ b ≤ x ∧ q * -x ≤ -n ∧ -n < q * -x + -x := by
  unfold Spec.FldNeg
  rw [neg_div']
  constructor
  · rintro ⟨h1, h2, h3⟩; exact ⟨h1, h2, (floor_iff (by omega)).1 h3⟩
  · rintro ⟨h1, h2, h3⟩; exact ⟨h1, h2, (floor_iff (by omega)).2 h3⟩

theorem cldNeg_iff {x : Int} : Spec.CldNeg n q b x ↔ x < 0 ∧ b ≤ x ∧ q * -x - -x < -n ∧ -n ≤ q * -x := by
  unfold Spec.CldNeg
  rw [neg_div']
  constructor
  · rintro ⟨h1, h2, h3⟩; exact ⟨h1, h2, (ceil_iff (by omega)).1 h3⟩
  · rintro ⟨h1, h2, h3⟩; exact ⟨h1, h2, (ceil_iff (by omega)).2 h3⟩

theorem cldPos_iff {x : Int} : Spec.CldPos n q b x ↔ 0 < x ∧ x ≤ b ∧ q * x - x < n ∧ n ≤ q * x := by
  unfold Spec.CldPos
  constructor
  · rintro ⟨h1, h2, h3⟩; exact ⟨h1, h2, (ceil_iff (by omega)).1 h3⟩
  · rintro ⟨h1, h2, h3⟩; exact ⟨h1, h2, (ceil_iff (by omega)).2 h3⟩

theorem fldNegative_tot (h : |n| + |q| + 1 ≤ hi) : Tot (fldNegative hi n q b) (Spec.IsAns (Spec.FldNeg n q b)) := by
  have hn := le_abs_self n
  have hn' := neg_abs_le n
  have hq := le_abs_self q
  have hq' := neg_abs_le q
  unfold fldNegative
  by_cases c : q ≥ 0
  · rw [if_pos c]
    by_cases d : n > 0
    · rw [if_pos d]
      refine Tot.pure fun x hx => ?_
      obtain ⟨h1, h2, h3, h4⟩ := fldNeg_iff.1 hx
      have := mul_nonneg c (show 0 ≤ -x by omega)
      omega
    · rw [if_neg d]
      have hr : ∀ x, x ≤ -((-(n - 1 - q)).tdiv (q + 1)) ↔ -n + 1 ≤ -x * (q + 1) := fun x => by
        rw [le_neg]
        exact up (by omega) (by omega) (by omega)
      have pos : ∀ x, -n + 1 ≤ -x * (q + 1) → x < 0 := fun x hx => by
        by_contra hh
        have := mul_nonneg (show 0 ≤ x by omega) (show 0 ≤ q + 1 by omega)
        linarith
      by_cases e : q = 0
      · rw [if_pos e, pure_eq, ok_bind, ar_eq (by omega), ok_bind, ar_eq (by omega), ok_bind, ar_eq (by omega), ok_bind, dv_np (by omega) (by omega) (by omega), ok_bind]
        refine Tot.pure (isAns_fin fun x => ?_)
        rw [fldNeg_iff, hr]
        subst e
        have := pos x
        omega
      · rw [if_neg e, dv_np (by omega) (by omega) (by omega), ok_bind, pure_eq, ok_bind, ar_eq (by omega), ok_bind, ar_eq (by omega), ok_bind, ar_eq (by omega), ok_bind, dv_np (by omega) (by omega) (by omega), ok_bind]
        refine Tot.pure (isAns_fin fun x => ?_)
        rw [fldNeg_iff, hr, max_le_iff, neg_le, (tdiv_pos (show 0 ≤ -n by omega) (show 0 < q by omega)).2.2]
        have p := pos x
        rw [mul_add, mul_one, neg_mul] at p ⊢
        rw [mul_comm q, neg_mul]
        generalize x * q = t at *
        omega
  · rw [if_neg c]
    by_cases d : n ≤ 0
    · rw [if_pos d]
      refine Tot.pure fun x hx => ?_
      obtain ⟨h1, h2, h3, h4⟩ := fldNeg_iff.1 hx
      have := mul_nonneg (show 0 ≤ -q - 1 by omega) (show 0 ≤ -x by omega)
      linarith
    · rw [if_neg d]
      have hr : ∀ x, x ≤ -((n - q - 1).tdiv (-q)) ↔ n ≤ -x * -q := fun x => by
        rw [le_neg]
        exact up (by omega) (by omega) (by omega)
      have pos : ∀ x, n ≤ -x * -q → x < 0 := fun x hx => by
        by_contra hh
        have := mul_nonneg (show 0 ≤ x by omega) (show 0 ≤ -q by omega)
        linarith
      by_cases e : q = -1
      · rw [if_pos e, pure_eq, ok_bind, ar_eq (by omega), ok_bind, ar_eq (by omega), ok_bind, dv_pn (by omega) (by omega) (by omega), ok_bind]
        refine Tot.pure (isAns_fin fun x => ?_)
        rw [fldNeg_iff, hr]
        subst e
        have := pos x
        omega
      · rw [if_neg e, ar_eq (by omega), ok_bind, ar_eq (by omega), ok_bind, dv_pn (by omega) (by omega) (by omega), ok_bind, pure_eq, ok_bind, ar_eq (by omega), ok_bind, ar_eq (by omega), ok_bind,
          dv_pn (by omega) (by omega) (by omega), ok_bind]
        refine Tot.pure (isAns_fin fun x => ?_)
        rw [fldNeg_iff, hr, max_le_iff, neg_le, (tdiv_pos (show 0 ≤ n - 1 by omega) (show 0 < -(q + 1) by omega)).2.2]
        have p := pos x
        rw [neg_mul_neg] at p ⊢
        rw [neg_mul_neg, mul_comm q, neg_mul, mul_add, mul_one]
        generalize x * q = t at *
        omega

theorem cldPositive_tot (h : |n| + |q| + 1 ≤ hi) : Tot (cldPositive hi n q b) (Spec.IsAns (Spec.CldPos n q b)) := by
  have hn := le_abs_self n
  have hn' := neg_abs_le n
  have hq := le_abs_self q
  have hq' := neg_abs_le q
  unfold cldPositive
  by_cases c : q > 0
  · rw [if_pos c]
    by_cases d : n ≤ 0
    · rw [if_pos d]
      refine Tot.pure fun x hx => ?_
      obtain ⟨h1, h2, h3, h4⟩ := cldPos_iff.1 hx
      have := mul_nonneg (show 0 ≤ q - 1 by omega) h1.le
      linarith
    · rw [if_neg d, ar_eq (by omega), ok_bind, ar_eq (by omega), ok_bind, dv_pos (by omega) (by omega) (by omega), ok_bind]
      have hl : ∀ x, (n + q - 1).tdiv q ≤ x ↔ n ≤ x * q := fun x => up (by omega) (by omega) (by omega)
      have pos : ∀ x, n ≤ x * q → 0 < x := fun x hx => by
        by_contra hh
        have := mul_nonneg (show 0 ≤ -x by omega) (show 0 ≤ q by omega)
        linarith
      by_cases e : q = 1
      · rw [if_pos e, pure_eq, ok_bind]
        refine Tot.pure (isAns_fin fun x => ?_)
        rw [cldPos_iff, hl]
        subst e
        have := pos x
        omega
      · rw [if_neg e, ar_eq (by omega), ok_bind, ar_eq (by omega), ok_bind, dv_pos (by omega) (by omega) (by omega), ok_bind, pure_eq, ok_bind]
        refine Tot.pure (isAns_fin fun x => ?_)
        rw [cldPos_iff, hl, le_min_iff, (tdiv_pos (show 0 ≤ n - 1 by omega) (show 0 < q - 1 by omega)).2.2]
        have p := pos x
        rw [mul_comm q x, mul_sub, mul_one]
        generalize x * q = t at *
        omega
  · rw [if_neg c]
    by_cases d : n > 0
    · rw [if_pos d]
      refine Tot.pure fun x hx => ?_
      obtain ⟨h1, h2, h3, h4⟩ := cldPos_iff.1 hx
      have := mul_nonneg (show 0 ≤ -q by omega) h1.le
      linarith
    · rw [if_neg d, ar_eq (by omega), ok_bind, ar_eq (by omega), ok_bind, ar_eq (by omega), ok_bind, dv_neg (by omega) (by omega) (by omega), ok_bind]
      have hl : ∀ x, (-(n - 1 + q)).tdiv (-(q - 1)) ≤ x ↔ -n + 1 ≤ x * -(q - 1) := fun x => up (by omega) (by omega) (by omega)
      have pos : ∀ x, -n + 1 ≤ x * -(q - 1) → 0 < x := fun x hx => by
        by_contra hh
        have := mul_nonneg (show 0 ≤ -x by omega) (show 0 ≤ -(q - 1) by omega)
        linarith
      by_cases e : q = 0
      · rw [if_pos e, pure_eq, ok_bind]
        refine Tot.pure (isAns_fin fun x => ?_)
        rw [cldPos_iff, hl]
        subst e
        have := pos x
        omega
      · rw [if_neg e, dv_neg (by omega) (by omega) (by omega), ok_bind, pure_eq, ok_bind]
        refine Tot.pure (isAns_fin fun x => ?_)
        rw [cldPos_iff, hl, le_min_iff, (tdiv_pos (show 0 ≤ -n by omega) (show 0 < -q by omega)).2.2]
        have p := pos x
        rw [mul_neg, mul_sub, mul_one] at p ⊢
        rw [mul_comm q x, mul_neg]
        generalize x * q = t at *
        omega

theorem cldNegative_tot (h : |n| + |q| + 1 ≤ hi) : Tot (cldNegative hi n q b) (Spec.IsAns (Spec.CldNeg n q b)) := by
  have hn := le_abs_self n
  have hn' := neg_abs_le n
  have hq := le_abs_self q
  have hq' := neg_abs_le q
  unfold cldNegative
  by_cases c : q > 0
  · rw [if_pos c]
    by_cases d : n ≥ 0
    · rw [if_pos d]
      refine Tot.pure fun x hx => ?_
      obtain ⟨h1, h2, h3, h4⟩ := cldNeg_iff.1 hx
      have := mul_nonneg (show 0 ≤ q - 1 by omega) (show 0 ≤ -x by omega)
      linarith
    · rw [if_neg d]
      have hr : ∀ x, x ≤ -((-(n - q + 1)).tdiv q) ↔ -n ≤ -x * q := fun x => by
        rw [le_neg]
        exact up (by omega) (by omega) (by omega)
      have pos : ∀ x, -n ≤ -x * q → x < 0 := fun x hx => by
        by_contra hh
        have := mul_nonneg (show 0 ≤ x by omega) (show 0 ≤ q by omega)
        linarith
      by_cases e : q = 1
      · rw [if_pos e, pure_eq, ok_bind, ar_eq (by omega), ok_bind, ar_eq (by omega), ok_bind, dv_np (by omega) (by omega) (by omega), ok_bind]
        refine Tot.pure (isAns_fin fun x => ?_)
        rw [cldNeg_iff, hr]
        subst e
        have := pos x
        omega
      · rw [if_neg e, ar_eq (by omega), ok_bind, ar_eq (by omega), ok_bind, dv_np (by omega) (by omega) (by omega), ok_bind, pure_eq, ok_bind, ar_eq (by omega), ok_bind, ar_eq (by omega), ok_bind,
          dv_np (by omega) (by omega) (by omega), ok_bind]
        refine Tot.pure (isAns_fin fun x => ?_)
        rw [cldNeg_iff, hr, max_le_iff, neg_le (b := x), (tdiv_pos (show 0 ≤ -(n + 1) by omega) (show 0 < q - 1 by omega)).2.2]
        have p := pos x
        rw [neg_mul] at p ⊢
        rw [mul_comm q, neg_mul, mul_sub, mul_one]
        generalize x * q = t at *
        omega
  · rw [if_neg c]
    by_cases d : n < 0
    · rw [if_pos d]
      refine Tot.pure fun x hx => ?_
      obtain ⟨h1, h2, h3, h4⟩ := cldNeg_iff.1 hx
      have := mul_nonneg (show 0 ≤ -q by omega) (show 0 ≤ -x by omega)
      linarith
    · rw [if_neg d]
      have hr : ∀ x, x ≤ -((n + 1 - q).tdiv (-(q - 1))) ↔ n + 1 ≤ -x * -(q - 1) := fun x => by
        rw [le_neg]
        exact up (by omega) (by omega) (by omega)
      have pos : ∀ x, n + 1 ≤ -x * -(q - 1) → x < 0 := fun x hx => by
        by_contra hh
        have := mul_nonneg (show 0 ≤ x by omega) (show 0 ≤ -(q - 1) by omega)
        linarith
      by_cases e : q = 0
      · rw [if_pos e, pure_eq, ok_bind, ar_eq (by omega), ok_bind, ar_eq (by omega), ok_bind, ar_eq (by omega), ok_bind, dv_pn (by omega) (by omega) (by omega), ok_bind]
        refine Tot.pure (isAns_fin fun x => ?_)
        rw [cldNeg_iff, hr]
        subst e
        have := pos x
        omega
      · rw [if_neg e, dv_pn (by omega) (by omega) (by omega), ok_bind, pure_eq, ok_bind, ar_eq (by omega), ok_bind, ar_eq (by omega), ok_bind, ar_eq (by omega), ok_bind, dv_pn (by omega) (by omega) (by omega), ok_bind]
        refine Tot.pure (isAns_fin fun x => ?_)
        rw [cldNeg_iff, hr, max_le_iff, neg_le (b := x), (tdiv_pos (show 0 ≤ n by omega) (show 0 < -q by omega)).2.2]
        have p := pos x
        rw [neg_mul_neg, mul_sub, mul_one] at p
        rw [neg_mul_neg, neg_mul_neg, mul_sub, mul_one, mul_comm q, neg_mul]
        generalize x * q = t at *
        omega

end FindDenominators
