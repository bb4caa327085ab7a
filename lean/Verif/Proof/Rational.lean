import Verif.Spec.Rational
import Mathlib.Data.Rat.Floor
import Mathlib.Data.Rat.Lemmas
import Mathlib.Tactic.FieldSimp
import Mathlib.Tactic.Ring
import Mathlib.Tactic.Linarith
import Mathlib.Tactic.Positivity

namespace Rational
open Cxx

theorem rep_of {n d : Int} (hd : 0 < d) (hc : Int.gcd n d = 1) : Rep ⟨n, d⟩ ((n : ℚ) / d) := by
  constructor
  · exact (Rat.num_div_eq_of_coprime hd hc).symm
  · exact (Rat.den_div_eq_of_coprime hd hc).symm

theorem divT_ok {a b : Int} (hb : b ≠ 0) (h : -2 ^ 63 ≤ a.tdiv b ∧ a.tdiv b < 2 ^ 63) : divT a b = .ok (a.tdiv b) := by
  unfold divT
  rw [if_neg hb, i64_ok h]

theorem tdiv_bound {a b : Int} (h : Fits64 a) : -2 ^ 63 ≤ a.tdiv b ∧ a.tdiv b < 2 ^ 63 := by
  have h1 : (a.tdiv b).natAbs ≤ a.natAbs := by
    rw [Int.natAbs_tdiv]
    exact Nat.div_le_self _ _
  unfold Fits64 at h
  omega

theorem gcdT_ok {a b : Int} (ha : Fits64 a) (hb : Fits64 b) : gcdT a b = .ok (Int.gcd a b : Int) := by
  unfold gcdT Fits64 at *
  rw [if_neg (by omega)]

theorem mk_tot {n d : Int} (hn : Fits64 n) (hd : Fits64 d) (h0 : d ≠ 0) : Tot (mk n d) (fun r => Rep r ((n : ℚ) / d)) := by
  unfold mk
  by_cases c : n = 0
  · rw [if_pos c, decide_eq_true h0, check_true, ok_bind]
    refine tot_ok.mpr ?_
    rw [c]
    simp [Rep]
  · rw [if_neg c, gcdT_ok hn hd, ok_bind]
    have hg : (Int.gcd n d : Int) ≠ 0 := by
      intro h
      exact c (Int.gcd_eq_zero_iff.mp (by exact_mod_cast h)).1
    rw [divT_ok hg (tdiv_bound hn), ok_bind, divT_ok hg (tdiv_bound hd), ok_bind]
    obtain ⟨n', hn'⟩ : (Int.gcd n d : Int) ∣ n := Int.gcd_dvd_left ..
    obtain ⟨d', hd'⟩ : (Int.gcd n d : Int) ∣ d := Int.gcd_dvd_right ..
    have hgpos : 0 < Int.gcd n d := by omega
    obtain ⟨g, hge⟩ : ∃ g, g = Int.gcd n d := ⟨_, rfl⟩
    have hcop : Int.gcd n' d' = 1 := by
      have h1 : Int.gcd ((g : Int) * n') ((g : Int) * d') = g * Int.gcd n' d' := by
        rw [Int.gcd_mul_left]
        rfl
      rw [hge, ← hn', ← hd'] at h1
      rw [← hge] at h1 hgpos
      exact Nat.eq_of_mul_eq_mul_left hgpos (by omega)
    have e1 : n.tdiv (Int.gcd n d : Int) = n' := by
      conv_lhs => rw [hn']
      rw [← hge] at hg ⊢
      have : ((g : Int) * n').tdiv g = n' := Int.mul_tdiv_cancel_left _ hg
      rw [hge] at this ⊢
      rw [← hn']
      rw [← hn'] at this
      exact this
    have e2 : d.tdiv (Int.gcd n d : Int) = d' := by
      rw [← hge] at hg ⊢
      have : ((g : Int) * d').tdiv g = d' := Int.mul_tdiv_cancel_left _ hg
      rw [hge, ← hd'] at this
      rw [hge]
      exact this
    have b1 := tdiv_bound (b := (Int.gcd n d : Int)) hn
    have b2 := tdiv_bound (b := (Int.gcd n d : Int)) hd
    rw [e1, e2]
    have hq : (n : ℚ) / d = (n' : ℚ) / d' := by
      have hgq : (g : ℚ) ≠ 0 := by rw [hge]; exact_mod_cast hg
      have : (n : ℚ) = g * n' := by rw [hge]; exact_mod_cast hn'
      have h2 : (d : ℚ) = g * d' := by rw [hge]; exact_mod_cast hd'
      rw [this, h2, mul_div_mul_left _ _ hgq]
    have hdne : d' ≠ 0 := by
      rintro rfl
      rw [mul_zero] at hd'
      exact h0 hd'
    rw [hq]
    have k1 : n'.natAbs ≤ n.natAbs := by
      rw [← e1, Int.natAbs_tdiv]
      exact Nat.div_le_self _ _
    have k2 : d'.natAbs ≤ d.natAbs := by
      rw [← e2, Int.natAbs_tdiv]
      exact Nat.div_le_self _ _
    unfold Fits64 at hn hd
    by_cases hneg : d' < 0
    · rw [if_pos hneg, i64_ok (by omega), ok_bind, i64_ok (by omega), ok_bind]
      refine tot_ok.mpr ?_
      have := rep_of (n := -n') (d := -d') (by omega) (by rw [Int.neg_gcd, Int.gcd_neg]; exact hcop)
      rwa [Int.cast_neg, Int.cast_neg, neg_div_neg_eq] at this
    · rw [if_neg hneg]
      exact tot_ok.mpr (rep_of (by omega) hcop)

theorem Rep.val {r : R} {q : ℚ} (h : Rep r q) : (r.num : ℚ) / r.den = q := by
  rw [h.1, h.2]
  exact_mod_cast Rat.num_div_den q

theorem Rep.den_pos {r : R} {q : ℚ} (h : Rep r q) : 0 < r.den := by
  rw [h.2]
  exact_mod_cast q.den_pos

theorem neg_tot {r : R} {q : ℚ} (h : Rep r q) (hs : Small q) : Tot (neg r) (fun x => Rep x (-q)) := by
  have hp := h.den_pos
  obtain ⟨s1, s2, s3⟩ := hs
  have h1 := h.1
  have h2 := h.2
  unfold neg
  rw [i64_ok (by omega), ok_bind]
  have := mk_tot (n := -r.num) (d := r.den) (by unfold Fits64; omega) (by unfold Fits64; omega) (by omega)
  rwa [Int.cast_neg, neg_div, h.val] at this

theorem abs_tot {r : R} {q : ℚ} (h : Rep r q) (hs : Small q) : Tot (abs r) (fun x => Rep x |q|) := by
  have hp := h.den_pos
  obtain ⟨s1, s2, s3⟩ := hs
  have h1 := h.1
  have h2 := h.2
  unfold abs absT
  rw [i64_ok (by omega), ok_bind]
  have := mk_tot (n := (r.num.natAbs : Int)) (d := r.den) (by unfold Fits64; omega) (by unfold Fits64; omega) (by omega)
  rwa [show (((r.num.natAbs : Nat) : Int) : ℚ) = |(r.num : ℚ)| by rw [Int.natCast_natAbs, Int.cast_abs], show (r.den : ℚ) = |(r.den : ℚ)| from (abs_of_pos (by exact_mod_cast hp)).symm, ← abs_div, h.val] at this

theorem inv_tot {r : R} {q : ℚ} (h : Rep r q) (hs : Small q) (h0 : q ≠ 0) : Tot (inv r) (fun x => Rep x q⁻¹) := by
  have hp := h.den_pos
  obtain ⟨s1, s2, s3⟩ := hs
  have h1 := h.1
  have h2 := h.2
  have hn : r.num ≠ 0 := by
    rw [h1]
    exact Rat.num_ne_zero.mpr h0
  unfold inv
  have := mk_tot (n := r.den) (d := r.num) (by unfold Fits64; omega) (by unfold Fits64; omega) hn
  rwa [← inv_div, h.val] at this

theorem small_inv {q : ℚ} (hs : Small q) (h0 : q ≠ 0) : Small q⁻¹ := by
  obtain ⟨s1, s2, s3⟩ := hs
  have hn := Rat.num_ne_zero.mpr h0
  have hp := q.den_pos
  unfold Small
  rw [Rat.num_inv, Rat.den_inv, if_neg hn]
  rcases Int.lt_or_gt_of_ne hn with h | h
  · rw [Int.sign_eq_neg_one_of_neg h]
    omega
  · rw [Int.sign_eq_one_of_pos h]
    omega

theorem mul_bound {x y : Int} (hx : x.natAbs < 2 ^ 31) (hy : y.natAbs < 2 ^ 31) : (x * y).natAbs ≤ (2 ^ 31 - 1) * (2 ^ 31 - 1) := by
  rw [Int.natAbs_mul]
  exact Nat.mul_le_mul (by omega) (by omega)

/-- The common denominator and its quotients. -/
theorem lcm_facts {l r : R} {a b : ℚ} (hl : Rep l a) (hr : Rep r b) (ha : Small a) (hb : Small b) : ∃ p s : Int, 0 < p ∧ 0 < s ∧ p < 2 ^ 31 ∧ s < 2 ^ 31 ∧ lcmT l r = .ok (p * r.den) ∧
    p * r.den = s * l.den ∧ divT (p * r.den) l.den = .ok s ∧ divT (p * r.den) r.den = .ok p := by
  have hp := hl.den_pos
  have hp' := hr.den_pos
  have h2 := hl.2
  have h2' := hr.2
  have s3 := ha.2.2
  have s3' := hb.2.2
  obtain ⟨g, hg⟩ : ∃ g, g = Int.gcd l.den r.den := ⟨_, rfl⟩
  obtain ⟨p, ep⟩ : (Int.gcd l.den r.den : Int) ∣ l.den := Int.gcd_dvd_left ..
  obtain ⟨s, es⟩ : (Int.gcd l.den r.den : Int) ∣ r.den := Int.gcd_dvd_right ..
  rw [← hg] at ep es
  have hg0 : 0 < (g : Int) := by
    rcases Nat.eq_zero_or_pos g with h | h
    · rw [h] at ep
      simp at ep
      omega
    · exact_mod_cast h
  have hpp : 0 < p := by
    by_contra hc
    have : (g : Int) * p ≤ 0 := Int.mul_nonpos_of_nonneg_of_nonpos hg0.le (by omega)
    omega
  have hss : 0 < s := by
    by_contra hc
    have : (g : Int) * s ≤ 0 := Int.mul_nonpos_of_nonneg_of_nonpos hg0.le (by omega)
    omega
  have hple : p ≤ l.den := by
    rw [ep]
    nlinarith
  have hsle : s ≤ r.den := by
    rw [es]
    nlinarith
  have hm : p * r.den = s * l.den := by
    rw [ep, es]
    ring
  have hbd := mul_bound (x := p) (y := r.den) (by omega) (by omega)
  have q1 : l.den.tdiv (g : Int) = p := by
    rw [ep]
    exact Int.mul_tdiv_cancel_left _ (by omega)
  have q2 : (p * r.den).tdiv l.den = s := by
    rw [hm]
    exact Int.mul_tdiv_cancel _ (by omega)
  have q3 : (p * r.den).tdiv r.den = p := Int.mul_tdiv_cancel _ (by omega)
  refine ⟨p, s, hpp, hss, by omega, by omega, ?_, hm, ?_, ?_⟩
  · unfold lcmT
    rw [gcdT_ok (by unfold Fits64; omega) (by unfold Fits64; omega), ok_bind, ← hg, divT_ok (by omega) (by rw [q1]; omega), ok_bind, q1, i64_ok (by omega)]
  · rw [divT_ok (by omega) (by rw [q2]; omega), q2]
  · rw [divT_ok (by omega) (by rw [q3]; omega), q3]

theorem add_tot {l r : R} {a b : ℚ} (hl : Rep l a) (hr : Rep r b) (ha : Small a) (hb : Small b) : Tot (add l r) (fun x => Rep x (a + b)) := by
  obtain ⟨p, s, h1, h2, h3, h4, h5, h6, h7, h8⟩ := lcm_facts hl hr ha hb
  have hp := hl.den_pos
  have hp' := hr.den_pos
  obtain ⟨a1, a2, a3⟩ := ha
  obtain ⟨b1, b2, b3⟩ := hb
  have e1 := hl.1
  have e2 := hl.2
  have e1' := hr.1
  have e2' := hr.2
  have m1 := mul_bound (x := l.num) (y := s) (by omega) (by omega)
  have m2 := mul_bound (x := r.num) (y := p) (by omega) (by omega)
  have m3 := mul_bound (x := p) (y := r.den) (by omega) (by omega)
  unfold add
  rw [h5, ok_bind, h7, ok_bind, i64_ok (by omega), ok_bind, h8, ok_bind, i64_ok (by omega), ok_bind, i64_ok (by omega), ok_bind]
  have hne : p * r.den ≠ 0 := (Int.mul_pos h1 hp').ne'
  refine (mk_tot (n := l.num * s + r.num * p) (d := p * r.den) (by unfold Fits64; omega) (by unfold Fits64; omega) hne).mono fun x hx => ?_
  convert hx using 1
  rw [← hl.val, ← hr.val]
  have q1 : (l.den : ℚ) ≠ 0 := by exact_mod_cast hp.ne'
  have q2 : (r.den : ℚ) ≠ 0 := by exact_mod_cast hp'.ne'
  have q3 : (p : ℚ) ≠ 0 := by exact_mod_cast h1.ne'
  have q4 : (p : ℚ) * r.den = s * l.den := by exact_mod_cast h6
  push_cast
  rw [add_div]
  congr 1
  · rw [q4, mul_comm (s : ℚ), mul_div_mul_right _ _ (by exact_mod_cast h2.ne')]
  · rw [mul_comm (p : ℚ), mul_div_mul_right _ _ q3]

theorem sub_tot {l r : R} {a b : ℚ} (hl : Rep l a) (hr : Rep r b) (ha : Small a) (hb : Small b) : Tot (sub l r) (fun x => Rep x (a - b)) := by
  obtain ⟨p, s, h1, h2, h3, h4, h5, h6, h7, h8⟩ := lcm_facts hl hr ha hb
  have hp := hl.den_pos
  have hp' := hr.den_pos
  obtain ⟨a1, a2, a3⟩ := ha
  obtain ⟨b1, b2, b3⟩ := hb
  have e1 := hl.1
  have e2 := hl.2
  have e1' := hr.1
  have e2' := hr.2
  have m1 := mul_bound (x := l.num) (y := s) (by omega) (by omega)
  have m2 := mul_bound (x := r.num) (y := p) (by omega) (by omega)
  have m3 := mul_bound (x := p) (y := r.den) (by omega) (by omega)
  unfold sub
  rw [h5, ok_bind, h7, ok_bind, i64_ok (by omega), ok_bind, h8, ok_bind, i64_ok (by omega), ok_bind, i64_ok (by omega), ok_bind]
  have hne : p * r.den ≠ 0 := (Int.mul_pos h1 hp').ne'
  refine (mk_tot (n := l.num * s - r.num * p) (d := p * r.den) (by unfold Fits64; omega) (by unfold Fits64; omega) hne).mono fun x hx => ?_
  convert hx using 1
  rw [← hl.val, ← hr.val]
  have q1 : (l.den : ℚ) ≠ 0 := by exact_mod_cast hp.ne'
  have q2 : (r.den : ℚ) ≠ 0 := by exact_mod_cast hp'.ne'
  have q3 : (p : ℚ) ≠ 0 := by exact_mod_cast h1.ne'
  have q4 : (p : ℚ) * r.den = s * l.den := by exact_mod_cast h6
  push_cast
  rw [sub_div]
  congr 1
  · rw [q4, mul_comm (s : ℚ), mul_div_mul_right _ _ (by exact_mod_cast h2.ne')]
  · rw [mul_comm (p : ℚ), mul_div_mul_right _ _ q3]

theorem div_gcd {a b : Int} (ha : a.natAbs < 2 ^ 31) (hb : b.natAbs < 2 ^ 31) (h0 : a ≠ 0 ∨ b ≠ 0) : ∃ (g : Int) (x y : Int), gcdT a b = .ok g ∧ g ≠ 0 ∧ a = g * x ∧ b = g * y ∧ x.natAbs < 2 ^ 31 ∧ y.natAbs < 2 ^ 31 ∧
    divT a g = .ok x ∧ divT b g = .ok y := by
  obtain ⟨g, hg⟩ : ∃ g, g = Int.gcd a b := ⟨_, rfl⟩
  obtain ⟨x, ex⟩ : (Int.gcd a b : Int) ∣ a := Int.gcd_dvd_left ..
  obtain ⟨y, ey⟩ : (Int.gcd a b : Int) ∣ b := Int.gcd_dvd_right ..
  rw [← hg] at ex ey
  have hg0 : (g : Int) ≠ 0 := by
    intro h
    rw [h, zero_mul] at ex ey
    rcases h0 with h | h
    · exact h ex
    · exact h ey
  have q1 : a.tdiv g = x := by
    rw [ex]
    exact Int.mul_tdiv_cancel_left _ hg0
  have q2 : b.tdiv g = y := by
    rw [ey]
    exact Int.mul_tdiv_cancel_left _ hg0
  have k1 : x.natAbs ≤ a.natAbs := by
    rw [← q1, Int.natAbs_tdiv]
    exact Nat.div_le_self _ _
  have k2 : y.natAbs ≤ b.natAbs := by
    rw [← q2, Int.natAbs_tdiv]
    exact Nat.div_le_self _ _
  refine ⟨g, x, y, ?_, hg0, ex, ey, by omega, by omega, ?_, ?_⟩
  · rw [gcdT_ok (by unfold Fits64; omega) (by unfold Fits64; omega), hg]
  · rw [divT_ok hg0 (by rw [q1]; omega), q1]
  · rw [divT_ok hg0 (by rw [q2]; omega), q2]

theorem mul_tot {l r : R} {a b : ℚ} (hl : Rep l a) (hr : Rep r b) (ha : Small a) (hb : Small b) : Tot (mul l r) (fun x => Rep x (a * b)) := by
  have hp := hl.den_pos
  have hp' := hr.den_pos
  obtain ⟨a1, a2, a3⟩ := ha
  obtain ⟨b1, b2, b3⟩ := hb
  have e1 := hl.1
  have e2 := hl.2
  have e1' := hr.1
  have e2' := hr.2
  obtain ⟨g1, x, d, i1, i2, i3, i4, i5, i6, i7, i8⟩ := div_gcd (a := l.num) (b := r.den) (by omega) (by omega) (Or.inr hp'.ne')
  obtain ⟨g2, c, y, j1, j2, j3, j4, j5, j6, j7, j8⟩ := div_gcd (a := l.den) (b := r.num) (by omega) (by omega) (Or.inl hp.ne')
  have m1 := mul_bound i5 j6
  have m2 := mul_bound j5 i6
  unfold mul
  rw [i1, ok_bind, j1, ok_bind, i7, ok_bind, j8, ok_bind, i64_ok (by omega), ok_bind, j7, ok_bind, i8, ok_bind, i64_ok (by omega), ok_bind]
  have hc : c ≠ 0 := by
    rintro rfl
    rw [mul_zero] at j3
    omega
  have hd : d ≠ 0 := by
    rintro rfl
    rw [mul_zero] at i4
    omega
  refine (mk_tot (n := x * y) (d := c * d) (by unfold Fits64; omega) (by unfold Fits64; omega) (mul_ne_zero hc hd)).mono fun z hz => ?_
  convert hz using 1
  rw [← hl.val, ← hr.val]
  have k1 : (l.num : ℚ) = g1 * x := by exact_mod_cast i3
  have k2 : (r.den : ℚ) = g1 * d := by exact_mod_cast i4
  have k3 : (l.den : ℚ) = g2 * c := by exact_mod_cast j3
  have k4 : (r.num : ℚ) = g2 * y := by exact_mod_cast j4
  rw [k1, k2, k3, k4]
  have n1 : (g1 : ℚ) ≠ 0 := by exact_mod_cast i2
  have n2 : (g2 : ℚ) ≠ 0 := by exact_mod_cast j2
  have n3 : (c : ℚ) ≠ 0 := by exact_mod_cast hc
  have n4 : (d : ℚ) ≠ 0 := by exact_mod_cast hd
  push_cast
  field_simp

theorem div_tot {l r : R} {a b : ℚ} (hl : Rep l a) (hr : Rep r b) (ha : Small a) (hb : Small b) (h0 : b ≠ 0) : Tot (div l r) (fun x => Rep x (a / b)) := by
  unfold div
  refine (inv_tot hr hb h0).bind fun i hi => ?_
  rw [div_eq_mul_inv]
  exact mul_tot hl hi ha (small_inv hb h0)

/-! ## Comparison -/

theorem cmpLoop_zero (rev : Bool) : ∀ (f nl dl nr dr : Nat), nl < 2 ^ 63 → nr < 2 ^ 63 → dl < 2 ^ 63 → dr < 2 ^ 63 → Nat.Coprime nl dl → Nat.Coprime nr dr → dl < f →
    ∃ c : Int, cmpLoop rev f nl dl nr dr = .ok c ∧ (c = 0 ↔ nl = nr ∧ dl = dr) := by
  intro f
  induction f with
  | zero =>
    intro nl dl nr dr _ _ _ _ _ _ h
    omega
  | succ f ih =>
    intro nl dl nr dr b1 b2 b3 b4 c1 c2 hf
    have hpow : ∀ b, powM1 b ≠ 0 := by decide
    unfold cmpLoop
    by_cases hc : dl ≠ 0 ∧ dr ≠ 0
    · rw [if_pos (by exact_mod_cast hc)]
      have t1 : (nl : Int).tdiv (dl : Int) = ((nl / dl : Nat) : Int) := rfl
      have t2 : (nr : Int).tdiv (dr : Int) = ((nr / dr : Nat) : Int) := rfl
      have u1 := Nat.div_le_self nl dl
      have u2 := Nat.div_le_self nr dr
      rw [divT_ok (by exact_mod_cast hc.1) (tdiv_bound (by unfold Fits64; omega)), ok_bind, divT_ok (by exact_mod_cast hc.2) (tdiv_bound (by unfold Fits64; omega)), ok_bind, t1, t2]
      have d1 := Nat.div_add_mod nl dl
      have d2 := Nat.div_add_mod nr dr
      by_cases hq : nl / dl = nr / dr
      · rw [if_neg (by rw [hq]; simp)]
        unfold modT
        rw [if_neg (by exact_mod_cast hc.1), ok_bind, if_neg (by exact_mod_cast hc.2), ok_bind]
        have t3 : (nl : Int).tmod (dl : Int) = ((nl % dl : Nat) : Int) := rfl
        have t4 : (nr : Int).tmod (dr : Int) = ((nr % dr : Nat) : Int) := rfl
        rw [t3, t4]
        have v1 := Nat.mod_lt nl (show 0 < dl by omega)
        have v2 := Nat.mod_lt nr (show 0 < dr by omega)
        obtain ⟨c, e, h⟩ := ih dl (nl % dl) dr (nr % dr) b3 b4 (by omega) (by omega) (by rw [Nat.coprime_comm]; unfold Nat.Coprime; rw [← Nat.gcd_rec, Nat.gcd_comm]; exact c1) (by rw [Nat.coprime_comm]; unfold Nat.Coprime; rw [← Nat.gcd_rec, Nat.gcd_comm]; exact c2) (by omega)
        refine ⟨c, e, h.trans ⟨?_, ?_⟩⟩
        · rintro ⟨h1, h2⟩
          refine ⟨?_, h1⟩
          rw [← d1, ← d2, hq, h2, h1]
        · rintro ⟨h1, h2⟩
          exact ⟨h2, by rw [h1, h2]⟩
      · rw [if_pos (by exact_mod_cast hq)]
        refine ⟨_, rfl, ⟨fun h => absurd h (hpow _), ?_⟩⟩
        rintro ⟨h1, h2⟩
        exact absurd (by rw [h1, h2]) hq
    · rw [if_neg (by exact_mod_cast hc)]
      by_cases hz : dl ≠ 0 ∨ dr ≠ 0
      · rw [if_pos (by exact_mod_cast hz)]
        refine ⟨_, rfl, ⟨fun h => absurd h (hpow _), ?_⟩⟩
        rintro ⟨-, h2⟩
        omega
      · rw [if_neg (by exact_mod_cast hz)]
        refine ⟨0, rfl, ⟨fun _ => ?_, fun _ => rfl⟩⟩
        have hl0 : dl = 0 := by omega
        have hr0 : dr = 0 := by omega
        rw [hl0, Nat.coprime_zero_right] at c1
        rw [hr0, Nat.coprime_zero_right] at c2
        omega

theorem signum_eq (r : R) : signum r = r.num.sign := by
  unfold signum
  rcases Int.lt_trichotomy r.num 0 with h | h | h
  · rw [if_neg (by omega), if_neg (by omega), Int.sign_eq_neg_one_of_neg h]
    rfl
  · rw [if_pos (by omega), if_neg (by omega), h]
    rfl
  · rw [if_pos (by omega), if_pos (by omega), Int.sign_eq_one_of_pos h]
    rfl

theorem Rep.sign {r : R} {q : ℚ} (h : Rep r q) : (r.num = 0 ↔ q = 0) ∧ (0 < r.num ↔ 0 < q) ∧ (r.num < 0 ↔ q < 0) := by
  rw [h.1]
  exact ⟨Rat.num_eq_zero, Rat.num_pos, Rat.num_neg⟩

theorem right_lt {a b : ℚ} {c : Int} (hc : c < 0) (h : a < b) : Right a b c :=
  ⟨iff_of_true hc h, iff_of_false (by omega) h.ne, iff_of_false (by omega) h.le.not_gt⟩

theorem right_gt {a b : ℚ} {c : Int} (hc : 0 < c) (h : b < a) : Right a b c :=
  ⟨iff_of_false (by omega) h.le.not_gt, iff_of_false (by omega) h.ne', iff_of_true hc h⟩

/-- The cases without the loop. -/
theorem compare_cases {l r : R} {a b : ℚ} (hl : Rep l a) (hr : Rep r b) (hal : Fits64 l.num) (hbl : Fits64 r.num) :
    (∃ c, compare l r = .ok c ∧ Right a b c) ∨ (((0 < a ∧ 0 < b) ∨ (a < 0 ∧ b < 0)) ∧
      compare l r = cmpLoop (decide (a < 0)) (l.den.natAbs + 1) (l.num.natAbs : Int) l.den (r.num.natAbs : Int) r.den) := by
  have sa := hl.sign
  have sb := hr.sign
  unfold compare
  dsimp only
  rw [signum_eq, signum_eq]
  by_cases c1 : l.num = 0
  · left
    rw [if_pos c1]
    refine ⟨_, rfl, ?_⟩
    have ha := sa.1.mp c1
    rw [ha]
    rcases Int.lt_trichotomy r.num 0 with h | h | h
    · rw [Int.sign_eq_neg_one_of_neg h]
      exact right_gt (by decide) (sb.2.2.mp h)
    · rw [h, sb.1.mp h]
      exact ⟨by simp, by simp, by simp⟩
    · rw [Int.sign_eq_one_of_pos h]
      exact right_lt (by decide) (sb.2.1.mp h)
  rw [if_neg c1]
  by_cases c2 : r.num = 0
  · left
    rw [if_pos c2]
    refine ⟨_, rfl, ?_⟩
    have hb := sb.1.mp c2
    rw [hb]
    rcases Int.lt_or_gt_of_ne c1 with h | h
    · rw [Int.sign_eq_neg_one_of_neg h]
      exact right_lt (by decide) (sa.2.2.mp h)
    · rw [Int.sign_eq_one_of_pos h]
      exact right_gt (by decide) (sa.2.1.mp h)
  rw [if_neg c2]
  unfold Fits64 at hal hbl
  rcases Int.lt_or_gt_of_ne c1 with h | h
  · rcases Int.lt_or_gt_of_ne c2 with h' | h'
    · right
      refine ⟨Or.inr ⟨sa.2.2.mp h, sb.2.2.mp h'⟩, ?_⟩
      rw [Int.sign_eq_neg_one_of_neg h, Int.sign_eq_neg_one_of_neg h', if_neg (by omega)]
      unfold absT
      rw [i64_ok (by omega), ok_bind, i64_ok (by omega), ok_bind, decide_eq_true (sa.2.2.mp h)]
      rfl
    · left
      rw [Int.sign_eq_neg_one_of_neg h, Int.sign_eq_one_of_pos h', if_pos (by omega)]
      exact ⟨_, rfl, right_lt (by decide) ((sa.2.2.mp h).trans (sb.2.1.mp h'))⟩
  · rcases Int.lt_or_gt_of_ne c2 with h' | h'
    · left
      rw [Int.sign_eq_one_of_pos h, Int.sign_eq_neg_one_of_neg h', if_pos (by omega)]
      exact ⟨_, rfl, right_gt (by decide) ((sb.2.2.mp h').trans (sa.2.1.mp h))⟩
    · right
      refine ⟨Or.inl ⟨sa.2.1.mp h, sb.2.1.mp h'⟩, ?_⟩
      rw [Int.sign_eq_one_of_pos h, Int.sign_eq_one_of_pos h', if_neg (by omega)]
      unfold absT
      rw [i64_ok (by omega), ok_bind, i64_ok (by omega), ok_bind, decide_eq_false (sa.2.1.mp h).le.not_gt]
      rfl

theorem compare_eq_zero {l r : R} {a b : ℚ} (hl : Rep l a) (hr : Rep r b) (hal : Fits64 l.num) (hbl : Fits64 r.num) (had : Fits64 l.den) (hbd : Fits64 r.den) :
    ∃ c, compare l r = .ok c ∧ (c = 0 ↔ a = b) := by
  rcases compare_cases hl hr hal hbl with ⟨c, e, h⟩ | ⟨hs, e⟩
  · exact ⟨c, e, h.2.1⟩
  · have q1 := hl.1
    have q2 := hl.2
    have q3 := hr.1
    have q4 := hr.2
    unfold Fits64 at *
    rw [e, q2, q4, q1, q3, Int.natAbs_natCast]
    obtain ⟨c, e', h⟩ := cmpLoop_zero (decide (a < 0)) (a.den + 1) a.num.natAbs a.den b.num.natAbs b.den (by omega) (by omega) (by omega) (by omega) a.reduced b.reduced (by omega)
    refine ⟨c, e', h.trans ⟨?_, ?_⟩⟩
    · rintro ⟨h1, h2⟩
      refine Rat.ext ?_ h2
      rcases hs with ⟨k1, k2⟩ | ⟨k1, k2⟩
      · have := Rat.num_pos.mpr k1
        have := Rat.num_pos.mpr k2
        omega
      · have := Rat.num_neg.mpr k1
        have := Rat.num_neg.mpr k2
        omega
    · rintro rfl
      exact ⟨rfl, rfl⟩

/-- What the loop returns for positive operands when the integer parts differ or one of the numbers is an integer. -/
theorem cmpLoop_first (rev : Bool) {f nl dl nr dr : Nat} (b1 : nl < 2 ^ 63) (b2 : nr < 2 ^ 63) (p1 : 0 < dl) (p2 : 0 < dr) (c1 : Nat.Coprime nl dl) (c2 : Nat.Coprime nr dr)
    (hne : ¬ (nl = nr ∧ dl = dr)) (h : nl / dl ≠ nr / dr ∨ dl = 1 ∨ dr = 1) :
    ∃ b, cmpLoop rev (f + 2) nl dl nr dr = .ok (powM1 (xor b rev)) ∧ (b = true ↔ nl * dr < nr * dl) ∧ (b = false ↔ nr * dl < nl * dr) := by
  have d1 := Nat.div_add_mod nl dl
  have d2 := Nat.div_add_mod nr dr
  have v1 := Nat.mod_lt nl p1
  have v2 := Nat.mod_lt nr p2
  unfold cmpLoop
  rw [if_pos (by omega)]
  have t1 : (nl : Int).tdiv (dl : Int) = ((nl / dl : Nat) : Int) := rfl
  have t2 : (nr : Int).tdiv (dr : Int) = ((nr / dr : Nat) : Int) := rfl
  rw [divT_ok (by omega) (tdiv_bound (by unfold Fits64; omega)), ok_bind, divT_ok (by omega) (tdiv_bound (by unfold Fits64; omega)), ok_bind, t1, t2]
  obtain ⟨ql, hql⟩ : ∃ ql, ql = nl / dl := ⟨_, rfl⟩
  obtain ⟨qr, hqr⟩ : ∃ qr, qr = nr / dr := ⟨_, rfl⟩
  obtain ⟨rl, hrl⟩ : ∃ rl, rl = nl % dl := ⟨_, rfl⟩
  obtain ⟨rr, hrr⟩ : ∃ rr, rr = nr % dr := ⟨_, rfl⟩
  have t3 : (nl : Int).tmod (dl : Int) = ((rl : Nat) : Int) := by rw [hrl]; rfl
  have t4 : (nr : Int).tmod (dr : Int) = ((rr : Nat) : Int) := by rw [hrr]; rfl
  rw [← hql, ← hqr]
  rw [← hql, ← hrl] at d1
  rw [← hqr, ← hrr] at d2
  rw [← hrl] at v1
  rw [← hrr] at v2
  rw [← hql, ← hqr] at h
  have dec : ∀ {x y : Nat}, x < y → ((true = true ↔ x < y) ∧ (true = false ↔ y < x)) := fun {x y} hxy => ⟨iff_of_true rfl hxy, iff_of_false (by decide) (by omega)⟩
  have dec' : ∀ {x y : Nat}, y < x → ((false = true ↔ x < y) ∧ (false = false ↔ y < x)) := fun {x y} hxy => ⟨iff_of_false (by decide) (by omega), iff_of_true rfl hxy⟩
  by_cases hq : ql = qr
  · rw [if_neg (by omega)]
    unfold modT
    rw [if_neg (by omega), ok_bind, if_neg (by omega), ok_bind, t3, t4]
    unfold cmpLoop
    subst hq
    have hone : dl = 1 ∨ dr = 1 := by
      rcases h with h | h
      · exact absurd rfl h
      · exact h
    have key : nl * dr < nr * dl ↔ rl * dr < rr * dl := by
      rw [← d1, ← d2]
      constructor <;> intro hh <;> nlinarith
    have key' : nr * dl < nl * dr ↔ rr * dl < rl * dr := by
      rw [← d1, ← d2]
      constructor <;> intro hh <;> nlinarith
    rw [key, key']
    have hz : ¬ (rl = 0 ∧ rr = 0) := by
      rintro ⟨z1, z2⟩
      apply hne
      rw [z1] at d1
      rw [z2] at d2
      have hd1 : dl = 1 := by
        have : dl ∣ Nat.gcd nl dl := Nat.dvd_gcd ⟨ql, by omega⟩ (dvd_refl _)
        rw [c1] at this
        exact Nat.dvd_one.mp this
      have hd2 : dr = 1 := by
        have : dr ∣ Nat.gcd nr dr := Nat.dvd_gcd ⟨ql, by omega⟩ (dvd_refl _)
        rw [c2] at this
        exact Nat.dvd_one.mp this
      rw [hd1] at d1
      rw [hd2] at d2
      exact ⟨by omega, by omega⟩
    have hzz : rl = 0 ∨ rr = 0 := by
      rcases hone with h' | h' <;> omega
    rw [if_neg (by omega)]
    refine ⟨decide ((rr : Int) > 0), ?_, ?_⟩
    · rw [if_pos (by omega)]
      rfl
    · by_cases c : 0 < rr
      · have hl0 : rl = 0 := by omega
        rw [decide_eq_true (by omega), hl0, Nat.zero_mul]
        exact dec (Nat.mul_pos c p1)
      · have hr0 : rr = 0 := by omega
        rw [decide_eq_false (by omega), hr0, Nat.zero_mul]
        exact dec' (Nat.mul_pos (by omega) p2)
  · rw [if_pos (by omega)]
    refine ⟨decide ((ql : Int) < qr), rfl, ?_⟩
    by_cases c : ql < qr
    · rw [decide_eq_true (by omega)]
      refine dec ?_
      have e1 : dl * (ql + 1) ≤ dl * qr := Nat.mul_le_mul_left _ c
      have e2 : nl < dl * qr := by
        rw [Nat.mul_add] at e1
        omega
      calc nl * dr < dl * qr * dr := Nat.mul_lt_mul_of_pos_right e2 p2
        _ ≤ nr * dl := by
          rw [← d2]
          nlinarith [Nat.zero_le (rr * dl)]
    · rw [decide_eq_false (by omega)]
      refine dec' ?_
      have e1 : dr * (qr + 1) ≤ dr * ql := Nat.mul_le_mul_left _ (by omega)
      have e2 : nr < dr * ql := by
        rw [Nat.mul_add] at e1
        omega
      calc nr * dl < dr * ql * dl := Nat.mul_lt_mul_of_pos_right e2 p1
        _ ≤ nl * dr := by
          rw [← d1]
          nlinarith [Nat.zero_le (rl * dr)]

theorem abs_lt_iff (a b : ℚ) : |a| < |b| ↔ a.num.natAbs * b.den < b.num.natAbs * a.den := by
  have ha : |a| = (a.num.natAbs : ℚ) / a.den := by
    conv_lhs => rw [← Rat.num_div_den a]
    rw [abs_div, Nat.abs_cast, Nat.cast_natAbs, Int.cast_abs]
  have hb : |b| = (b.num.natAbs : ℚ) / b.den := by
    conv_lhs => rw [← Rat.num_div_den b]
    rw [abs_div, Nat.abs_cast, Nat.cast_natAbs, Int.cast_abs]
  rw [ha, hb, div_lt_div_iff₀ (by exact_mod_cast a.den_pos) (by exact_mod_cast b.den_pos)]
  exact_mod_cast Iff.rfl

theorem floor_abs (a : ℚ) : ⌊|a|⌋ = ((a.num.natAbs / a.den : Nat) : Int) := by
  have ha : |a| = (a.num.natAbs : ℚ) / a.den := by
    conv_lhs => rw [← Rat.num_div_den a]
    rw [abs_div, Nat.abs_cast, Nat.cast_natAbs, Int.cast_abs]
  rw [ha]
  have := Rat.floor_intCast_div_natCast (a.num.natAbs : Int) a.den
  rw [Int.cast_natCast] at this
  rw [this]
  rfl

theorem compare_right {l r : R} {a b : ℚ} (hl : Rep l a) (hr : Rep r b) (hal : Fits64 l.num) (hbl : Fits64 r.num) (had : Fits64 l.den) (hbd : Fits64 r.den)
    (h : a = b ∨ ⌊|a|⌋ ≠ ⌊|b|⌋ ∨ a.den = 1 ∨ b.den = 1 ∨ ¬ 0 < a * b) : ∃ c, compare l r = .ok c ∧ Right a b c := by
  rcases compare_cases hl hr hal hbl with ⟨c, e, h⟩ | ⟨hs, e⟩
  · exact ⟨c, e, h⟩
  by_cases hab : a = b
  · obtain ⟨c, e', h'⟩ := compare_eq_zero hl hr hal hbl had hbd
    have hc := h'.mpr hab
    refine ⟨c, e', ?_⟩
    rw [hc, hab]
    exact ⟨by simp, by simp, by simp⟩
  have hmul : 0 < a * b := by
    rcases hs with ⟨h1, h2⟩ | ⟨h1, h2⟩
    · exact mul_pos h1 h2
    · exact mul_pos_of_neg_of_neg h1 h2
  have q1 := hl.1
  have q2 := hl.2
  have q3 := hr.1
  have q4 := hr.2
  unfold Fits64 at *
  have ap := a.den_pos
  have bp := b.den_pos
  rw [e, q2, q4, q1, q3, Int.natAbs_natCast]
  have hne : ¬ (a.num.natAbs = b.num.natAbs ∧ a.den = b.den) := by
    rintro ⟨h1, h2⟩
    apply hab
    refine Rat.ext ?_ h2
    rcases hs with ⟨k1, k2⟩ | ⟨k1, k2⟩
    · have := Rat.num_pos.mpr k1
      have := Rat.num_pos.mpr k2
      omega
    · have := Rat.num_neg.mpr k1
      have := Rat.num_neg.mpr k2
      omega
  have hcase : a.num.natAbs / a.den ≠ b.num.natAbs / b.den ∨ a.den = 1 ∨ b.den = 1 := by
    rcases h with h | h | h | h | h
    · exact absurd h hab
    · rw [floor_abs, floor_abs] at h
      exact Or.inl fun h' => h (by rw [h'])
    · exact Or.inr (Or.inl h)
    · exact Or.inr (Or.inr h)
    · exact absurd hmul h
  obtain ⟨b', e', h1, h2⟩ := cmpLoop_first (decide (a < 0)) (f := a.den - 1) (nl := a.num.natAbs) (dl := a.den) (nr := b.num.natAbs) (dr := b.den) (by omega) (by omega) ap bp a.reduced b.reduced hne hcase
  rw [show a.den - 1 + 2 = a.den + 1 by omega] at e'
  refine ⟨_, e', ?_⟩
  rw [← abs_lt_iff] at h1 h2
  rcases hs with ⟨k1, k2⟩ | ⟨k1, k2⟩
  · rw [decide_eq_false k1.le.not_gt]
    rw [abs_of_pos k1, abs_of_pos k2] at h1 h2
    cases b' with
    | true => exact right_lt (by decide) (h1.mp rfl)
    | false => exact right_gt (by decide) (h2.mp rfl)
  · rw [decide_eq_true k1]
    rw [abs_of_neg k1, abs_of_neg k2, neg_lt_neg_iff] at h1 h2
    cases b' with
    | true => exact right_gt (by decide) (h1.mp rfl)
    | false => exact right_lt (by decide) (h2.mp rfl)

/-! ## Rounding -/

theorem trunc_eq {r : R} {q : ℚ} (h : Rep r q) (hn : Fits64 r.num) : divT r.num r.den = .ok (if 0 ≤ q then ⌊q⌋ else ⌈q⌉) := by
  have hp := h.den_pos
  have hv : q = (r.num : ℚ) / ((r.den.toNat : Nat) : ℚ) := by
    rw [← h.val]
    congr 1
    have : ((r.den.toNat : Int) : ℚ) = (r.den : ℚ) := by rw [Int.toNat_of_nonneg hp.le]
    rw [← this]
    rfl
  rw [divT_ok hp.ne' (tdiv_bound hn)]
  congr 1
  by_cases c : 0 ≤ q
  · have hn0 : 0 ≤ r.num := by
      rw [h.1]
      exact Rat.num_nonneg.mpr c
    rw [if_pos c]
    conv_rhs => rw [hv]
    rw [Rat.floor_intCast_div_natCast, Int.toNat_of_nonneg hp.le, Int.tdiv_eq_ediv_of_nonneg hn0]
  · have hn0 : r.num < 0 := by
      rw [h.1]
      exact Rat.num_neg.mpr (not_le.mp c)
    rw [if_neg c]
    conv_rhs => rw [hv]
    rw [← neg_neg ((r.num : ℚ) / _), Int.ceil_neg, ← neg_div, ← Int.cast_neg, Rat.floor_intCast_div_natCast, Int.toNat_of_nonneg hp.le, ← Int.tdiv_eq_ediv_of_nonneg (by omega), Int.neg_tdiv, neg_neg]

theorem neg_trunc {r : R} {q : ℚ} (h : Rep r q) (hn : Fits64 r.num) :
    (i64 (-r.num) >>= fun n => divT n r.den >>= fun q => i64 (-q)) = .ok (if 0 ≤ q then ⌊q⌋ else ⌈q⌉) := by
  have hp := h.den_pos
  have ht := trunc_eq h hn
  rw [divT_ok hp.ne' (tdiv_bound hn)] at ht
  have hn' : Fits64 (-r.num) := by
    unfold Fits64 at *
    omega
  have b := tdiv_bound (b := r.den) hn
  rw [i64_ok (by unfold Fits64 at hn; omega), ok_bind, divT_ok hp.ne' (tdiv_bound hn'), ok_bind, Int.neg_tdiv, neg_neg, i64_ok b]
  exact ht

theorem floor_eq {r : R} {q : ℚ} (h : Rep r q) (hn : Fits64 r.num) : floor r = .ok (if 0 ≤ q then ⌊q⌋ else ⌈q⌉) := by
  unfold floor
  by_cases c : r.num ≥ 0
  · rw [if_pos c]
    exact trunc_eq h hn
  · rw [if_neg c]
    exact neg_trunc h hn

theorem ceil_eq {r : R} {q : ℚ} (h : Rep r q) (hn : Fits64 r.num) : ceil r = .ok (if 0 ≤ q then ⌊q⌋ else ⌈q⌉) := by
  unfold ceil
  by_cases c : r.num ≥ 0
  · rw [if_pos c]
    exact neg_trunc h hn
  · rw [if_neg c]
    exact trunc_eq h hn

theorem floor_eq_ceil {q : ℚ} (h : q.den = 1) : ⌊q⌋ = ⌈q⌉ := by
  have : q = (q.num : ℚ) := by
    conv_lhs => rw [← Rat.num_div_den q, h]
    simp
  rw [this, Int.floor_intCast, Int.ceil_intCast]

end Rational
