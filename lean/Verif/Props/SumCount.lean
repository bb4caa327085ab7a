import Verif.Proof.SumCount

/-!
# Properties of `library/util/sum_count.hpp`
-/

namespace SumCount
open Cxx Spec

/-- C209: whenever the functions have defined behaviour, they return the numbers of pairs.  For all arguments, also empty ranges, and all
widths of the types. -/
theorem count_correct {tw rw : Nat} {a1 a2 b1 b2 s r : Int} :
    (sumCount tw rw a1 a2 b1 b2 s = .ok r → r = count a1 a2 b1 b2 (· = s)) ∧
    (leq tw rw a1 a2 b1 b2 s = .ok r → r = count a1 a2 b1 b2 (· ≤ s)) ∧
    (lt tw a1 a2 b1 b2 s = .ok r → r = count a1 a2 b1 b2 (· < s)) ∧
    (geq tw rw a1 a2 b1 b2 s = .ok r → r = count a1 a2 b1 b2 (s ≤ ·)) ∧
    (gt tw rw a1 a2 b1 b2 s = .ok r → r = count a1 a2 b1 b2 (s < ·)) :=
  ⟨sumCount_ok, leq_ok, lt_ok, geq_ok, gt_ok⟩

/-- Arguments of absolute value at most `K`. -/
def Small (K a1 a2 b1 b2 s : Int) : Prop :=
  (-K ≤ a1 ∧ a1 ≤ K) ∧ (-K ≤ a2 ∧ a2 ≤ K) ∧ (-K ≤ b1 ∧ b1 ≤ K) ∧ (-K ≤ b2 ∧ b2 ≤ K) ∧ (-K ≤ s ∧ s ≤ K)

theorem ar_of {w : Nat} {M x : Int} (hM : M ≤ 2 ^ (w - 1)) (h1 : -M ≤ x) (h2 : x < M) : ar w x = .ok x := ar_eq (by omega) (by omega)

theorem sq_bound {K M : Int} (hK : 0 ≤ K) (h : 64 * ((K + 1) * (K + 1)) ≤ M) : 64 * (K + 1) ≤ M := by
  have := mul_le_mul_of_nonneg_right (show (1 : Int) ≤ K + 1 by omega) (show (0 : Int) ≤ K + 1 by omega)
  omega

theorem prod_bound {K x y : Int} (hx : 0 ≤ x) (hx' : x ≤ 4 * (K + 1)) (hy : 0 ≤ y) (hy' : y ≤ 8 * (K + 1)) :
    0 ≤ x * y ∧ x * y ≤ 32 * ((K + 1) * (K + 1)) := by
  refine ⟨Int.mul_nonneg hx hy, (Int.mul_le_mul hx' hy' hy (by omega)).trans (le_of_eq (by ring))⟩

theorem sumCount_tot {tw rw : Nat} {K a1 a2 b1 b2 s : Int} (h : Small K a1 a2 b1 b2 s) (ht : 4 * (K + 1) ≤ 2 ^ (tw - 1))
    (hr : 64 * ((K + 1) * (K + 1)) ≤ 2 ^ (rw - 1)) : ∃ r, sumCount tw rw a1 a2 b1 b2 s = .ok r := by
  obtain ⟨h1, h2, h3, h4, h5⟩ := h
  have hr' := sq_bound (by omega) hr
  unfold sumCount
  rw [ar_of ht (by omega) (by omega), ok_bind, ar_of ht (by omega) (by omega), ok_bind, ar_of hr' (by omega) (by omega), ok_bind,
    ar_of hr' (by omega) (by omega), ok_bind]
  exact ⟨_, rfl⟩

theorem leq_tot {tw rw : Nat} {K a1 a2 b1 b2 s : Int} (h : Small K a1 a2 b1 b2 s) (ht : 4 * (K + 1) ≤ 2 ^ (tw - 1))
    (hr : 64 * ((K + 1) * (K + 1)) ≤ 2 ^ (rw - 1)) : ∃ r, leq tw rw a1 a2 b1 b2 s = .ok r ∧ 0 ≤ r ∧ r ≤ 48 * ((K + 1) * (K + 1)) := by
  obtain ⟨h1, h2, h3, h4, h5⟩ := h
  have hr' := sq_bound (by omega) hr
  have hsq : 1 ≤ (K + 1) * (K + 1) := by
    have := Int.mul_le_mul (show (1 : Int) ≤ K + 1 by omega) (show (1 : Int) ≤ K + 1 by omega) (by omega) (by omega)
    omega
  unfold leq
  rw [ar_of hr' (by omega) (by omega), ok_bind, ar_of hr' (by omega) (by omega), ok_bind, ar_of ht (by omega) (by omega), ok_bind,
    ar_of hr' (by omega) (by omega), ok_bind]
  obtain ⟨ra, hra⟩ : ∃ ra, ra = a2 - a1 := ⟨_, rfl⟩
  obtain ⟨rb, hrb⟩ : ∃ rb, rb = b2 - b1 := ⟨_, rfl⟩
  obtain ⟨rs, hrs⟩ : ∃ rs, rs = s - (a1 + b1) := ⟨_, rfl⟩
  rw [← hra, ← hrb, ← hrs]
  by_cases hc : ra < 0 ∨ rb < 0 ∨ rs < 0
  · rw [if_pos hc]
    exact ⟨0, rfl, by omega, by omega⟩
  · rw [if_neg hc, ar_of hr' (by omega) (by omega), ok_bind, ar_of hr' (by omega) (by omega), ok_bind]
    dsimp only
    obtain ⟨t, het⟩ : ∃ t, t = max 0 (min ra (rs - rb) + 1) := ⟨_, rfl⟩
    rw [← het, ar_of hr' (by omega) (by omega), ok_bind, ar_of hr' (by omega) (by omega), ok_bind, ar_of hr' (by omega) (by omega), ok_bind,
      ar_of hr' (by omega) (by omega), ok_bind, ar_of hr' (by omega) (by omega), ok_bind]
    obtain ⟨fr, hfr⟩ : ∃ fr, fr = rs - min ra rs + 1 := ⟨_, rfl⟩
    obtain ⟨tt, htt⟩ : ∃ tt, tt = rs - t + 2 := ⟨_, rfl⟩
    rw [← hfr, ← htt]
    obtain ⟨p1, p2⟩ := prod_bound (K := K) (x := t) (y := rb + 1) (by omega) (by omega) (by omega) (by omega)
    obtain ⟨q1, q2⟩ := prod_bound (K := K) (x := tt - fr) (y := fr + tt - 1) (by omega) (by omega) (by omega) (by omega)
    rw [ar_of hr (by omega) (by omega), ok_bind, ar_of hr' (by omega) (by omega), ok_bind, ar_of hr' (by omega) (by omega), ok_bind,
      ar_of hr' (by omega) (by omega), ok_bind, ar_of hr (by omega) (by omega), ok_bind, Int.tdiv_eq_ediv_of_nonneg q1,
      ar_of hr (by omega) (by omega)]
    exact ⟨_, rfl, by omega, by omega⟩

theorem all_tot {tw rw : Nat} {K a1 a2 b1 b2 s : Int} (h : Small K a1 a2 b1 b2 s) (ht : 4 * (K + 1) ≤ 2 ^ (tw - 1))
    (hr : 64 * ((K + 1) * (K + 1)) ≤ 2 ^ (rw - 1)) : ∃ r, all tw rw a1 a2 b1 b2 = .ok r ∧ 0 ≤ r ∧ r ≤ 32 * ((K + 1) * (K + 1)) := by
  obtain ⟨h1, h2, h3, h4, h5⟩ := h
  obtain ⟨p1, p2⟩ := prod_bound (K := K) (x := max 0 (a2 - a1 + 1)) (y := max 0 (b2 - b1 + 1)) (by omega) (by omega) (by omega) (by omega)
  have hsq1 : 1 ≤ (K + 1) * (K + 1) := by
    have := Int.mul_le_mul (show (1 : Int) ≤ K + 1 by omega) (show (1 : Int) ≤ K + 1 by omega) (by omega) (by omega)
    omega
  unfold all
  rw [ar_of ht (by omega) (by omega), ok_bind, ar_of ht (by omega) (by omega), ok_bind, ar_of ht (by omega) (by omega), ok_bind,
    ar_of ht (by omega) (by omega), ok_bind, ar_of hr (by omega) (by omega)]
  exact ⟨_, rfl, p1, p2⟩

/-- C209: `sum_count` and `sum_count_leq` are defined, hence right, if the squares of the arguments fit into the type of the result. -/
theorem leq_correct {tw rw : Nat} {K a1 a2 b1 b2 s : Int} (h : Small K a1 a2 b1 b2 s) (ht : 4 * (K + 1) ≤ 2 ^ (tw - 1))
    (hr : 64 * ((K + 1) * (K + 1)) ≤ 2 ^ (rw - 1)) :
    sumCount tw rw a1 a2 b1 b2 s = .ok (count a1 a2 b1 b2 (· = s) : Int) ∧ leq tw rw a1 a2 b1 b2 s = .ok (count a1 a2 b1 b2 (· ≤ s) : Int) := by
  obtain ⟨r, hr1⟩ := sumCount_tot h ht hr
  obtain ⟨r', hr2, -⟩ := leq_tot h ht hr
  refine ⟨?_, ?_⟩
  · rw [hr1, sumCount_ok hr1]
  · rw [hr2, leq_ok hr2]

/-- The hypotheses are met by `T = int`, `R = long long` and arguments up to `10^8`. -/
example : Small (10 ^ 8) 0 (10 ^ 5) 0 (10 ^ 5) (3 * 10 ^ 5) ∧ 4 * ((10 : Int) ^ 8 + 1) ≤ 2 ^ (32 - 1) ∧
    64 * (((10 : Int) ^ 8 + 1) * (10 ^ 8 + 1)) ≤ 2 ^ (64 - 1) := by
  unfold Small; omega

/-- C210, violated: `sum_count_lt`, `sum_count_geq` and `sum_count_gt` ignore the type `R` of the result.  With `T = int` and `R = long long`
they overflow where `sum_count_leq` is right. -/
theorem resultType_counterexample :
    lt 32 0 100000 0 100000 300000 = .error .ub ∧ geq 32 64 0 100000 0 100000 300000 = .error .ub ∧
    gt 32 64 0 100000 0 100000 300000 = .error .ub ∧ leq 32 64 0 100000 0 100000 299999 = .ok (100001 * 100001) := by
  decide +kernel

/-- C210, the part that holds: the three functions are right if the squares of the arguments fit into `T`. -/
theorem resultType_partial {tw rw : Nat} {K a1 a2 b1 b2 s : Int} (h : Small K a1 a2 b1 b2 s) (hs : -K < s)
    (ht : 64 * ((K + 1) * (K + 1)) ≤ 2 ^ (tw - 1)) (hw : tw ≤ rw) :
    lt tw a1 a2 b1 b2 s = .ok (count a1 a2 b1 b2 (· < s) : Int) ∧ geq tw rw a1 a2 b1 b2 s = .ok (count a1 a2 b1 b2 (s ≤ ·) : Int) ∧
    gt tw rw a1 a2 b1 b2 s = .ok (count a1 a2 b1 b2 (s < ·) : Int) := by
  have h' := h
  obtain ⟨h1, h2, h3, h4, h5⟩ := h'
  have ht' := sq_bound (by omega) ht
  have hr : 64 * ((K + 1) * (K + 1)) ≤ 2 ^ (rw - 1) := ht.trans (pow_le_pow_right₀ (by omega) (by omega))
  have hsq : 1 ≤ (K + 1) * (K + 1) := by
    have := Int.mul_le_mul (show (1 : Int) ≤ K + 1 by omega) (show (1 : Int) ≤ K + 1 by omega) (by omega) (by omega)
    omega
  obtain ⟨c, hc, c1, c2⟩ := leq_tot (tw := tw) (s := s - 1) ⟨h1, h2, h3, h4, by omega, by omega⟩ (by omega) ht
  obtain ⟨d, hd, d1, d2⟩ := leq_tot (tw := tw) h (by omega) ht
  obtain ⟨n, hn, n1, n2⟩ := all_tot (tw := tw) h (by omega) hr
  have hlt : lt tw a1 a2 b1 b2 s = .ok c := by
    unfold lt
    rw [ar_of ht' (by omega) (by omega), ok_bind, hc]
  have hgeq : geq tw rw a1 a2 b1 b2 s = .ok (n - c) := by
    unfold geq
    rw [hn, ok_bind, hlt, ok_bind, ar_of hr (by omega) (by omega)]
  have hgt : gt tw rw a1 a2 b1 b2 s = .ok (n - d) := by
    unfold gt
    rw [hn, ok_bind, hd, ok_bind, ar_of hr (by omega) (by omega)]
  exact ⟨by rw [hlt, lt_ok hlt], by rw [hgeq, geq_ok hgeq], by rw [hgt, gt_ok hgt]⟩

/-- The hypotheses are met by `long long` and arguments up to `10^8`. -/
example : Small (10 ^ 8) (-5) 7 (-3) (10 ^ 8) 12 ∧ 64 * (((10 : Int) ^ 8 + 1) * (10 ^ 8 + 1)) ≤ 2 ^ (64 - 1) := by
  unfold Small; omega

end SumCount
