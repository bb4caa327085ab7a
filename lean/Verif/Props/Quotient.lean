import Verif.Proof.Quotient
import Verif.Proof.Rounding

/-!
# C59, C60: integer roots, quotients
-/

namespace QuotientProps
open Cxx

/-! ## Floating point -/

/-- `sqrtl(n)` rounded to a 64-bit significand and truncated is the integer square root. -/
theorem sqrtl_exact (n : Nat) (hn : n < 2 ^ 64) (y : ℝ) (hy : Rounding.Nearest 64 (Real.sqrt n) y) : ⌊y⌋₊ = Nat.sqrt n := Rounding.sqrtl_trunc hn hy

/-- `static_cast<double>(n) / l` rounded to a 53-bit significand and truncated is the integer quotient, for `n < 2^53`. -/
theorem double_division_exact (n l : Nat) (hn : n < 2 ^ 53) (hl : 0 < l) (y : ℝ) (hy : Rounding.Nearest 53 ((n : ℝ) / l) y) : ⌊y⌋₊ = n / l :=
  Rounding.double_div_trunc hn hl hy

/-- Comparing `powl(r, k)`, rounded to a 64-bit significand, with a 64-bit integer `x` is exact. -/
theorem powl_compare_exact (r k x : Nat) (hx : x < 2 ^ 64) (y : ℝ) (hy : Rounding.Nearest 64 ((r : ℝ) ^ k) y) : (y ≤ x ↔ r ^ k ≤ x) ∧ (y < x ↔ r ^ k < x) := by
  obtain ⟨p, hp⟩ : ∃ p, p = r ^ k := ⟨_, rfl⟩
  have hp' : (r : ℝ) ^ k = (p : ℝ) := by rw [hp]; push_cast; rfl
  rw [hp'] at hy
  rw [← hp]
  have hrep : ∀ z : Nat, z ≤ 2 ^ 64 → Rounding.Repr 64 z := by
    intro z hz
    by_cases e : z = 2 ^ 64
    · exact ⟨1, 0, 64, by norm_num, by rw [e]; norm_num⟩
    · exact ⟨z, 0, 0, by omega, by simp⟩
  have up : ∀ z : Nat, z ≤ 2 ^ 64 → p ≤ z → y ≤ z := by
    intro z hz hpz
    by_contra hc
    have h1 := hy.2 z (hrep z hz)
    have h2 : (p : ℝ) ≤ z := by exact_mod_cast hpz
    rw [abs_of_nonneg (by linarith), abs_of_nonneg (by linarith)] at h1
    linarith
  have down : ∀ z : Nat, z ≤ 2 ^ 64 → z ≤ p → (z : ℝ) ≤ y := by
    intro z hz hpz
    by_contra hc
    have h1 := hy.2 z (hrep z hz)
    have h2 : (z : ℝ) ≤ p := by exact_mod_cast hpz
    rw [abs_of_nonpos (by linarith), abs_of_nonpos (by linarith)] at h1
    linarith
  refine ⟨⟨fun h => ?_, up x (by omega)⟩, ⟨fun h => ?_, fun h => ?_⟩⟩
  · by_contra hc
    have h1 := down (x + 1) (by omega) (by omega)
    push_cast at h1
    linarith
  · by_contra hc
    have h1 := down x (by omega) (by omega)
    linarith
  · have h1 := up (x - 1) (by omega) (by omega)
    rw [Nat.cast_sub (by omega)] at h1
    push_cast at h1
    linarith

example : Rounding.Nearest 64 (Real.sqrt (9 : Nat)) 3 := by
  rw [show ((9 : Nat) : ℝ) = 3 ^ 2 by norm_num, Real.sqrt_sq (by norm_num)]
  exact ⟨⟨3, 0, 0, by norm_num, by norm_num⟩, fun z _ => by simp⟩

/-! ## C59 -/

/-- C59: `floor_kth_root(x, k)` is the largest `r` with `r^k ≤ x`; for `3 ≤ k < 64` provided that the floating-point guess is not too large. -/
theorem floor_kth_root (guess : Nat → Nat → Nat) (x k : Nat) (hk : 1 ≤ k) (hx : x < 2 ^ 64) (hg : 3 ≤ k → k < 64 → guess x k ^ k ≤ x) :
    ∃ r, KthRoot.floorRoot guess x k = .ok r ∧ r ^ k ≤ x ∧ ∀ s, s ^ k ≤ x → s ≤ r := by
  obtain ⟨r, h1, h2, h3⟩ := KthRoot.floor_tot hk hx hg
  refine ⟨r, h1, h2, fun s hs => ?_⟩
  by_contra hc
  have : (r + 1) ^ k ≤ s ^ k := Nat.pow_le_pow_left (by omega) k
  omega

/-- C59: `ceil_kth_root(x, k)` is the least `r` with `x ≤ r^k`. -/
theorem ceil_kth_root (guess : Nat → Nat → Nat) (x k : Nat) (hk : 1 ≤ k) (hx : x < 2 ^ 64) (hg : 3 ≤ k → k < 64 → guess x k ^ k ≤ x) :
    ∃ r, KthRoot.ceilRoot guess x k = .ok r ∧ x ≤ r ^ k ∧ ∀ s, x ≤ s ^ k → r ≤ s := KthRoot.ceil_tot hk hx hg

/-- If the guess exceeds the root, the result is wrong: the loop only counts up. -/
theorem floor_kth_root_high_guess : KthRoot.floorRoot (fun _ _ => 5) 64 3 = .ok 5 := by decide

example : KthRoot.floorRoot (fun _ _ => 3) 100 3 = .ok 4 ∧ KthRoot.ceilRoot (fun _ _ => 3) 100 3 = .ok 5 ∧ KthRoot.floorRoot (fun _ _ => 0) 99 2 = .ok 9 ∧
    KthRoot.ceilRoot (fun _ _ => 0) (2 ^ 63) 64 = .ok 2 := by decide +kernel

/-! ## C60 -/

/-- `q` is one of the values `⌊n / d⌋`, `1 ≤ d ≤ n`. -/
def IsQuotient (n q : Nat) : Prop := ∃ d, 0 < d ∧ d ≤ n ∧ n / d = q

theorem isQuot_iff {n q : Nat} : Quotient.IsQuot n q ↔ IsQuotient n q := by
  constructor
  · rintro ⟨h1, d, h2, rfl⟩
    refine ⟨d, h2, ?_, rfl⟩
    by_contra hc
    rw [Nat.div_eq_of_lt (by omega)] at h1
    omega
  · rintro ⟨d, h1, h2, rfl⟩
    exact ⟨Nat.div_pos h2 h1, d, h1, rfl⟩

/-- C60: `enumerate_quotients(n)` lists exactly the quotients, in increasing order; `quotient_num(n)` is their number. -/
theorem enumerate_quotients (n : Nat) (hn : n < 2 ^ 60) :
    ∃ qs : Array Nat, Quotient.enumerateQuotients n = .ok qs ∧ qs.toList.Pairwise (· < ·) ∧ (∀ q, q ∈ qs ↔ IsQuotient n q) ∧ Quotient.quotientNum n = .ok (qs.size : Int) := by
  refine ⟨_, Quotient.enumerate_eq hn, Quotient.calls_sorted n, fun q => ?_, ?_⟩
  · rw [List.mem_toArray, Quotient.mem_calls, isQuot_iff]
  · rw [Quotient.quotientNum_eq (by omega), List.size_toArray]

/-- C60: `foreach_quotients(n, f)` calls `f` on these values in this order. -/
theorem foreach_quotients (n : Nat) (hn : n < 2 ^ 60) :
    ∃ qs : List Nat, qs.Pairwise (· < ·) ∧ (∀ q, q ∈ qs ↔ IsQuotient n q) ∧
      ∀ {σ : Type} (f : σ → Nat → M σ) (c : σ), Quotient.foreachQuotients n f c = forEach qs c f :=
  ⟨Quotient.calls n, Quotient.calls_sorted n, fun q => by rw [Quotient.mem_calls, isQuot_iff], fun f c => Quotient.foreach_eq hn f c⟩

/-- C60: `quotient_num(n)` does not overflow for any non-negative `long long`. -/
theorem quotient_num (n : Nat) (hn : n < 2 ^ 63) : ∃ qs : List Nat, qs.Nodup ∧ (∀ q, q ∈ qs ↔ IsQuotient n q) ∧ Quotient.quotientNum n = .ok (qs.length : Int) :=
  ⟨Quotient.calls n, (Quotient.calls_sorted n).imp fun h => h.ne, fun q => by rw [Quotient.mem_calls, isQuot_iff], Quotient.quotientNum_eq hn⟩

/-- C60: `quotient_ranges(n)`: consecutive intervals `[l, r]` covering `[1, n]`, each being the set of all `d` with `⌊n / d⌋ = q`. -/
theorem quotient_ranges (n : Nat) (hn : n < 2 ^ 60) :
    ∃ res : Array (Nat × Nat × Nat), Quotient.quotientRanges n = .ok res ∧
      (∀ l r q, (l, r, q) ∈ res → 1 ≤ l ∧ l ≤ r ∧ r ≤ n ∧ ∀ d, 0 < d → (n / d = q ↔ l ≤ d ∧ d ≤ r)) ∧
      (∀ d, 1 ≤ d → d ≤ n → ∃ l r q, (l, r, q) ∈ res ∧ l ≤ d ∧ d ≤ r) ∧
      res.toList.Pairwise fun x y => x.2.1 < y.1 ∧ y.2.2 < x.2.2 := by
  obtain ⟨res, h1, h2, h3, h4, h5⟩ := Quotient.ranges_tot hn
  refine ⟨res, h1, fun l r q h => ?_, fun d hd hdn => ?_, h5⟩
  · obtain ⟨k1, k2⟩ := h2 _ (Array.mem_toList_iff.2 h)
    obtain ⟨k3, k4⟩ := h4 _ (Array.mem_toList_iff.2 h)
    exact ⟨k3, k1, k4, k2⟩
  · obtain ⟨⟨l, r, q⟩, k1, k2⟩ := h3 d hd hdn
    exact ⟨l, r, q, Array.mem_toList_iff.1 k1, k2⟩

/-- Finding: `h` and `m` are `int`s: from `n = 2^60` on `2 * h` overflows. -/
theorem foreach_quotients_overflow (n : Nat) (hn : 2 ^ 60 ≤ n) {σ : Type} (f : σ → Nat → M σ) (c : σ) : Quotient.foreachQuotients n f c = .error .ub :=
  Quotient.foreach_overflow hn f c

/-- C60: `multiple_quotients_ranges(vs)`: consecutive intervals covering `[1, max vs]`, each being the set of all `d` with `⌊vs[i] / d⌋ = qs[i]` for all `i`. -/
theorem multiple_quotients_ranges (vs : Array Nat) (hne : 0 < vs.size) (hlt : ∀ v ∈ vs, v < 2 ^ 63 - 1) :
    ∃ res : Array (Nat × Nat × Array Nat), Quotient.multipleRanges vs = .ok res ∧
      (∀ l r qs, (l, r, qs) ∈ res → 1 ≤ l ∧ l ≤ r ∧ (∃ v ∈ vs, r ≤ v) ∧ qs.size = vs.size ∧
        ∀ d, 0 < d → ((∀ i v : Nat, vs[i]? = some v → qs[i]? = some (v / d)) ↔ l ≤ d ∧ d ≤ r)) ∧
      (∀ d, 1 ≤ d → (∃ v ∈ vs, d ≤ v) → ∃ l r qs, (l, r, qs) ∈ res ∧ l ≤ d ∧ d ≤ r) ∧
      res.toList.Pairwise fun x y => x.2.1 < y.1 := by
  obtain ⟨res, h1, h2, h3, h4⟩ := Quotient.multi_tot vs hne hlt
  obtain ⟨-, m1, m2⟩ := Quotient.le_foldl_max vs.toList 0
  refine ⟨res, h1, fun l r qs h => ?_, fun d hd ⟨v, hv, hdv⟩ => ?_, h4⟩
  · obtain ⟨k1, k2, k3, k4, k5⟩ := h2 _ (Array.mem_toList_iff.2 h)
    refine ⟨k1, k2, ?_, k4, k5⟩
    rcases m2 with m2 | m2
    · dsimp only at k1 k2 k3
      omega
    · exact ⟨_, Array.mem_toList_iff.1 m2, k3⟩
  · obtain ⟨⟨l, r, qs⟩, k1, k2⟩ := h3 d hd (le_trans hdv (m1 v (Array.mem_toList_iff.2 hv)))
    exact ⟨l, r, qs, Array.mem_toList_iff.1 k1, k2⟩

/-- Finding: no values at all is undefined behaviour (`*std::max_element` of an empty range). -/
theorem multiple_quotients_empty_finding : Quotient.multipleRanges #[] = .error .ub := rfl

/-- The last interval of a largest `long long`: `l = r + 1` overflows. -/
theorem multiple_quotients_max_finding : Quotient.multiBody #[2 ^ 63 - 1] (2 ^ 63 - 1) (2 ^ 62, #[]) = .error .ub := by decide +kernel

example : Quotient.enumerateQuotients 10 = .ok #[1, 2, 3, 5, 10] ∧ Quotient.enumerateQuotients 12 = .ok #[1, 2, 3, 4, 6, 12] ∧
    Quotient.quotientRanges 10 = .ok #[(1, 1, 10), (2, 2, 5), (3, 3, 3), (4, 5, 2), (6, 10, 1)] ∧
    Quotient.multipleRanges #[5, 2] = .ok #[(1, 1, #[5, 2]), (2, 2, #[2, 1]), (3, 5, #[1, 0])] := by decide +kernel

end QuotientProps
