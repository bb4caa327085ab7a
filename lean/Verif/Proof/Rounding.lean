import Verif.Spec.Rounding
import Mathlib.Data.Nat.Sqrt
import Mathlib.Tactic.Linarith
import Mathlib.Tactic.Ring
import Mathlib.Tactic.FieldSimp
import Mathlib.Algebra.Order.Floor.Semiring
import Mathlib.Data.Nat.Log

/-! # Truncated floating-point results used by the number headers -/

namespace Rounding

theorem repr_nat {p k : Nat} (h : k < 2 ^ p) : Repr p k := ⟨k, 0, 0, h, by simp⟩

/-- If `x` is not too close below the integer `k + 1`, the nearest number truncates to `k`. -/
theorem floor_nearest {p k e : Nat} {x y : ℝ} (hk : k < 2 ^ p) (h1 : (k : ℝ) ≤ x) (he : (k + 1) * 2 ^ e ≤ 2 ^ p)
    (h2 : x < k + 1 - 1 / 2 ^ (e + 1)) (hy : Nearest p x y) : ⌊y⌋₊ = k := by
  have hpos : (0 : ℝ) < 2 ^ e := by positivity
  have hlow : (k : ℝ) ≤ y := by
    by_contra hn
    have hn := not_le.1 hn
    have := hy.2 _ (repr_nat hk)
    rw [abs_of_neg (by linarith), abs_of_nonpos (by linarith)] at this
    linarith
  have hup : y < k + 1 := by
    by_contra hn
    have hn := not_lt.1 hn
    have hpe : (1 : ℝ) / 2 ^ (e + 1) = 1 / 2 ^ e / 2 := by rw [pow_succ]; field_simp
    have hp2 : (0 : ℝ) < 1 / 2 ^ e := by positivity
    have hge : 1 ≤ (k + 1) * 2 ^ e := Nat.one_le_iff_ne_zero.2 (by positivity)
    have hz : Repr p ((k : ℝ) + 1 - 1 / 2 ^ e) := by
      refine ⟨(k + 1) * 2 ^ e - 1, e, 0, by omega, ?_⟩
      rw [Nat.cast_sub hge]
      push_cast
      field_simp
    have := hy.2 _ hz
    rw [abs_of_nonneg (by rw [hpe] at h2; linarith)] at this
    have h3 : |(k : ℝ) + 1 - 1 / 2 ^ e - x| < k + 1 - x := by
      rw [abs_lt]
      rw [hpe] at h2
      constructor <;> linarith
    linarith
  rw [Nat.floor_eq_iff (le_trans (Nat.cast_nonneg k) hlow)]
  exact ⟨hlow, hup⟩

/-- `(T)sqrtl(n)` is the integer square root when `long double` has a 64-bit significand. -/
theorem sqrtl_trunc {n : Nat} (hn : n < 2 ^ 64) {y : ℝ} (hy : Nearest 64 (Real.sqrt n) y) : ⌊y⌋₊ = Nat.sqrt n := by
  have hlt : Nat.sqrt n < 2 ^ 32 := by
    rw [Nat.sqrt_lt']
    norm_num
    omega
  refine floor_nearest (e := 32) (by omega) ?_ ?_ ?_ hy
  · exact Real.le_sqrt_of_sq_le (by exact_mod_cast Nat.sqrt_le' n)
  · norm_num
    omega
  · rw [Real.sqrt_lt' (by
      have : (0 : ℝ) ≤ (Nat.sqrt n : ℝ) := by positivity
      norm_num
      linarith)]
    have h1 : n + 1 ≤ (Nat.sqrt n + 1) ^ 2 := Nat.succ_le_of_lt (Nat.lt_succ_sqrt' n)
    have h2 : (n : ℝ) + 1 ≤ ((Nat.sqrt n : ℝ) + 1) ^ 2 := by exact_mod_cast h1
    have h3 : (Nat.sqrt n : ℝ) + 1 ≤ 2 ^ 32 := by exact_mod_cast hlt
    nlinarith

/-- `static_cast<T>(static_cast<double>(n) / l)` is the integer quotient for `n < 2^53`. -/
theorem double_div_trunc {n l : Nat} (hn : n < 2 ^ 53) (hl : 0 < l) {y : ℝ} (hy : Nearest 53 ((n : ℝ) / l) y) : ⌊y⌋₊ = n / l := by
  have hle : n / l ≤ n := Nat.div_le_self n l
  obtain ⟨k, hk⟩ : ∃ k, k = n / l := ⟨_, rfl⟩
  rw [← hk] at hle ⊢
  obtain ⟨e, he1, he2⟩ : ∃ e, (k + 1) * 2 ^ e ≤ 2 ^ 53 ∧ 2 ^ 53 < (k + 1) * 2 ^ (e + 1) := by
    have hne : 2 ^ 53 / (k + 1) ≠ 0 := by
      have : 0 < 2 ^ 53 / (k + 1) := Nat.div_pos (by omega) (by omega)
      omega
    refine ⟨Nat.log2 (2 ^ 53 / (k + 1)), ?_, ?_⟩
    · have := Nat.log2_self_le hne
      calc (k + 1) * 2 ^ Nat.log2 (2 ^ 53 / (k + 1)) ≤ (k + 1) * (2 ^ 53 / (k + 1)) := Nat.mul_le_mul_left _ this
        _ ≤ 2 ^ 53 := Nat.mul_div_le _ _
    · have := Nat.lt_log2_self (n := 2 ^ 53 / (k + 1))
      have h2 := (Nat.div_lt_iff_lt_mul (by omega : 0 < k + 1)).1 this
      rwa [Nat.mul_comm] at h2
  have h1 : k * l ≤ n := by rw [hk]; exact Nat.div_mul_le_self n l
  have h2 : n < (k + 1) * l := by rw [hk, Nat.mul_comm]; exact Nat.lt_mul_div_succ n hl
  have hlr : (0 : ℝ) < l := by exact_mod_cast hl
  refine floor_nearest (e := e) (by omega) ?_ he1 ?_ hy
  · rw [le_div_iff₀ hlr]
    exact_mod_cast h1
  · obtain ⟨s, hs⟩ : ∃ s, (k + 1) * l = n + s := ⟨(k + 1) * l - n, by omega⟩
    have hs1 : 1 ≤ s := by omega
    have hkey : l < s * 2 ^ (e + 1) := by
      by_contra hc
      have hc := Nat.le_of_not_lt hc
      have g1 : (k + 1) * (s * 2 ^ (e + 1)) ≤ (k + 1) * l := Nat.mul_le_mul_left _ hc
      have g2 : s * (2 ^ 53 + 1) ≤ s * ((k + 1) * 2 ^ (e + 1)) := Nat.mul_le_mul_left _ he2
      have g3 : (k + 1) * (s * 2 ^ (e + 1)) = s * ((k + 1) * 2 ^ (e + 1)) := by ring
      omega
    have hp : (0 : ℝ) < 2 ^ (e + 1) := by positivity
    rw [div_lt_iff₀ hlr]
    have hs' : ((k : ℝ) + 1) * l = n + s := by exact_mod_cast hs
    have hk' : (l : ℝ) < s * 2 ^ (e + 1) := by exact_mod_cast hkey
    have h5 : (l : ℝ) / 2 ^ (e + 1) < s := by rwa [div_lt_iff₀ hp]
    have h6 : ((k : ℝ) + 1 - 1 / 2 ^ (e + 1)) * l = (k + 1) * l - l / 2 ^ (e + 1) := by ring
    rw [h6, hs']
    linarith

end Rounding
