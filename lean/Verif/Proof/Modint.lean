import Verif.Model.Modint
import Verif.Proof.ModArith
import Verif.Proof.ModSqrt
import Mathlib.FieldTheory.Finite.Basic
import Mathlib.Tactic.Linarith

/-! # Proofs about `modint` -/

namespace Modint
open Cxx

theorem safeMod_eq (x : Int) {m : Int} (hm : 0 < m) : safeMod x m = x % m := ModSqrt.norm_eq x hm

theorem L_eq {m : Nat} (hm : 2 ≤ m) (hm' : m < 2 ^ 32) : L m < 2 ^ 128 ∧ 2 ^ 96 ≤ L m ∧ ∃ e < m, L m * m = 2 ^ 128 + e := by
  unfold L
  have h1 : (2 ^ 128 - 1) / m + 1 < 2 ^ 128 := by
    have : (2 ^ 128 - 1) / m ≤ (2 ^ 128 - 1) / 2 := Nat.div_le_div_left hm (by norm_num)
    omega
  rw [Nat.mod_eq_of_lt h1]
  have h2 := Nat.div_add_mod (2 ^ 128 - 1) m
  have h3 := Nat.mod_lt (2 ^ 128 - 1) (show 0 < m by omega)
  refine ⟨h1, ?_, m - 1 - (2 ^ 128 - 1) % m, by omega, ?_⟩
  · have : (2 ^ 128 - 1) / 2 ^ 32 ≤ (2 ^ 128 - 1) / m := Nat.div_le_div_left hm'.le (by omega)
    omega
  · rw [Nat.add_mul, Nat.mul_comm ((2 ^ 128 - 1) / m)]
    omega

theorem quo_eq {m c : Nat} (hm : 2 ≤ m) (hm' : m < 2 ^ 32) (hc : c < 2 ^ 64) : c * L m / 2 ^ 128 = c / m := by
  obtain ⟨hL1, hL2, e, he, hL⟩ := L_eq hm hm'
  generalize L m = l at hL1 hL2 hL
  obtain ⟨k, hk⟩ : ∃ k, k = c / m := ⟨_, rfl⟩
  rw [← hk]
  have h1 := Nat.div_add_mod c m
  have h2 := Nat.mod_lt c (show 0 < m by omega)
  rw [← hk] at h1
  generalize c % m = s at h1 h2
  rw [Nat.div_eq_iff (by norm_num)]
  have hke : (k + 1) * e ≤ (k + 1) * m := Nat.mul_le_mul_left _ he.le
  have hkm : (k + 1) * m = m * k + m := by ring
  have e1 : c * l + (m - s) * l = (k + 1) * (2 ^ 128 + e) := by
    rw [← hL, ← Nat.add_mul, show c + (m - s) = m * k + m by omega]
    ring
  have e2 : l ≤ (m - s) * l := Nat.le_mul_of_pos_left _ (by omega)
  have e3 : k * (2 ^ 128 + e) ≤ c * l := by
    rw [← hL, ← h1]
    calc k * (l * m) = (m * k) * l := by ring
      _ ≤ (m * k + s) * l := Nat.mul_le_mul_right _ (by omega)
  have e4 : k * (2 ^ 128 + e) = k * 2 ^ 128 + k * e := by ring
  have e5 : (k + 1) * (2 ^ 128 + e) = k * 2 ^ 128 + 2 ^ 128 + (k + 1) * e := by ring
  constructor
  · omega
  · omega

theorem rem_eq {care : Bool} {m c : Nat} (hm : 1 ≤ m) (hm' : m < 2 ^ 32) (hc : c < 2 ^ 64) (h1 : care = true ∨ 2 ≤ m ∨ c = 0) : rem care m c = c % m := by
  unfold rem
  by_cases h : care = true ∧ m = 1
  · rw [if_pos h, h.2, Nat.mod_one]
  rw [if_neg h]
  by_cases hm1 : m = 1
  · have hc0 : c = 0 := by
      rcases h1 with h1 | h1 | h1
      · exact absurd ⟨h1, hm1⟩ h
      · omega
      · exact h1
    subst hc0 hm1
    simp
  have hm2 : 2 ≤ m := by omega
  have hq := quo_eq hm2 hm' hc
  obtain ⟨hL1, -, -⟩ := L_eq hm2 hm'
  dsimp only
  generalize L m = l at hq hL1
  obtain ⟨u, hu⟩ : ∃ u, u = l / 2 ^ 64 := ⟨_, rfl⟩
  obtain ⟨d, hd⟩ : ∃ d, d = l % 2 ^ 64 := ⟨_, rfl⟩
  have hl : l = u * 2 ^ 64 + d := by omega
  have hu' : u < 2 ^ 64 := by omega
  have hd' : d < 2 ^ 64 := by omega
  rw [← hu, ← hd]
  have b1 : c * u < 2 ^ 128 := by
    have := Nat.mul_le_mul (show c ≤ 2 ^ 64 - 1 by omega) (show u ≤ 2 ^ 64 - 1 by omega)
    omega
  have b2 : c * d < 2 ^ 128 := by
    have := Nat.mul_le_mul (show c ≤ 2 ^ 64 - 1 by omega) (show d ≤ 2 ^ 64 - 1 by omega)
    omega
  rw [Nat.mod_eq_of_lt b1, Nat.mod_eq_of_lt b2]
  have e1 : c * l = c * u * 2 ^ 64 + c * d := by rw [hl]; ring
  rw [e1] at hq
  generalize c * u = A at hq b1
  generalize c * d = B at hq b2
  have hq' : A / 2 ^ 64 + (A % 2 ^ 64 + B / 2 ^ 64) / 2 ^ 64 = c / m := by omega
  have hdm := Nat.div_add_mod c m
  have hlt := Nat.mod_lt c (show 0 < m by omega)
  have hcm : c / m * m = m * (c / m) := Nat.mul_comm _ _
  have hbig : m * (c / m) ≤ c := by omega
  by_cases hcar : A % 2 ^ 64 > 2 ^ 64 - 1 - B / 2 ^ 64
  · rw [if_pos hcar]
    have hqq : A / 2 ^ 64 + 1 = c / m := by omega
    have : A / 2 ^ 64 * m + m = m * (c / m) := by rw [← hqq]; ring
    generalize A / 2 ^ 64 * m = w at this
    rw [Nat.mod_eq_of_lt (show w < 2 ^ 64 by omega)]
    omega
  · rw [if_neg hcar]
    have hqq : A / 2 ^ 64 = c / m := by omega
    have : A / 2 ^ 64 * m = m * (c / m) := by rw [← hqq]; ring
    generalize A / 2 ^ 64 * m = w at this
    rw [Nat.mod_eq_of_lt (show w < 2 ^ 64 by omega)]
    omega

section
variable {dyn : Bool} {m : Nat} (hm : 1 ≤ m) (hm' : m < 2 ^ 31)
include hm hm'

theorem ofInt_eq {v : Int} (hv : v < 2 ^ 64) : ((ofInt dyn m v : Nat) : Int) = v % m := by
  unfold ofInt
  have h0 : (0 : Int) < m := by omega
  have h1 := Int.emod_nonneg v (show (m : Int) ≠ 0 by omega)
  rw [safeMod_eq v h0]
  cases dyn with
  | false => rw [if_neg (by simp)]; omega
  | true =>
    rw [if_pos rfl]
    split
    · omega
    · rename_i hn
      rw [rem_eq hm (by omega) (by omega) (Or.inl rfl)]
      push_cast
      rw [Int.toNat_of_nonneg (by omega)]

theorem ofInt_lt {v : Int} (hv : v < 2 ^ 64) : ofInt dyn m v < m := by
  have h1 := ofInt_eq (dyn := dyn) hm hm' hv
  have h2 := Int.emod_lt_of_pos v (show (0 : Int) < m by omega)
  omega

theorem ofInt_one : ofInt dyn m 1 = 1 % m := by
  have h1 := ofInt_eq (dyn := dyn) hm hm' (v := 1) (by norm_num)
  have : ((1 : Int) % m) = ((1 % m : Nat) : Int) := by push_cast; rfl
  omega

theorem ofInt_zero : ofInt dyn m 0 = 0 := by
  have h1 := ofInt_eq (dyn := dyn) hm hm' (v := 0) (by norm_num)
  rw [Int.zero_emod] at h1
  omega

theorem ofNat_eq {v : Nat} (hv : v < 2 ^ 64) : ofNat dyn m v = v % m := by
  unfold ofNat
  cases dyn with
  | false => rfl
  | true => rw [if_pos rfl, rem_eq hm (by omega) hv (Or.inl rfl)]

theorem inc_eq {a : Nat} (ha : a < m) : inc m a = (a + 1) % m := by
  unfold inc
  dsimp only
  rw [Nat.mod_eq_of_lt (show a + 1 < 2 ^ 32 by omega)]
  split
  · rename_i e; rw [e, Nat.mod_self]
  · rw [Nat.mod_eq_of_lt (by omega)]

theorem dec_eq {a : Nat} (ha : a < m) : ((dec m a : Nat) : Int) = ((a : Int) - 1) % m := by
  unfold dec
  dsimp only
  split
  · rename_i e
    subst e
    have : ((0 : Nat) : Int) - 1 = ((m : Int) - 1) - m := by omega
    rw [this, Int.sub_emod_right, Int.emod_eq_of_lt (by omega) (by omega)]
    omega
  · rw [Int.emod_eq_of_lt (by omega) (by omega)]
    omega

theorem add_eq {a b : Nat} (ha : a < m) (hb : b < m) : add m a b = (a + b) % m := by
  unfold add
  dsimp only
  rw [Nat.mod_eq_of_lt (show a + b < 2 ^ 32 by omega)]
  split
  · rename_i h
    rw [Nat.mod_eq_sub_mod h, Nat.mod_eq_of_lt (by omega)]
  · rw [Nat.mod_eq_of_lt (by omega)]

theorem sub_eq {a b : Nat} (ha : a < m) (hb : b < m) : ((sub m a b : Nat) : Int) = ((a : Int) - b) % m := by
  unfold sub
  dsimp only
  by_cases h : b ≤ a
  · rw [Int.emod_eq_of_lt (by omega) (by omega), if_neg (by omega)]
    omega
  · have : (a : Int) - b = ((a : Int) - b + m) - m := by omega
    rw [this, Int.sub_emod_right, Int.emod_eq_of_lt (by omega) (by omega), if_pos (by omega)]
    omega

theorem neg_eq {a : Nat} (ha : a < m) : ((neg m a : Nat) : Int) = (-(a : Int)) % m := by
  unfold neg
  split
  · rename_i e; subst e; simp
  · have : -(a : Int) = ((m : Int) - a) - m := by omega
    rw [this, Int.sub_emod_right, Int.emod_eq_of_lt (by omega) (by omega)]
    omega

theorem mul_eq {a b : Nat} (ha : a < m) (hb : b < m) : mul dyn m a b = a * b % m := by
  unfold mul
  have h1 : a * b < 2 ^ 64 := by
    have := Nat.mul_le_mul (show a ≤ 2 ^ 31 by omega) (show b ≤ 2 ^ 31 by omega)
    omega
  rw [Nat.mod_eq_of_lt h1]
  cases dyn with
  | false => rfl
  | true =>
    rw [if_pos rfl, rem_eq hm (by omega) h1]
    by_cases h : 2 ≤ m
    · exact Or.inr (Or.inl h)
    · have : a = 0 := by omega
      subst this
      simp

theorem mul_lt {a b : Nat} (ha : a < m) (hb : b < m) : mul dyn m a b < m := by
  rw [mul_eq hm hm' ha hb]
  exact Nat.mod_lt _ (by omega)

theorem pow_eq {a : Nat} (ha : a < m) {n : Int} (hn : 0 ≤ n) : pow dyn m a n = .ok (a ^ n.toNat % m) := by
  unfold pow
  rw [decide_eq_true hn, check_true, ok_bind, ← tot_eq]
  refine Powi.powi_tot (fun t k => t = a ^ k % m) ?_ ?_ n.toNat ?_
  · rw [pow_zero]; exact ofInt_one hm hm'
  · rw [pow_one, Nat.mod_eq_of_lt ha]
  · rintro x y i j - rfl rfl
    refine Tot.pure ?_
    show mul dyn m _ _ = _
    rw [mul_eq hm hm' (Nat.mod_lt _ (by omega)) (Nat.mod_lt _ (by omega)), ← Nat.mul_mod, ← pow_add]

theorem pow_neg (a : Nat) {n : Int} (hn : n < 0) : pow dyn m a n = .error .assertion := by
  unfold pow
  rw [decide_eq_false (by omega)]
  rfl

end

/-! ### `inv_gcd` -/

structure GInv (m a : Int) (x : Vars) : Prop where
  t0 : 0 ≤ x.t
  ts : x.t < x.s
  sm : x.s ≤ m
  d0 : m ∣ x.s - x.m0 * a
  d1 : m ∣ x.t - x.m1 * a
  bd : x.s * |x.m1| + x.t * |x.m0| ≤ m
  b0 : |x.m0| ≤ m
  g : Int.gcd x.s x.t = Int.gcd a m

theorem gcdStep_tot {m a : Int} (hm : m < 2 ^ 31) {x : Vars} (h : GInv m a x) (ht : x.t ≠ 0) :
    Tot (gcdStep x) fun r => match r with
      | none => False
      | some y => GInv m a y ∧ y.t.toNat < x.t.toNat := by
  obtain ⟨s, t, m0, m1⟩ := x
  obtain ⟨h1, h2, h3, h4, h5, h6, h7, h8⟩ := h
  dsimp only at h1 h2 h3 h4 h5 h6 h7 h8 ht ⊢
  have htp : 0 < t := by omega
  unfold gcdStep
  dsimp only
  rw [if_neg ht, Int.tdiv_eq_ediv_of_nonneg (by omega)]
  have hdm := Int.mul_ediv_add_emod s t
  have hr0 := Int.emod_nonneg s ht
  have hr1 := Int.emod_lt_of_pos s htp
  have hu0 : 0 ≤ s / t := Int.ediv_nonneg (by omega) (by omega)
  have hus : s / t ≤ s := Int.ediv_le_self _ (by omega)
  obtain ⟨u, hu⟩ : ∃ u, u = s / t := ⟨_, rfl⟩
  rw [← hu] at hdm hu0 hus ⊢
  have htu : t * u = s - s % t := by omega
  have a0 := abs_nonneg m0
  have a1 := abs_nonneg m1
  have k1 : |m1| * u ≤ m := by nlinarith
  have k2 : |m1 * u| ≤ m := by rw [abs_mul, abs_of_nonneg hu0]; exact k1
  have k3 : |m0 - m1 * u| ≤ |m0| + |m1| * u := by
    have := abs_sub m0 (m1 * u)
    rw [abs_mul, abs_of_nonneg hu0] at this
    exact this
  have k4 : t * |m0 - m1 * u| + (s % t) * |m1| ≤ m := by
    have : t * |m0 - m1 * u| ≤ t * (|m0| + |m1| * u) := by nlinarith
    have e : s % t = s - t * u := by omega
    rw [e]
    nlinarith
  have k5 : |m1| ≤ m := by nlinarith
  have k6 : |m0 - m1 * u| ≤ m := by
    have : 0 ≤ (s % t) * |m1| := mul_nonneg hr0 a1
    have := abs_nonneg (m0 - m1 * u)
    nlinarith
  have q2 := abs_le.1 k2
  have q6 := abs_le.1 k6
  rw [i64_ok (by constructor <;> omega), ok_bind, i64_ok (by constructor <;> omega), ok_bind, i64_ok (by constructor <;> omega), ok_bind,
    i64_ok (by constructor <;> omega), ok_bind]
  refine ⟨_, rfl, ⟨?_, ?_, ?_, ?_, ?_, ?_, ?_, ?_⟩, ?_⟩ <;> dsimp only
  · omega
  · omega
  · omega
  · exact h5
  · have : s - t * u - (m0 - m1 * u) * a = (s - m0 * a) - u * (t - m1 * a) := by ring
    rw [this]
    exact dvd_sub h4 (Dvd.dvd.mul_left h5 u)
  · have e : s - t * u = s % t := by omega
    rw [e]; exact k4
  · exact k5
  · have e : s - t * u = s + t * (-u) := by ring
    rw [e, Int.gcd_add_mul_left_right, Int.gcd_comm, h8]
  · omega

end Modint
