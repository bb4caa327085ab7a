import Verif.Proof.DiscreteLog

/-! # Properties of the discrete logarithm -/

namespace DiscreteLog
open Cxx

/-- The documented result: the least exponent `k` with `x ^ k = y` modulo `m`, or `-1` if there is none. -/
def IsLog (m x y : Nat) (r : Int) : Prop :=
  (∃ k : Nat, r = k ∧ x ^ k % m = y % m ∧ ∀ j, j < k → x ^ j % m ≠ y % m) ∨ (r = -1 ∧ ∀ k, x ^ k % m ≠ y % m)

/-- C109: `discrete_logarithm` returns the least logarithm for all moduli below `2 ^ 30`. -/
theorem dlog_correct_partial (m x y : Nat) (hm : 0 < m) (hm2 : m < 2 ^ 30) (hy : y < m) : ∃ r, dlog m x y = .ok r ∧ IsLog m x y r := dlog_tot hm hm2 hy

example : ∃ r, dlog 12 2 8 = .ok r ∧ IsLog 12 2 8 r := dlog_correct_partial _ _ _ (by omega) (by omega) (by omega)

example : dlog 12 2 8 = .ok 3 ∧ dlog 12 2 5 = .ok (-1) ∧ dlog 7 3 6 = .ok 3 ∧ dlog 24 10 16 = .ok 3 := by decide +kernel

/-- C109: for the moduli from `2 ^ 30` on, `discrete_logarithm` is undefined: `floor_log2` shifts an `int` by 32. -/
theorem dlog_large_modulus (m x y : Nat) (hm : 2 ^ 30 ≤ m) : dlog m x y = .error .ub := by
  unfold dlog
  rw [if_neg (by omega), floorLog2_ub hm, err_bind]

/-- The claim for all moduli of `int` is false. -/
theorem dlog_correct_false : ¬ ∀ m x y : Nat, 0 < m → m < 2 ^ 31 → x < m → y < m → ∃ r, dlog m x y = .ok r ∧ IsLog m x y r := by
  intro h
  obtain ⟨r, hr, _⟩ := h (2 ^ 30) 3 9 (by omega) (by omega) (by omega) (by omega)
  rw [dlog_large_modulus _ _ _ (le_refl _)] at hr
  cases hr

/-- C109: `discrete_logarithm_coprime` returns the least logarithm whenever `x` is zero or coprime to the modulus, for all moduli of `int`. -/
theorem coprime_correct (m x y : Nat) (hm : 0 < m) (hm2 : m < 2 ^ 31) (hx : x < m) (hy : y < m) (hc : x = 0 ∨ Nat.Coprime x m) : ∃ r, coprime m x y = .ok r ∧ IsLog m x y r :=
  coprime_tot hm hm2 hx hy hc

example : ∃ r, coprime 2147483647 3 5 = .ok r ∧ IsLog 2147483647 3 5 r := coprime_correct _ _ _ (by omega) (by omega) (by omega) (by omega) (Or.inr (by decide +kernel))

/-- C109: in all other cases, unless `y` is one, an assertion fails. -/
theorem coprime_assertion (m x y : Nat) (hy : y ≠ 1) (hx : 0 < x) (hc : ¬ Nat.Coprime x m) : coprime m x y = .error .assertion := by
  refine coprime_fails hy ?_ (by omega) hc
  rintro rfl
  exact hc (Nat.coprime_one_right x)

example : coprime 12 2 8 = .error .assertion := coprime_assertion _ _ _ (by omega) (by omega) (by decide)

end DiscreteLog
