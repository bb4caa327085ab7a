import Verif.Proof.BerlekampMassey
import Mathlib.Tactic.IntervalCases
import Mathlib.Tactic.NormNum
import Mathlib.Data.Rat.Defs
import Mathlib.Algebra.Field.Rat

/-!
# The shortest linear recurrence of a sequence
-/

namespace BerlekampMassey
open Cxx Finset

variable {F : Type} [Field F] [DecidableEq F]

/-- The first `n` terms of `u` satisfy the recurrence of length `L` with coefficients `c 1, …, c L`. -/
def Recurrence (u : Nat → F) (n L : Nat) (c : Nat → F) : Prop := ∀ i, L ≤ i → i < n → u i = ∑ j ∈ Icc 1 L, c j * u (i - j)

omit [DecidableEq F] in
theorem disc_iff (u c : Nat → F) (L n : Nat) (h0 : c 0 = 1) : disc u c L n = 0 ↔ u n = ∑ j ∈ Icc 1 L, - c j * u (n - j) := by
  unfold disc
  have : ∑ j ∈ Icc 1 L, - c j * u (n - j) = - ∑ j ∈ range L, c (j + 1) * u (n - (j + 1)) := by
    rw [range_eq_Ico, sum_Ico_add' (fun j => c j * u (n - j)) 0 L 1, ← sum_neg_distrib]
    refine sum_congr ?_ ?_
    · ext x
      simp
    · intro i _
      ring
  rw [this, sum_range_succ', h0, one_mul, Nat.sub_zero, eq_neg_iff_add_eq_zero, add_comm]

/-- `find_linear_recuurence(s)` returns `L + 1` coefficients, the first of which is one, that satisfy `s_i = Σ_{j=1}^{L} c_j s_{i-j}` for all `L ≤ i < |s|`; no
recurrence of `s` is shorter. -/
theorem find_correct (s : Array F) : ∃ r L, find s = .ok r ∧ r.size = L + 1 ∧ r[0]? = some 1 ∧ Recurrence (fun i => s[i]?.getD 0) s.size L (fun i => r[i]?.getD 0) ∧
    ∀ L' c', Recurrence (fun i => s[i]?.getD 0) s.size L' c' → L ≤ L' := by
  obtain ⟨r, hr, L, c, h1, h2, h3, h4, h5, h6⟩ := find_tot s
  refine ⟨r, L, hr, h1, ?_, ?_, ?_⟩
  · have h0 : 0 < r.size := by omega
    unfold val at' at h2
    rw [Array.getElem?_eq_getElem h0] at h2 ⊢
    exact congrArg some h2
  · intro i i1 i2
    have := (disc_iff _ c L i h3).mp (h5 i i1 i2)
    refine this.trans (sum_congr rfl fun j hj => ?_)
    rw [mem_Icc] at hj
    have := h4 j hj.1 hj.2
    rw [← this]
    rfl
  · intro L' c' hc
    refine h6 L' (fun i => if i = 0 then 1 else - c' i) rfl fun n n1 n2 => ?_
    refine (disc_iff _ _ L' n rfl).mpr ((hc n n1 n2).trans (sum_congr rfl fun j hj => ?_))
    rw [mem_Icc] at hj
    rw [if_neg (by omega), neg_neg]
    rfl

/-- The Fibonacci numbers satisfy a recurrence of length two and none that is shorter. -/
example : Recurrence (fun i => (#[(1 : ℚ), 1, 2, 3, 5, 8])[i]?.getD 0) 6 2 (fun _ => 1) := by
  intro i h1 h2
  interval_cases i <;> norm_num [Finset.sum_Icc_succ_top]

/-- If the infinite sequence `u` satisfies a recurrence of length `K` and at least `2 K` terms are given, the recurrence found is satisfied by all of `u`. -/
theorem find_predicts {u : Nat → F} {K : Nat} {c : Nat → F} (hu : ∀ i, K ≤ i → u i = ∑ j ∈ Icc 1 K, c j * u (i - j)) {n : Nat} (hn : 2 * K ≤ n) :
    ∃ r L, find (Array.ofFn fun i : Fin n => u i) = .ok r ∧ r.size = L + 1 ∧ L ≤ K ∧ ∀ i, L ≤ i → u i = ∑ j ∈ Icc 1 L, r[j]?.getD 0 * u (i - j) := by
  obtain ⟨r, L, h1, h2, h3, h4, h5⟩ := find_correct (Array.ofFn fun i : Fin n => u i)
  have hs : ∀ i, i < n → (Array.ofFn fun i : Fin n => u i)[i]?.getD 0 = u i := by
    intro i hi
    simp [hi]
  have hsz : (Array.ofFn fun i : Fin n => u i).size = n := by simp
  rw [hsz] at h4 h5
  have hLK : L ≤ K := by
    refine h5 K c fun i i1 i2 => ?_
    dsimp only
    rw [hs i i2, hu i i1]
    refine sum_congr rfl fun j hj => ?_
    rw [mem_Icc] at hj
    rw [hs (i - j) (by omega)]
  refine ⟨r, L, h1, h2, hLK, ?_⟩
  obtain ⟨a, ha⟩ : ∃ a : Nat → F, a = fun i => if i = 0 then 1 else - (r[i]?.getD 0) := ⟨_, rfl⟩
  have key : ∀ i, L ≤ i → disc u a L i = 0 := by
    intro i
    induction i using Nat.strong_induction_on with
    | _ i ih =>
      intro hi
      by_cases hin : i < n
      · refine (disc_iff _ _ L i (by rw [ha]; rfl)).mpr ?_
        have := h4 i hi hin
        dsimp only at this
        rw [hs i hin] at this
        refine this.trans (sum_congr rfl fun j hj => ?_)
        rw [mem_Icc] at hj
        rw [ha]
        dsimp only
        rw [if_neg (by omega), neg_neg, hs (i - j) (by omega)]
      · by_contra hne
        have := massey (c' := fun i => if i = 0 then 1 else - c i) (L' := K) (fun m m1 m2 => ih m m2 m1) hne rfl fun m m1 m2 => by
          refine (disc_iff _ _ K m rfl).mpr ((hu m m1).trans (sum_congr rfl fun j hj => ?_))
          rw [mem_Icc] at hj
          rw [if_neg (by omega), neg_neg]
        omega
  intro i hi
  refine ((disc_iff _ _ L i (by rw [ha]; rfl)).mp (key i hi)).trans (sum_congr rfl fun j hj => ?_)
  rw [mem_Icc] at hj
  rw [ha]
  dsimp only
  rw [if_neg (by omega), neg_neg]

example : ∀ i, 1 ≤ i → (fun i : Nat => (2 : ℚ) ^ i) i = ∑ j ∈ Icc 1 1, (fun _ => (2 : ℚ)) j * (fun i : Nat => (2 : ℚ) ^ i) (i - j) := by
  intro i hi
  obtain ⟨k, rfl⟩ : ∃ k, i = k + 1 := ⟨i - 1, by omega⟩
  simp [pow_succ, mul_comm]

end BerlekampMassey
