import Verif.Model.RMQpm1
import Verif.Proof.SparseTableGen
import Mathlib.Algebra.BigOperators.Group.Finset.Basic
import Mathlib.Algebra.BigOperators.Intervals

/-! # Helper lemmas for `RMQpm1`, part 1: the tables -/

namespace RMQpm1
open Cxx Finset

def sg (mn : Bool) (v : Int) : Int := if mn then v else -v

theorem sg_add (mn : Bool) (x y : Int) : sg mn (x + y) = sg mn x + sg mn y := by unfold sg; split <;> omega

theorem ltv_iff (mn : Bool) (x y : Int) : ltv mn x y = true ↔ sg mn x < sg mn y := by
  unfold ltv sg; split <;> simp

/-- The change a bit stands for. -/
def dl (mn b : Bool) : Int := if b = mn then -1 else 1

theorem sg_dl_false (mn : Bool) : sg mn (dl mn false) = 1 := by cases mn <;> rfl
theorem sg_dl_true (mn : Bool) : sg mn (dl mn true) = -1 := by cases mn <;> rfl

/-- The change after `j` bits. -/
def pre (mn : Bool) (s j : Nat) : Int := ∑ i ∈ range j, dl mn (s.testBit i)

theorem pre_succ (mn : Bool) (s j : Nat) : pre mn s (j + 1) = pre mn s j + dl mn (s.testBit j) := Finset.sum_range_succ ..

theorem pre_congr (mn : Bool) {s t : Nat} : ∀ {j : Nat}, (∀ i < j, s.testBit i = t.testBit i) → pre mn s j = pre mn t j := by
  intro j h
  exact Finset.sum_congr rfl fun i hi => by rw [h i (Finset.mem_range.1 hi)]

theorem pre_add (mn : Bool) {s lo up half : Nat} (hl : ∀ i < half, s.testBit i = lo.testBit i) (hu : ∀ i, s.testBit (half + i) = up.testBit i) :
    ∀ j, pre mn s (half + j) = pre mn lo half + pre mn up j := by
  intro j
  unfold pre
  rw [Finset.sum_range_add]
  congr 1
  · exact Finset.sum_congr rfl fun i hi => by rw [hl i (Finset.mem_range.1 hi)]
  · exact Finset.sum_congr rfl fun i _ => by rw [hu i]

def Good (mn : Bool) (n s : Nat) (p : Int) (a : Nat) (sm : Int) : Prop :=
  sm = pre mn s n ∧ a < n ∧ p = pre mn s (a + 1) ∧ ∀ j, j < n → sg mn p ≤ sg mn (pre mn s (j + 1))

theorem Good.combine {mn : Bool} {half s lo up : Nat} {p1 s1 p2 s2 : Int} {a1 a2 : Nat} (hl : ∀ i < half, s.testBit i = lo.testBit i)
    (hu : ∀ i, s.testBit (half + i) = up.testBit i) (h1 : Good mn half lo p1 a1 s1) (h2 : Good mn half up p2 a2 s2) :
    Good mn (half + half) s (pick mn half p1 s1 p2 a1 a2).1 (pick mn half p1 s1 p2 a1 a2).2 (s1 + s2) := by
  obtain ⟨e1, b1, q1, m1⟩ := h1
  obtain ⟨e2, b2, q2, m2⟩ := h2
  have hlow : ∀ j, j ≤ half → pre mn s j = pre mn lo j := fun j hj => pre_congr mn fun i hi => hl i (by omega)
  have hup := pre_add mn hl hu
  have hb : ∀ z : Int, sg mn z ≤ sg mn p1 → sg mn z ≤ sg mn (s1 + p2) → ∀ j, j < half + half → sg mn z ≤ sg mn (pre mn s (j + 1)) := by
    intro z hz1 hz2 j hj
    by_cases hjh : j < half
    · rw [hlow _ (by omega)]; exact le_trans hz1 (m1 j hjh)
    · obtain ⟨i, rfl⟩ : ∃ i, j = half + i := ⟨j - half, by omega⟩
      rw [Nat.add_assoc, hup, sg_add]
      rw [sg_add] at hz2
      have := m2 i (by omega)
      rw [← e1]
      omega
  unfold pick
  split
  next c =>
    rw [ltv_iff] at c
    refine ⟨by rw [hup, e1, e2], by dsimp only; omega, by dsimp only; rw [hlow _ (by omega)]; exact q1, hb _ le_rfl c.le⟩
  next c =>
    rw [ltv_iff] at c
    refine ⟨by rw [hup, e1, e2], by dsimp only; omega, by dsimp only; rw [Nat.add_assoc, hup, e1, q2], hb _ (by dsimp only; omega) le_rfl⟩

def TabAt (mn : Bool) (t : Tabs) (n s : Nat) : Prop := ∃ p a sm, t.prd[s]? = some p ∧ t.arg[s]? = some a ∧ t.sum[s]? = some sm ∧ Good mn n s p a sm

theorem xor_low (s half : Nat) : s ^^^ ((s >>> half) <<< half) = s % 2 ^ half := by
  apply Nat.eq_of_testBit_eq
  intro i
  rw [Nat.testBit_xor, Nat.testBit_shiftLeft, Nat.testBit_shiftRight, Nat.testBit_mod_two_pow]
  by_cases h : half ≤ i
  · rw [show half + (i - half) = i by omega]
    simp [h, show ¬ i < half by omega]
  · simp [h, show i < half by omega]

theorem merge_tot {mn : Bool} {N half s : Nat} {t : Tabs} (h1 : t.prd.size = N) (h2 : t.arg.size = N) (h3 : t.sum.size = N) (hs : s < N) (hs2 : s < 2 ^ (half + half))
    (hlow : ∀ u, u ≤ s → u < 2 ^ half → TabAt mn t half u) :
    Tot (merge mn half s t) fun t' => t'.prd.size = N ∧ t'.arg.size = N ∧ t'.sum.size = N ∧ TabAt mn t' (half + half) s ∧
      ∀ u n, u ≠ s → TabAt mn t n u → TabAt mn t' n u := by
  have hL : s % 2 ^ half < 2 ^ half := Nat.mod_lt _ (Nat.two_pow_pos _)
  have hU : s >>> half < 2 ^ half := by
    rw [Nat.shiftRight_eq_div_pow]
    exact Nat.div_lt_of_lt_mul (by rw [← Nat.pow_add]; exact hs2)
  obtain ⟨p1, a1, s1, g1, g2, g3, G1⟩ := hlow (s % 2 ^ half) (Nat.mod_le _ _) hL
  obtain ⟨p2, a2, s2, g4, g5, g6, G2⟩ := hlow (s >>> half) (Nat.shiftRight_le _ _) hU
  unfold merge
  dsimp only
  rw [xor_low, rd_some g1, ok_bind, rd_some g3, ok_bind, rd_some g4, ok_bind, rd_some g2, ok_bind, rd_some g5, ok_bind, wr_eq (by omega), ok_bind, wr_eq (by omega), ok_bind,
    ok_bind, rd_some g6, ok_bind, wr_eq (by omega), ok_bind]
  refine Tot.pure ⟨by simpa using h1, by simpa using h2, by simpa using h3, ?_, ?_⟩
  · refine ⟨_, _, _, by dsimp only; rw [get?_set _ _ _ _ (by omega), if_pos rfl], by dsimp only; rw [get?_set _ _ _ _ (by omega), if_pos rfl],
      by dsimp only; rw [get?_set _ _ _ _ (by omega), if_pos rfl], Good.combine ?_ ?_ G1 G2⟩
    · intro i hi
      rw [Nat.testBit_mod_two_pow]; simp [hi]
    · intro i
      rw [Nat.testBit_shiftRight]
  · rintro u n hu ⟨p, a, sm, e1, e2, e3, G⟩
    refine ⟨p, a, sm, ?_, ?_, ?_, G⟩ <;> dsimp only <;> rw [get?_set _ _ _ _ (by omega)]
    · rw [if_neg (by omega)]; exact e1
    · rw [if_neg (by omega)]; exact e2
    · rw [if_neg (by omega)]; exact e3

def TabsOk (mn : Bool) (lg : Nat) (t : Tabs) : Prop := ∀ s, s < 2 ^ 2 ^ lg → TabAt mn t (2 ^ lg) s

theorem good_one (mn b : Bool) : Good mn 1 b.toNat (if b = mn then -1 else 1) 0 (if b = mn then -1 else 1) := by
  refine ⟨?_, by omega, ?_, ?_⟩
  · cases mn <;> cases b <;> rfl
  · cases mn <;> cases b <;> rfl
  · intro j hj
    obtain rfl : j = 0 := by omega
    cases mn <;> cases b <;> decide

theorem start_tot (mn : Bool) (lg : Nat) : Tot (start mn lg) fun t => t.prd.size = 2 ^ 2 ^ lg ∧ t.arg.size = 2 ^ 2 ^ lg ∧ t.sum.size = 2 ^ 2 ^ lg ∧
    ∀ s, s < 2 ^ 2 ^ 0 → TabAt mn t (2 ^ 0) s := by
  have hp : 2 ≤ 2 ^ 2 ^ lg := by
    calc 2 = 2 ^ 1 := rfl
      _ ≤ _ := Nat.pow_le_pow_right (by omega) (Nat.one_le_two_pow)
  have h1 : mn.toNat < 2 ^ 2 ^ lg := by have := Bool.toNat_lt mn; omega
  have h2 : (!mn).toNat < 2 ^ 2 ^ lg := by have := Bool.toNat_lt (!mn); omega
  unfold start
  dsimp only
  rw [wr_eq (by simpa using h1), ok_bind, ok_bind, wr_eq (by simpa using h2), ok_bind, ok_bind]
  refine Tot.pure ⟨by simp, by simp, by simp, fun s hs => ?_⟩
  have hb : ∃ b : Bool, s = b.toNat := by
    have : s = 0 ∨ s = 1 := by norm_num at hs; omega
    rcases this with rfl | rfl
    · exact ⟨false, rfl⟩
    · exact ⟨true, rfl⟩
  obtain ⟨b, rfl⟩ := hb
  have hsz : b.toNat < 2 ^ 2 ^ lg := by have := Bool.toNat_lt b; omega
  refine ⟨_, 0, _, ?_, by simp [hsz], ?_, good_one mn b⟩ <;> dsimp only <;> rw [get?_set _ _ _ _ (by simpa using h2), get?_set _ _ _ _ (by simpa using h1)] <;> cases mn <;> cases b <;> simp

theorem tabs_tot (mn : Bool) (lg : Nat) : Tot (tabs mn lg) fun t => t.prd.size = 2 ^ 2 ^ lg ∧ t.arg.size = 2 ^ 2 ^ lg ∧ TabsOk mn lg t := by
  unfold tabs
  refine Tot.bind (start_tot mn lg) fun t ⟨h1, h2, h3, h4⟩ => ?_
  refine (Tot.forUp (P := fun k (t : Tabs) => t.prd.size = 2 ^ 2 ^ lg ∧ t.arg.size = 2 ^ 2 ^ lg ∧ t.sum.size = 2 ^ 2 ^ lg ∧
    ∀ s, s < 2 ^ 2 ^ (k - 1) → TabAt mn t (2 ^ (k - 1)) s) (by omega) ⟨h1, h2, h3, h4⟩ ?_).mono ?_
  · rintro k t hk1 hk2 ⟨g1, g2, g3, g4⟩
    have ek : 2 ^ k = 2 ^ (k - 1) + 2 ^ (k - 1) := by
      rw [← Nat.mul_two, ← Nat.pow_succ]; congr 1; omega
    have eh : 2 ^ k >>> 1 = 2 ^ (k - 1) := by rw [Nat.shiftRight_eq_div_pow]; omega
    have hle : 2 ^ 2 ^ k ≤ 2 ^ 2 ^ lg := Nat.pow_le_pow_right (by omega) (Nat.pow_le_pow_right (by omega) (by omega))
    rw [eh]
    refine (Tot.forDown (P := fun s (t : Tabs) => t.prd.size = 2 ^ 2 ^ lg ∧ t.arg.size = 2 ^ 2 ^ lg ∧ t.sum.size = 2 ^ 2 ^ lg ∧
      (∀ u, u < s → u < 2 ^ 2 ^ (k - 1) → TabAt mn t (2 ^ (k - 1)) u) ∧ ∀ u, s ≤ u → u < 2 ^ 2 ^ k → TabAt mn t (2 ^ k) u) (Nat.zero_le _) ⟨g1, g2, g3, fun u _ h => g4 u h, by omega⟩ ?_).mono ?_
    · rintro s t hs1 hs2 ⟨q1, q2, q3, q4, q5⟩
      refine (merge_tot (half := 2 ^ (k - 1)) q1 q2 q3 (by omega) (by rw [← ek]; exact hs2) fun u hu1 hu2 => q4 u (by omega) hu2).mono ?_
      rintro t' ⟨r1, r2, r3, r4, r5⟩
      refine ⟨r1, r2, r3, fun u hu1 hu2 => r5 u _ (by omega) (q4 u (by omega) hu2), fun u hu1 hu2 => ?_⟩
      by_cases hus : u = s
      · subst hus; rw [ek]; exact r4
      · exact r5 u _ hus (q5 u (by omega) hu2)
    · rintro t ⟨q1, q2, q3, q4, q5⟩
      exact ⟨q1, q2, q3, fun s hs => q5 s (Nat.zero_le _) hs⟩
  · rintro t ⟨g1, g2, g3, g4⟩
    exact ⟨g1, g2, fun s hs => g4 s hs⟩

/-! ### Bits cut out of a block -/

theorem cut_testBit (lg bits l r i : Nat) (hr : r ≤ 2 ^ lg) (hl : l < r) :
    (cut lg bits l r).testBit i = (decide (l + i < r) && bits.testBit (l + i)) := by
  unfold cut
  rw [Nat.testBit_shiftRight, Nat.testBit_mod_two_pow, Nat.testBit_shiftLeft]
  rw [show 2 ^ lg - r + l + i - (2 ^ lg - r) = l + i by omega]
  have e1 : decide (2 ^ lg - r + l + i < 2 ^ lg) = decide (l + i < r) := by
    apply decide_eq_decide.2; omega
  rw [e1]
  have : decide (2 ^ lg - r + l + i ≥ 2 ^ lg - r) = true := decide_eq_true (by omega)
  rw [this, Bool.true_and]

theorem cut_lt (lg bits l r : Nat) : cut lg bits l r < 2 ^ 2 ^ lg :=
  lt_of_le_of_lt (Nat.shiftRight_le _ _) (Nat.mod_lt _ (Nat.two_pow_pos _))

/-- If the bits from `len` on are zero, the best prefix is among the first `len`. -/
theorem Good.arg_lt {mn : Bool} {n s len : Nat} {p sm : Int} {a : Nat} (h : Good mn n s p a sm) (h0 : 0 < len) (hn : len ≤ n) (hz : ∀ i, len ≤ i → s.testBit i = false) : a < len := by
  by_contra hc
  have hinc : ∀ j, len ≤ j → sg mn (pre mn s len) + (j - len : Nat) = sg mn (pre mn s j) := by
    intro j hj
    induction j, hj using Nat.le_induction with
    | base => simp
    | succ j hj ih =>
      rw [pre_succ, sg_add, hz j hj, sg_dl_false, ← ih]
      omega
  have h1 := h.2.2.2 (len - 1) (by omega)
  rw [show len - 1 + 1 = len by omega, h.2.2.1, ← hinc (a + 1) (by omega)] at h1
  omega

end RMQpm1
