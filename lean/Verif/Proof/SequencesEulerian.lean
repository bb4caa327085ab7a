import Verif.Spec.Sequences
import Mathlib.Data.Nat.Choose.Sum
import Mathlib.Algebra.BigOperators.Intervals
import Mathlib.Algebra.BigOperators.Ring.Finset
import Mathlib.Tactic.Ring
import Mathlib.Tactic.LinearCombination
import Mathlib.Tactic.Linarith

namespace Sequences

theorem descents_le : ∀ l : List Nat, descents l ≤ l.length ∧ (l ≠ [] → descents l < l.length)
  | [] => by simp [descents]
  | [_] => by simp [descents]
  | a :: b :: l => by
    have := (descents_le (b :: l)).2 (by simp)
    simp only [descents, List.length_cons] at this ⊢
    constructor
    · split <;> omega
    · intro _; split <;> omega

theorem desc_insert (t : Nat) : ∀ l : List Nat, (∀ x ∈ l, x < t) →
    ((l.permutations'Aux t).map descents).Perm (List.replicate (descents l + 1) (descents l) ++ List.replicate (l.length - descents l) (descents l + 1))
  | [], _ => by simp [descents]
  | [y], h => by
    have : y < t := h y (by simp)
    have h2 : ¬ t < y := by omega
    simp [descents, this, h2, List.permutations'Aux]
    exact List.Perm.swap _ _ _
  | y :: z :: zs, h => by
    have ih := desc_insert t (z :: zs) (fun x hx => h x (List.mem_cons_of_mem _ hx))
    have hy : y < t := h y (by simp)
    have hz : z < t := h z (by simp)
    have hy' : ¬ t < y := by omega
    have hle := (descents_le (z :: zs)).2 (by simp)
    obtain ⟨d, hd⟩ : ∃ d, d = descents (z :: zs) := ⟨_, rfl⟩
    obtain ⟨m, hm⟩ : ∃ m, m = (z :: zs).length := ⟨_, rfl⟩
    have hm' : (y :: z :: zs).length = m + 1 := by rw [hm]; rfl
    rw [← hd, ← hm] at ih hle
    rw [hm']
    have e0 : descents (t :: z :: zs) = d + 1 := by simp only [descents, if_pos hz, ← hd]; omega
    have e1 : (List.permutations'Aux t (z :: zs)) = (t :: z :: zs) :: (List.permutations'Aux t zs).map (List.cons z) := rfl
    have e2 : (List.permutations'Aux t (y :: z :: zs)) = (t :: y :: z :: zs) :: (y :: t :: z :: zs) :: ((List.permutations'Aux t zs).map (List.cons z)).map (List.cons y) := rfl
    rw [e1, List.map_cons, e0] at ih
    rw [e2, List.map_cons, List.map_cons]
    have e3 : descents (y :: t :: z :: zs) = d + 1 := by
      rw [show descents (y :: t :: z :: zs) = (if t < y then 1 else 0) + descents (t :: z :: zs) from rfl, if_neg hy', e0]; omega
    rw [e3]
    obtain ⟨c, hc⟩ : ∃ c, c = (if z < y then 1 else 0) := ⟨_, rfl⟩
    have e4 : descents (y :: z :: zs) = c + d := by rw [hc, hd]; rfl
    have e5 : descents (t :: y :: z :: zs) = c + d + 1 := by
      rw [show descents (t :: y :: z :: zs) = (if y < t then 1 else 0) + descents (y :: z :: zs) from rfl, if_pos hy, e4]; omega
    rw [e4, e5]
    have e6 : (((List.permutations'Aux t zs).map (List.cons z)).map (List.cons y)).map descents = (((List.permutations'Aux t zs).map (List.cons z)).map descents).map (fun x => c + x) := by
      simp only [List.map_map]
      apply List.map_congr_left
      intro w _
      simp only [Function.comp, descents, hc]
    rw [e6]
    generalize ((List.permutations'Aux t zs).map (List.cons z)).map descents = R at ih
    by_cases hlt : z < y
    · rw [if_pos hlt] at hc
      subst hc
      have := ih.map (fun x => 1 + x)
      simp only [List.map_cons, List.map_append, List.map_replicate] at this
      have q : (1 + d + 1) :: (d + 1) :: R.map (fun x => 1 + x) |>.Perm ((d + 1) :: (1 + (d + 1)) :: R.map (fun x => 1 + x)) := by
        rw [show 1 + d + 1 = 1 + (d + 1) by omega]
        exact List.Perm.swap _ _ _
      refine q.trans ((this.cons _).trans ?_)
      rw [show m + 1 - (1 + d) = m - d by omega, show 1 + d + 1 = 1 + (d + 1) by omega, Nat.add_comm 1 (d + 1), Nat.add_comm 1 d, List.replicate_succ (n := d + 1)]
      exact List.Perm.refl _
    · rw [if_neg hlt] at hc
      subst hc
      simp only [Nat.zero_add, List.map_id']
      refine (ih.cons _).trans ?_
      rw [show m + 1 - d = (m - d) + 1 by omega, List.replicate_succ (n := m - d)]
      exact List.perm_middle.symm

theorem eulerian_eq (n k : Nat) : eulerianNumber n k = ((List.range n).reverse.permutations').countP fun l => descents l = k := by
  unfold eulerianNumber
  refine List.Perm.countP_eq _ ?_
  exact (List.Perm.permutations (List.reverse_perm _).symm).trans (List.permutations_perm_permutations' _)

theorem count_flat (k m : Nat) (t : Nat) : ∀ P : List (List Nat), (∀ l ∈ P, l.length = m ∧ ∀ x ∈ l, x < t) →
    (P.flatMap (List.permutations'Aux t)).countP (fun l => descents l = k) =
      (k + 1) * P.countP (fun l => descents l = k) + (if k = 0 then 0 else (m + 1 - k) * P.countP (fun l => descents l = k - 1))
  | [], _ => by simp
  | l :: P, h => by
    have ih := count_flat k m t P (fun l hl => h l (List.mem_cons_of_mem _ hl))
    obtain ⟨hl, hx⟩ := h l (by simp)
    rw [List.flatMap_cons, List.countP_append, ih]
    have e : (List.permutations'Aux t l).countP (fun l => descents l = k) = ((List.permutations'Aux t l).map descents).countP (fun x => x = k) := by
      rw [List.countP_map]; rfl
    rw [e, (desc_insert t l hx).countP_eq, List.countP_append, List.countP_replicate, List.countP_replicate, List.countP_cons, List.countP_cons, hl]
    by_cases h0 : k = 0
    · subst h0
      by_cases h1 : descents l = 0
      · simp [h1]; omega
      · simp [h1]
    · rw [if_neg h0, if_neg h0]
      by_cases h1 : descents l = k
      · have h2 : ¬ descents l = k - 1 := by omega
        have h3 : ¬ (descents l + 1 = k) := by omega
        simp [h1, h2]
        ring_nf
        have : ¬ k = k - 1 := by omega
        simp [this]
      · by_cases h3 : descents l + 1 = k
        · have h2 : descents l = k - 1 := by omega
          have h4 : ¬ (k - 1 = k) := by omega
          simp only [h1, h3, h2, decide_true, decide_false, if_true, h4]
          have h5 : k - 1 + 1 = k := by omega
          simp [h5]
          have h6 : m - (k - 1) = m + 1 - k := by omega
          rw [h6]
          ring
        · have h2 : ¬ descents l = k - 1 := by omega
          simp [h1, h2, h3]

theorem eulerian_rec (n k : Nat) : eulerianNumber (n + 1) k = (k + 1) * eulerianNumber n k + (if k = 0 then 0 else (n + 1 - k) * eulerianNumber n (k - 1)) := by
  simp only [eulerian_eq, List.range_succ, List.reverse_append, List.reverse_cons, List.reverse_nil, List.nil_append, List.singleton_append]
  show (List.flatMap _ _).countP _ = _
  refine count_flat k n n _ ?_
  intro l hl
  have hp := List.mem_permutations'.1 hl
  refine ⟨by rw [hp.length_eq]; simp, ?_⟩
  intro x hx
  have := hp.mem_iff.1 hx
  simpa using this

theorem eulerian_zero (k : Nat) : eulerianNumber 0 k = if k = 0 then 1 else 0 := by
  rw [eulerian_eq]
  by_cases h : k = 0
  · subst h; rfl
  · rw [if_neg h]
    have : ¬ (0 = k) := fun e => h e.symm
    simp [descents, this]

theorem eulerian_ge : ∀ n k : Nat, n ≤ k → 0 < k → eulerianNumber n k = 0
  | 0, k, _, h => by rw [eulerian_zero, if_neg (by omega)]
  | n + 1, k, h, h0 => by
    rw [eulerian_rec, if_neg (by omega), eulerian_ge n k (by omega) h0]
    have : n + 1 - k = 0 := by omega
    rw [this]
    simp

theorem eulerian_left : ∀ n : Nat, eulerianNumber n 0 = 1
  | 0 => by rw [eulerian_zero, if_pos rfl]
  | n + 1 => by rw [eulerian_rec, if_pos rfl, eulerian_left n]

theorem eulerian_symm : ∀ n k : Nat, k < n → eulerianNumber n (n - 1 - k) = eulerianNumber n k
  | 0, k, h => by omega
  | n + 1, k, h => by
    rw [eulerian_rec, eulerian_rec]
    rw [show n + 1 - 1 - k = n - k by omega]
    by_cases hk : k = n
    · subst hk
      rw [Nat.sub_self, if_pos rfl]
      by_cases h0 : k = 0
      · rw [if_pos h0, h0]
      · rw [if_neg h0, eulerian_ge k k (le_refl _) (by omega), eulerian_left]
        have := eulerian_symm k (k - 1) (by omega)
        rw [show k - 1 - (k - 1) = 0 by omega, eulerian_left] at this
        rw [← this]
        have : k + 1 - k = 1 := by omega
        rw [this]
        simp
    · rw [if_neg (by omega), show n - k - 1 = n - 1 - k by omega, eulerian_symm n k (by omega)]
      by_cases h0 : k = 0
      · subst h0
        rw [if_pos rfl, show n - 0 = n by omega, eulerian_ge n n (le_refl _) (by omega), eulerian_left]
        have : n + 1 - n = 1 := by omega
        rw [this]
        simp
      · rw [if_neg h0]
        have := eulerian_symm n (k - 1) (by omega)
        rw [show n - 1 - (k - 1) = n - k by omega] at this
        rw [this, show n + 1 - (n - k) = k + 1 by omega, show n - k + 1 = n + 1 - k by omega]
        ring

open Finset in
theorem eulerian_formula (n k : Nat) : (eulerianNumber n k : Int) = ∑ i ∈ range (k + 1), (-1) ^ i * ((n + 1).choose i : Int) * ((k : Int) + 1 - i) ^ n := by
  induction n generalizing k with
  | zero =>
    rw [eulerian_zero]
    rcases k with _ | k
    · simp
    · rw [if_neg (by omega), sum_range_succ', sum_range_succ']
      rw [sum_eq_zero]
      · simp
      · intro i _
        rw [Nat.choose_eq_zero_of_lt (by omega)]
        simp
  | succ n ih =>
    rw [eulerian_rec]
    rcases k with _ | k
    · rw [if_pos rfl, eulerian_left]; simp
    · rw [if_neg (by omega)]
      have hk : ((n + 1 - (k + 1) : Nat) : Int) * (eulerianNumber n (k + 1 - 1) : Int) = ((n : Int) - k) * (eulerianNumber n k : Int) := by
        rw [show k + 1 - 1 = k by omega]
        by_cases h : k ≤ n
        · congr 1; omega
        · rw [eulerian_ge n k (by omega) (by omega)]; simp
      rw [Nat.cast_add, Nat.cast_mul, Nat.cast_mul, hk, ih, ih, sum_range_succ' _ (k + 1), sum_range_succ' _ (k + 1), mul_add, add_right_comm, mul_sum, mul_sum, ← sum_add_distrib]
      congr 1
      · refine sum_congr rfl fun i _ => ?_
        have h1 : ((n + 2).choose (i + 1) : Int) = (n + 1).choose i + (n + 1).choose (i + 1) := by
          exact_mod_cast Nat.choose_succ_succ (n + 1) i
        have h2 : ((n + 1).choose (i + 1) : Int) * (i + 1) = (n + 1).choose i * ((n : Int) + 1 - i) := by
          by_cases hi : i ≤ n + 1
          · have := Nat.choose_succ_right_eq (n + 1) i
            have e : ((n + 1 - i : Nat) : Int) = (n : Int) + 1 - i := by omega
            rw [← e]
            exact_mod_cast this
          · rw [Nat.choose_eq_zero_of_lt (by omega), Nat.choose_eq_zero_of_lt (show n + 1 < i by omega)]; simp
        rw [show n + 1 + 1 = n + 2 by omega, h1]
        push_cast
        rw [show ((k : Int) + 1 + 1 - (i + 1)) = k + 1 - i by ring, pow_succ (-1 : Int) i, pow_succ ((k : Int) + 1 - i) n]
        linear_combination (-1) ^ i * ((k : Int) + 1 - i) ^ n * (-1) * h2
      · push_cast; simp; ring

end Sequences
