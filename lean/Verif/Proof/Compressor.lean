import Verif.Model.Util
import Mathlib.Data.Finset.Card
import Mathlib.Data.List.Dedup
import Mathlib.Data.List.Nodup
import Mathlib.Order.Bounds.Basic
import Mathlib.Tactic.Common

/-! # Lemmas on the coordinate compressor -/

namespace Compressor
open Cxx
variable {α : Type} [LinearOrder α]

theorem mem_unique (l : List α) (v : α) : v ∈ unique l ↔ v ∈ l := by
  induction l using unique.induct with
  | case1 => simp [unique]
  | case2 x => simp [unique]
  | case3 x l ih =>
    rw [unique, if_pos rfl, ih]
    simp
  | case4 x y l h ih =>
    rw [unique, if_neg h, List.mem_cons, ih, List.mem_cons (b := x)]

theorem unique_sorted (l : List α) (h : l.Pairwise (· ≤ ·)) : (unique l).Pairwise (· < ·) := by
  induction l using unique.induct with
  | case1 => simp [unique]
  | case2 x => simp [unique]
  | case3 x l ih =>
    rw [unique, if_pos rfl]
    exact ih (List.pairwise_cons.1 h).2
  | case4 x y l hxy ih =>
    rw [unique, if_neg hxy, List.pairwise_cons]
    obtain ⟨h1, h2⟩ := List.pairwise_cons.1 h
    refine ⟨fun b hb => ?_, ih h2⟩
    rw [mem_unique] at hb
    have hlt : x < y := lt_of_le_of_ne (h1 y (by simp)) hxy
    rcases List.mem_cons.1 hb with rfl | hb
    · exact hlt
    · exact lt_of_lt_of_le hlt ((List.pairwise_cons.1 h2).1 b hb)

theorem strictly_of_pairwise (l : List α) (h : l.Pairwise (· < ·)) : isStrictlySorted l = true := by
  induction l using isStrictlySorted.induct with
  | case1 => rfl
  | case2 x => rfl
  | case3 x y l ih =>
    obtain ⟨h1, h2⟩ := List.pairwise_cons.1 h
    rw [isStrictlySorted, ih h2]
    have := h1 y (by simp)
    simp [not_le.2 this]

theorem build_spec (xs : List α) :
    ∃ ys, build xs = .ok ys ∧ ys.toList.Pairwise (· < ·) ∧ ∀ v, v ∈ ys.toList ↔ v ∈ xs := by
  have hs : (xs.mergeSort fun a b => decide (a ≤ b)).Pairwise (· ≤ ·) := by
    have := List.pairwise_mergeSort (le := fun a b : α => decide (a ≤ b))
      (fun a b c h1 h2 => by simp only [decide_eq_true_eq] at *; exact le_trans h1 h2)
      (fun a b => by simp only [Bool.or_eq_true, decide_eq_true_eq]; exact le_total a b) xs
    exact this.imp fun h => by simpa using h
  have hu := unique_sorted _ hs
  refine ⟨(unique (xs.mergeSort fun a b => decide (a ≤ b))).toArray, ?_, ?_, ?_⟩
  · simp only [build]
    rw [strictly_of_pairwise _ hu, check_true, ok_bind]
    rfl
  · exact hu
  · intro v
    show v ∈ unique _ ↔ _
    rw [mem_unique]
    exact (List.mergeSort_perm xs _).mem_iff

theorem findIdx_eq_countP (p : α → Bool) (L : List α) (h : L.Pairwise fun a b => p a = true → p b = true) :
    L.findIdx p = L.countP (fun x => !p x) := by
  induction L with
  | nil => simp
  | cons a l ih =>
    obtain ⟨h1, h2⟩ := List.pairwise_cons.1 h
    rw [List.findIdx_cons, List.countP_cons, ih h2]
    rcases hp : p a with _ | _
    · simp
    · simp only [cond_true, Bool.not_true, Bool.false_eq_true, if_false, Nat.add_zero]
      symm
      rw [List.countP_eq_zero]
      intro b hb
      simp [h1 b hb hp]

/-- Counting in a strictly sorted list with the same elements as `xs`. -/
theorem countP_card {xs L : List α} (hs : L.Pairwise (· < ·)) (hm : ∀ v, v ∈ L ↔ v ∈ xs) (q : α → Bool) :
    L.countP q = (xs.toFinset.filter fun x => q x = true).card := by
  have hn : L.Nodup := hs.imp fun h => ne_of_lt h
  rw [List.countP_eq_length_filter, ← List.toFinset_card_of_nodup (hn.filter _)]
  congr 1
  ext v
  simp [hm]

theorem size_card {xs L : List α} (hs : L.Pairwise (· < ·)) (hm : ∀ v, v ∈ L ↔ v ∈ xs) :
    L.length = xs.toFinset.card := by
  have := countP_card hs hm (fun _ => true)
  simpa using this

theorem lower_eq {xs L : List α} (hs : L.Pairwise (· < ·)) (hm : ∀ v, v ∈ L ↔ v ∈ xs) (e : α) :
    lowerBound L e = (xs.toFinset.filter (· < e)).card := by
  rw [lowerBound, findIdx_eq_countP]
  · simp only [Bool.not_not]
    rw [countP_card hs hm]
    simp
  · exact hs.imp fun {a b} h ha => by simp at *; exact le_trans ha (le_of_lt h)

theorem upper_eq {xs L : List α} (hs : L.Pairwise (· < ·)) (hm : ∀ v, v ∈ L ↔ v ∈ xs) (e : α) :
    upperBound L e = (xs.toFinset.filter (· ≤ e)).card := by
  rw [upperBound, findIdx_eq_countP]
  · rw [countP_card hs hm]
    simp
  · exact hs.imp fun {a b} h ha => by simp at *; exact lt_trans ha h

theorem lowerRev_eq {xs L : List α} (hs : L.Pairwise (· < ·)) (hm : ∀ v, v ∈ L ↔ v ∈ xs) (e : α) :
    lowerBoundRev L e + (xs.toFinset.filter (· ≤ e)).card = L.length := by
  rw [lowerBoundRev, findIdx_eq_countP]
  · rw [List.countP_reverse]
    have := countP_card hs hm (fun x => decide (x ≤ e))
    simp only [decide_eq_true_eq] at this
    rw [← this, List.length_eq_countP_add_countP (fun x => decide (x ≤ e)), Nat.add_comm]
    congr 1
    apply List.countP_congr
    simp
  · rw [List.pairwise_reverse]
    exact hs.imp fun {a b} h ha => by simp at *; exact le_trans (le_of_lt h) ha

theorem upperRev_eq {xs L : List α} (hs : L.Pairwise (· < ·)) (hm : ∀ v, v ∈ L ↔ v ∈ xs) (e : α) :
    upperBoundRev L e + (xs.toFinset.filter (· < e)).card = L.length := by
  rw [upperBoundRev, findIdx_eq_countP]
  · rw [List.countP_reverse]
    have := countP_card hs hm (fun x => decide (x < e))
    simp only [decide_eq_true_eq] at this
    rw [← this, List.length_eq_countP_add_countP (fun x => decide (x < e)), Nat.add_comm]
    congr 1
    apply List.countP_congr
    simp
  · rw [List.pairwise_reverse]
    exact hs.imp fun {a b} h ha => by simp at *; exact lt_trans h ha

/-- The element at the partition point of a list ordered by `R`. -/
theorem find_spec (R : α → α → Prop) (p : α → Bool) (L : List α) (h : L.Pairwise R) :
    (L.findIdx p = L.length ∧ ∀ x ∈ L, p x = false) ∨
    ∃ v, L[L.findIdx p]? = some v ∧ v ∈ L ∧ p v = true ∧ ∀ x ∈ L, p x = true → x = v ∨ R v x := by
  induction L with
  | nil => left; simp
  | cons a l ih =>
    obtain ⟨h1, h2⟩ := List.pairwise_cons.1 h
    rw [List.findIdx_cons]
    rcases hp : p a with _ | _
    · rcases ih h2 with ⟨he, hall⟩ | ⟨v, hv, hm, hpv, hmin⟩
      · left
        refine ⟨by simp [he], ?_⟩
        intro x hx
        rcases List.mem_cons.1 hx with rfl | hx
        · exact hp
        · exact hall x hx
      · right
        refine ⟨v, by simpa using hv, List.mem_cons_of_mem _ hm, hpv, ?_⟩
        intro x hx hpx
        rcases List.mem_cons.1 hx with rfl | hx
        · rw [hp] at hpx; cases hpx
        · exact hmin x hx hpx
    · right
      refine ⟨a, by simp, by simp, hp, ?_⟩
      intro x hx _
      rcases List.mem_cons.1 hx with rfl | hx
      · exact Or.inl rfl
      · exact Or.inr (h1 x hx)

theorem comp_of_mem {ys : Array α} (hs : ys.toList.Pairwise (· < ·)) {e : α} (he : e ∈ ys.toList) :
    ys[lowerBound ys.toList e]? = some e := by
  rcases find_spec _ (fun x => !decide (x < e)) _ hs with ⟨_, hall⟩ | ⟨v, hv, hm, hpv, hmin⟩
  · have := hall e he
    simp at this
  · rw [lowerBound, ← Array.getElem?_toList, hv]
    have h1 : e ≤ v := by simpa using hpv
    rcases hmin e he (by simp) with rfl | h
    · rfl
    · exact absurd h (not_lt.2 h1)

end Compressor
