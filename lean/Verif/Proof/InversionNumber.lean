import Verif.Model.Algorithm
import Verif.Proof.Compressor
import Mathlib.Data.Finset.Prod
import Mathlib.Order.Interval.Finset.Nat
import Mathlib.Tactic.Linarith
import Mathlib.Tactic.Ring

/-! # Proofs for `inversion_number` -/

namespace InversionNumber
open Cxx
variable {α : Type} [LinearOrder α]

theorem take_sum_set (l : List Int) (j k : Nat) (hj : j < l.length) : ((l.set j (l[j] + 1)).take k).sum = (l.take k).sum + if j < k then 1 else 0 := by
  induction l generalizing j k with
  | nil => simp at hj
  | cons x l ih =>
    cases k with
    | zero => simp
    | succ k =>
      cases j with
      | zero => simp; omega
      | succ j =>
        have := ih j k (by simpa using hj)
        simp only [List.set_cons_succ, List.getElem_cons_succ, List.take_succ_cons, List.sum_cons, Nat.add_lt_add_iff_right]
        rw [this]
        omega

/-- Inversions of a list, counted from the right. -/
def inv : List α → Nat
  | [] => 0
  | x :: l => l.countP (fun y => decide (y < x)) + inv l

theorem inv_le (l : List α) : inv l ≤ l.length * l.length := by
  induction l with
  | nil => simp [inv]
  | cons x l ih =>
    rw [inv, List.length_cons]
    have := List.countP_le_length (p := fun y => decide (y < x)) (l := l)
    nlinarith

theorem run_tot (a : Array α) (hn : a.size < 2 ^ 31) : Tot (run a) fun r => r = (inv a.toList : Int) := by
  obtain ⟨c, h1, h2, h3⟩ := Compressor.build_spec a.toList
  rw [run, h1, ok_bind]
  have hcomp : ∀ x ∈ a.toList, Compressor.comp c x (-1) = .ok (Compressor.lowerBound c.toList x : Int) ∧ Compressor.lowerBound c.toList x < c.size := by
    intro x hx
    have hm := Compressor.comp_of_mem h2 ((h3 x).2 hx)
    have hlt := (Array.getElem?_eq_some_iff.1 hm).1
    refine ⟨?_, hlt⟩
    rw [Compressor.comp, Compressor.minGeqIndex, Compressor.size, if_pos (by omega), Int.toNat_natCast, rd_some hm, ok_bind, if_pos rfl]
    rfl
  have hlt : ∀ x ∈ a.toList, ∀ y ∈ a.toList, (Compressor.lowerBound c.toList y < Compressor.lowerBound c.toList x ↔ y < x) := by
    intro x hx y hy
    obtain ⟨w1, w2⟩ := Array.getElem?_eq_some_iff.1 (Compressor.comp_of_mem h2 ((h3 x).2 hx))
    obtain ⟨w3, w4⟩ := Array.getElem?_eq_some_iff.1 (Compressor.comp_of_mem h2 ((h3 y).2 hy))
    have key := List.pairwise_iff_getElem.1 h2
    constructor
    · intro h
      have := key _ _ w3 w1 h
      rwa [Array.getElem_toList, Array.getElem_toList, w2, w4] at this
    · intro h
      by_contra hc
      rcases Nat.lt_or_ge (Compressor.lowerBound c.toList x) (Compressor.lowerBound c.toList y) with h' | h'
      · have := key _ _ w1 w3 h'
        rw [Array.getElem_toList, Array.getElem_toList, w2, w4] at this
        exact absurd h (not_lt.2 this.le)
      · have e : Compressor.lowerBound c.toList x = Compressor.lowerBound c.toList y := by omega
        have : x = y := by
          have q := Compressor.comp_of_mem h2 ((h3 x).2 hx)
          rw [e, Compressor.comp_of_mem h2 ((h3 y).2 hy)] at q
          exact (Option.some.inj q).symm
        exact absurd h (by rw [this]; exact lt_irrefl _)
  refine Tot.bind (P := fun (s : Int × Array Int) => s.1 = (inv a.toList : Int)) ?_ (fun s h => Tot.pure h)
  refine Tot.mono (P := fun (s : Int × Array Int) => s.1 = (inv (a.toList.drop 0) : Int) ∧ s.2.size = c.size ∧
    ∀ k, (s.2.toList.take k).sum = ((a.toList.drop 0).countP (fun y => decide (Compressor.lowerBound c.toList y < k)) : Int)) ?_ (fun s h => h.1)
  refine Tot.forDown (P := fun i (s : Int × Array Int) => s.1 = (inv (a.toList.drop i) : Int) ∧ s.2.size = c.size ∧
    ∀ k, (s.2.toList.take k).sum = ((a.toList.drop i).countP (fun y => decide (Compressor.lowerBound c.toList y < k)) : Int)) (Nat.zero_le _) ?_ ?_
  · rw [List.drop_eq_nil_of_le (by simp)]
    refine ⟨rfl, by simp, fun k => ?_⟩
    simp
  · rintro i ⟨ans, ft⟩ - hi ⟨k1, k2, k3⟩
    dsimp only at k1 k2 k3
    have hx : a.toList[i]? = some a[i] := by simp [hi]
    have hmem : a[i] ∈ a.toList := List.mem_of_getElem? hx
    obtain ⟨c1, c2⟩ := hcomp _ hmem
    obtain ⟨j, hj⟩ : ∃ j, j = Compressor.lowerBound c.toList a[i] := ⟨_, rfl⟩
    rw [← hj] at c1 c2
    have hdrop : a.toList.drop i = a[i] :: a.toList.drop (i + 1) := by
      rw [List.drop_eq_getElem_cons (by simpa using hi)]
      simp
    have hcnt : (ft.toList.take j).sum = ((a.toList.drop (i + 1)).countP (fun y => decide (y < a[i])) : Int) := by
      rw [k3, hj]
      congr 1
      refine List.countP_congr fun y hy => ?_
      simp only [decide_eq_true_eq]
      exact hlt _ hmem y (List.mem_of_mem_drop hy)
    have hinv : inv (a.toList.drop i) = (a.toList.drop (i + 1)).countP (fun y => decide (y < a[i])) + inv (a.toList.drop (i + 1)) := by rw [hdrop, inv]
    have hbound := inv_le (a.toList.drop i)
    have hlen : (a.toList.drop i).length ≤ 2 ^ 31 - 1 := by simp; omega
    have hb2 : (a.toList.drop i).length * (a.toList.drop i).length ≤ (2 ^ 31 - 1) * (2 ^ 31 - 1) := Nat.mul_le_mul hlen hlen
    rw [step, rd_eq hi, ok_bind, c1, ok_bind, sum]
    dsimp only
    rw [decide_eq_true (by omega), check_true, ok_bind, Int.toNat_natCast]
    show Tot (i64 (ans + (ft.toList.take j).sum) >>= _) _
    rw [i64_ok ⟨by rw [hcnt, k1]; omega, by rw [hcnt, k1]; omega⟩, ok_bind, inc, decide_eq_true (by omega), check_true, ok_bind, Int.toNat_natCast,
      rd_eq (by omega), ok_bind, wr_eq (by omega), ok_bind]
    refine Tot.pure ⟨?_, by simpa using k2, fun k => ?_⟩
    · dsimp only
      rw [hcnt, k1, hinv]
      push_cast
      ring
    · dsimp only
      have e : (ft.setIfInBounds j (ft[j] + 1)).toList = ft.toList.set j (ft.toList[j]'(by simpa using (by omega : j < ft.size)) + 1) := by simp
      rw [e, take_sum_set, k3, hdrop, List.countP_cons, ← hj]
      simp only [decide_eq_true_eq]
      split <;> push_cast <;> rfl

/-- A pair with the first position. -/
def first (i : Nat) : Nat × Nat := (0, i + 1)
/-- A pair of later positions. -/
def later (p : Nat × Nat) : Nat × Nat := (p.1 + 1, p.2 + 1)

theorem first_inj : Function.Injective first := fun a b h => by simpa [first] using h
theorem later_inj : Function.Injective later := fun a b h => by simpa [later, Prod.ext_iff] using h

/-- The recursive count is the number of pairs. -/
theorem inv_card (l : List α) (d : α) :
    inv l = (((Finset.range l.length) ×ˢ (Finset.range l.length)).filter fun p => p.1 < p.2 ∧ l.getD p.2 d < l.getD p.1 d).card := by
  induction l with
  | nil => rfl
  | cons x l ih =>
    have hc : l.countP (fun y => decide (y < x)) = ((Finset.range l.length).filter fun i => l.getD i d < x).card := by
      clear ih
      induction l using List.reverseRecOn with
      | nil => rfl
      | append_singleton l y ih =>
        rw [List.countP_append, ih, List.length_append, List.length_singleton, Finset.range_add_one, Finset.filter_insert]
        have hsame : ((Finset.range l.length).filter fun i => (l ++ [y]).getD i d < x) = ((Finset.range l.length).filter fun i => l.getD i d < x) := by
          refine Finset.filter_congr fun i hi => ?_
          rw [Finset.mem_range] at hi
          rw [List.getD_eq_getElem?_getD, List.getD_eq_getElem?_getD, List.getElem?_append_left hi]
        rw [hsame]
        have hy : (l ++ [y]).getD l.length d = y := by simp
        rw [hy]
        by_cases h : y < x
        · rw [if_pos h, Finset.card_insert_of_notMem (by simp)]
          simp [h]
        · rw [if_neg h]
          simp [h]
    rw [inv, hc, ih, List.length_cons]
    rw [← Finset.card_image_of_injective _ first_inj, ← Finset.card_image_of_injective (((Finset.range l.length) ×ˢ (Finset.range l.length)).filter _) later_inj,
      ← Finset.card_union_of_disjoint]
    · congr 1
      ext ⟨i, j⟩
      simp only [Finset.mem_union, Finset.mem_image, Finset.mem_filter, Finset.mem_range, Finset.mem_product, first, later, Prod.mk.injEq, Prod.exists]
      constructor
      · rintro (⟨k, ⟨h1, h2⟩, rfl, rfl⟩ | ⟨u, v, ⟨⟨h1, h2⟩, h3, h4⟩, rfl, rfl⟩)
        · exact ⟨⟨by omega, by omega⟩, by omega, by simpa using h2⟩
        · exact ⟨⟨by omega, by omega⟩, by omega, by simpa using h4⟩
      · rintro ⟨⟨h1, h2⟩, h3, h4⟩
        obtain ⟨j', rfl⟩ : ∃ j', j = j' + 1 := ⟨j - 1, by omega⟩
        cases i with
        | zero => exact Or.inl ⟨j', ⟨by omega, by simpa using h4⟩, rfl, rfl⟩
        | succ i => exact Or.inr ⟨i, j', ⟨⟨by omega, by omega⟩, by omega, by simpa using h4⟩, rfl, rfl⟩
    · rw [Finset.disjoint_left]
      rintro ⟨i, j⟩ h1 h2
      rw [Finset.mem_image] at h1 h2
      obtain ⟨_, _, h1⟩ := h1
      obtain ⟨_, _, h2⟩ := h2
      rw [first, Prod.mk.injEq] at h1
      rw [later, Prod.mk.injEq] at h2
      omega

end InversionNumber
