import Verif.Model.DoubleEndedPriorityQueue
import Mathlib.Data.Multiset.AddSub
import Mathlib.Data.List.Perm.Basic
import Mathlib.Data.List.Sort

/-! # DoubleEndedPriorityQueue: helper lemmas -/

namespace Depq
open Cxx

variable {T : Type} [LinearOrder T]

theorem maxOf_tot {l : List T} (h : l ≠ []) : Tot (front (maxOf l)) fun x => x ∈ l ∧ ∀ y ∈ l, y ≤ x := by
  induction l with
  | nil => exact absurd rfl h
  | cons a l ih =>
    unfold maxOf
    rcases eq_or_ne l [] with rfl | hl
    · exact Tot.pure (by simp)
    · obtain ⟨x, hx, h1, h2⟩ := ih hl
      cases hm : maxOf l with
      | none => rw [hm] at hx; cases hx
      | some y =>
        rw [hm] at hx
        cases hx
        dsimp only
        by_cases c : a < x
        · rw [if_pos c]
          exact Tot.pure ⟨by simp [h1], by simpa using ⟨c.le, h2⟩⟩
        · rw [if_neg c]
          exact Tot.pure ⟨by simp, by simpa using fun z hz => (h2 z hz).trans (not_lt.1 c)⟩

theorem minOf_tot {l : List T} (h : l ≠ []) : Tot (front (minOf l)) fun x => x ∈ l ∧ ∀ y ∈ l, x ≤ y := by
  induction l with
  | nil => exact absurd rfl h
  | cons a l ih =>
    unfold minOf
    rcases eq_or_ne l [] with rfl | hl
    · exact Tot.pure (by simp)
    · obtain ⟨x, hx, h1, h2⟩ := ih hl
      cases hm : minOf l with
      | none => rw [hm] at hx; cases hx
      | some y =>
        rw [hm] at hx
        cases hx
        dsimp only
        by_cases c : x < a
        · rw [if_pos c]
          exact Tot.pure ⟨by simp [h1], by simpa using ⟨c.le, h2⟩⟩
        · rw [if_neg c]
          exact Tot.pure ⟨by simp, by simpa using fun z hz => (not_lt.1 c).trans (h2 z hz)⟩

/-- Contents. -/
def ms (s : State T) : Multiset T := (s.minHeap : Multiset T) + (s.maxHeap : Multiset T)

theorem mem_ms {s : State T} {x : T} : x ∈ ms s ↔ x ∈ s.minHeap ∨ x ∈ s.maxHeap := by simp [ms]

theorem card_ms (s : State T) : Multiset.card (ms s) = size s := by simp [ms, size]

/-- If there is a min part, the pivot is its largest element and separates it from the max part. -/
def Inv (s : State T) : Prop :=
  s.minHeap ≠ [] → s.pivot ∈ s.minHeap ∧ (∀ x ∈ s.minHeap, x ≤ s.pivot) ∧ ∀ y ∈ s.maxHeap, s.pivot ≤ y

/-- `nth_element` splits a list. -/
theorem split_ok {nth : List T → Nat → List T} (hn : NthOk nth) (l : List T) {mid : Nat} (h1 : 1 ≤ mid) (h2 : mid ≤ l.length) :
    ∃ p, rdL (nth l (mid - 1)) (mid - 1) = .ok p ∧ p ∈ (nth l (mid - 1)).take mid ∧ (∀ x ∈ (nth l (mid - 1)).take mid, x ≤ p) ∧
      (∀ y ∈ (nth l (mid - 1)).drop mid, p ≤ y) ∧
      (((nth l (mid - 1)).take mid : List T) : Multiset T) + ((nth l (mid - 1)).drop mid : List T) = (l : Multiset T) ∧
      ((nth l (mid - 1)).take mid).length = mid ∧ ((nth l (mid - 1)).drop mid).length = l.length - mid := by
  obtain ⟨hp, p, e, h3, h4⟩ := hn l (mid - 1) (by omega)
  rw [show mid - 1 + 1 = mid by omega] at h4
  have hlen := hp.length_eq
  have et : (nth l (mid - 1)).take mid = (nth l (mid - 1)).take (mid - 1) ++ [p] := by
    obtain ⟨m, rfl⟩ : ∃ m, mid = m + 1 := ⟨mid - 1, by omega⟩
    simp only [Nat.add_sub_cancel] at e ⊢
    rw [List.take_add_one, e]
    rfl
  refine ⟨p, by simp [rdL, e], ?_, ?_, h4, ?_, by simp; omega, by simp [hlen]⟩
  · rw [et]; simp
  · rw [et]
    intro x hx
    rcases List.mem_append.1 hx with hx | hx
    · exact h3 x hx
    · simp at hx; exact hx.le
  · rw [Multiset.coe_add, List.take_append_drop]
    exact Multiset.coe_eq_coe.2 hp

theorem ensureMin_tot {nth : List T → Nat → List T} (hn : NthOk nth) {s : State T} (h : Inv s) (hs : 0 < size s) :
    Tot (ensureMin nth s) fun s' => Inv s' ∧ ms s' = ms s ∧ s'.minHeap ≠ [] := by
  unfold ensureMin
  dsimp only
  rw [decide_eq_true (by omega), check_true, ok_bind]
  split
  next hm => exact Tot.pure ⟨h, rfl, hm⟩
  next hm =>
    have hm' : s.minHeap = [] := by simpa using hm
    have hsz : size s = s.maxHeap.length := by simp [size, hm']
    split
    next h1 =>
      obtain ⟨a, ha⟩ := List.length_eq_one_iff.1 (hsz.symm.trans h1)
      rw [ha]
      exact Tot.pure ⟨fun _ => by simp [hm'], by simp [ms, hm', ha], by simp⟩
    next h1 =>
      obtain ⟨p, e, h3, h4, h5, h6, h7, h8⟩ := split_ok hn s.maxHeap (mid := (size s + 1) / 2) (by omega) (by omega)
      rw [e, ok_bind, hm', List.nil_append]
      refine Tot.pure ⟨fun _ => ⟨h3, h4, h5⟩, ?_, ?_⟩
      · simp only [ms, hm']
        rw [h6]; simp
      · dsimp only
        exact List.ne_nil_of_length_pos (by omega)

theorem ensureMax_tot {nth : List T → Nat → List T} (hn : NthOk nth) {s : State T} (h : Inv s) (hs : 0 < size s) :
    Tot (ensureMax nth s) fun s' => Inv s' ∧ ms s' = ms s ∧ s'.maxHeap ≠ [] := by
  unfold ensureMax
  dsimp only
  rw [decide_eq_true (by omega), check_true, ok_bind]
  split
  next hm => exact Tot.pure ⟨h, rfl, hm⟩
  next hm =>
    have hm' : s.maxHeap = [] := by simpa using hm
    have hsz : size s = s.minHeap.length := by simp [size, hm']
    split
    next h1 =>
      refine Tot.pure ⟨fun hne => absurd hm' hne, ?_, ?_⟩
      · simp only [ms, hm']; simp
      · dsimp only
        exact List.ne_nil_of_length_pos (by omega)
    next h1 =>
      obtain ⟨p, e, h3, h4, h5, h6, h7, h8⟩ := split_ok hn s.minHeap (mid := size s / 2) (by omega) (by omega)
      rw [e, ok_bind, hm', List.nil_append]
      refine Tot.pure ⟨fun _ => ⟨h3, h4, h5⟩, ?_, ?_⟩
      · simp only [ms, hm']
        rw [h6]; simp
      · dsimp only
        exact List.ne_nil_of_length_pos (by omega)

theorem push_inv {s : State T} (h : Inv s) (v : T) : Inv (push s v) ∧ ms (push s v) = v ::ₘ ms s := by
  unfold push
  split
  next c =>
    refine ⟨fun hne => ?_, by simp [ms]⟩
    have c' : s.pivot < v := c.resolve_left hne
    obtain ⟨h1, h2, h3⟩ := h hne
    exact ⟨h1, h2, by simpa using ⟨c'.le, h3⟩⟩
  next c =>
    push Not at c
    refine ⟨fun _ => ?_, by simp [ms]⟩
    obtain ⟨h1, h2, h3⟩ := h c.1
    exact ⟨by simp [h1], by simpa using ⟨c.2, h2⟩, h3⟩

theorem max_tot {s : State T} (h : Inv s) (hs : 0 < size s) : Tot (max s) fun x => x ∈ ms s ∧ ∀ y ∈ ms s, y ≤ x := by
  unfold max
  rw [decide_eq_true (by omega), check_true, ok_bind]
  split
  next hm =>
    refine (maxOf_tot hm).mono fun x hx => ⟨mem_ms.2 (Or.inr hx.1), fun y hy => ?_⟩
    rcases mem_ms.1 hy with hy | hy
    · obtain ⟨-, h2, h3⟩ := h (List.ne_nil_of_mem hy)
      exact (h2 y hy).trans (h3 x hx.1)
    · exact hx.2 y hy
  next hm =>
    have hm' : s.maxHeap = [] := by simpa using hm
    have hne : s.minHeap ≠ [] := by intro e; simp [size, hm', e] at hs
    obtain ⟨h1, h2, -⟩ := h hne
    refine Tot.pure ⟨mem_ms.2 (Or.inl h1), fun y hy => ?_⟩
    rcases mem_ms.1 hy with hy | hy
    · exact h2 y hy
    · rw [hm'] at hy; simp at hy

theorem minHeap_min {s : State T} (h : Inv s) (hm : s.minHeap ≠ []) :
    Tot (front (minOf s.minHeap)) fun x => x ∈ s.minHeap ∧ ∀ y ∈ ms s, x ≤ y := by
  refine (minOf_tot hm).mono fun x hx => ⟨hx.1, fun y hy => ?_⟩
  obtain ⟨-, h2, h3⟩ := h hm
  rcases mem_ms.1 hy with hy | hy
  · exact hx.2 y hy
  · exact (h2 x hx.1).trans (h3 y hy)

theorem maxHeap_max {s : State T} (h : Inv s) (hm : s.maxHeap ≠ []) :
    Tot (front (maxOf s.maxHeap)) fun x => x ∈ s.maxHeap ∧ ∀ y ∈ ms s, y ≤ x := by
  refine (maxOf_tot hm).mono fun x hx => ⟨hx.1, fun y hy => ?_⟩
  rcases mem_ms.1 hy with hy | hy
  · obtain ⟨-, h2, h3⟩ := h (List.ne_nil_of_mem hy)
    exact (h2 y hy).trans (h3 x hx.1)
  · exact hx.2 y hy

theorem popMin_inv {s : State T} (h : Inv s) {x : T} (hx : x ∈ s.minHeap) (hmin : ∀ y ∈ ms s, x ≤ y) :
    Inv { s with minHeap := s.minHeap.erase x } ∧ ms s = x ::ₘ ms { s with minHeap := s.minHeap.erase x } := by
  obtain ⟨h1, h2, h3⟩ := h (List.ne_nil_of_mem hx)
  have hp : (s.minHeap : Multiset T) = x ::ₘ (s.minHeap.erase x : List T) := Multiset.coe_eq_coe.2 (List.perm_cons_erase hx)
  refine ⟨fun hne => ⟨?_, fun y hy => h2 y (List.mem_of_mem_erase hy), h3⟩, ?_⟩
  · -- either the pivot stays, or everything left equals it
    dsimp only at hne ⊢
    by_cases e : s.pivot = x
    · obtain ⟨y, hy⟩ := List.exists_mem_of_ne_nil _ hne
      have hy' := List.mem_of_mem_erase hy
      have : y = s.pivot := le_antisymm (h2 y hy') (e ▸ hmin y (mem_ms.2 (Or.inl hy')))
      rwa [← this]
    · exact (List.mem_erase_of_ne e).2 h1
  · simp only [ms]
    rw [hp, Multiset.cons_add]

theorem popMax_inv {s : State T} (h : Inv s) {x : T} (hx : x ∈ s.maxHeap) :
    Inv { s with maxHeap := s.maxHeap.erase x } ∧ ms s = x ::ₘ ms { s with maxHeap := s.maxHeap.erase x } := by
  have hp : (s.maxHeap : Multiset T) = x ::ₘ (s.maxHeap.erase x : List T) := Multiset.coe_eq_coe.2 (List.perm_cons_erase hx)
  refine ⟨fun hne => ?_, ?_⟩
  · obtain ⟨h1, h2, h3⟩ := h hne
    exact ⟨h1, h2, fun y hy => h3 y (List.mem_of_mem_erase hy)⟩
  · simp only [ms]
    rw [hp, Multiset.add_cons]

theorem dumpSorted_ok {s : State T} (h : Inv s) : (dumpSorted s).Pairwise (· ≤ ·) ∧ (dumpSorted s : Multiset T) = ms s := by
  have hs : ∀ l : List T, (l.mergeSort fun x y => decide (x ≤ y)).Pairwise (· ≤ ·) := by
    intro l
    have := List.pairwise_mergeSort (le := fun x y : T => decide (x ≤ y)) (by simp; exact fun a b c => le_trans) (by simpa using fun a b => le_total a b) l
    simpa using this
  unfold dumpSorted
  constructor
  · rw [List.pairwise_append]
    refine ⟨hs _, hs _, fun x hx y hy => ?_⟩
    rw [List.mem_mergeSort] at hx hy
    obtain ⟨-, h2, h3⟩ := h (List.ne_nil_of_mem hx)
    exact (h2 x hx).trans (h3 y hy)
  · rw [← Multiset.coe_add]
    unfold ms
    congr 1
    · exact Multiset.coe_eq_coe.2 (List.mergeSort_perm _ _)
    · exact Multiset.coe_eq_coe.2 (List.mergeSort_perm _ _)

end Depq
