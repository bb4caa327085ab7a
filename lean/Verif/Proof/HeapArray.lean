import Verif.Cxx
import Mathlib.Data.Multiset.AddSub
import Mathlib.Data.List.Perm.Basic

/-! # Multisets of array contents -/

namespace HeapArray
open Cxx

variable {T : Type}

/-- The elements of an array as a multiset. -/
def ms (a : Array T) : Multiset T := (a.toList : Multiset T)

theorem ms_set (d : T) {a : Array T} {i : Nat} (h : i < a.size) (x : T) : at' d a i ::ₘ ms (a.setIfInBounds i x) = x ::ₘ ms a := by
  have hl : i < a.toList.length := by simpa using h
  have e1 := List.set_perm_cons_eraseIdx hl x
  have e2 := List.set_perm_cons_eraseIdx hl a.toList[i]
  rw [List.set_getElem_self] at e2
  have h1 : ms (a.setIfInBounds i x) = x ::ₘ (a.toList.eraseIdx i : Multiset T) := by
    unfold ms
    rw [Array.toList_setIfInBounds]
    exact Multiset.coe_eq_coe.2 e1
  have h2 : ms a = at' d a i ::ₘ (a.toList.eraseIdx i : Multiset T) := by
    unfold ms
    have : at' d a i = a.toList[i] := by simp [at', h]
    rw [this]
    exact Multiset.coe_eq_coe.2 e2
  rw [h1, h2, Multiset.cons_swap]

theorem ms_hole (d : T) {a : Array T} {i j : Nat} (hi : i < a.size) (hj : j < a.size) (hij : i ≠ j) (x : T) :
    ms ((a.setIfInBounds i (at' d a j)).setIfInBounds j x) = ms (a.setIfInBounds i x) := by
  have h1 := ms_set d (a := a.setIfInBounds i (at' d a j)) (i := j) (by simpa using hj) x
  rw [at_set d hi, if_neg hij] at h1
  have h2 := ms_set d hi (at' d a j)
  have h3 := ms_set d hi x
  have h4 : at' d a i ::ₘ at' d a j ::ₘ ms ((a.setIfInBounds i (at' d a j)).setIfInBounds j x) = at' d a i ::ₘ at' d a j ::ₘ ms (a.setIfInBounds i x) := by
    rw [h1, Multiset.cons_swap (at' d a i) x, h2, Multiset.cons_swap (at' d a i) (at' d a j), h3, Multiset.cons_swap]
  exact (Multiset.cons_inj_right _).1 ((Multiset.cons_inj_right _).1 h4)

theorem ms_self (d : T) {a : Array T} {i : Nat} (h : i < a.size) : ms (a.setIfInBounds i (at' d a i)) = ms a :=
  (Multiset.cons_inj_right _).1 (ms_set d h (at' d a i))

theorem ms_push (a : Array T) (x : T) : ms (a.push x) = x ::ₘ ms a := by
  unfold ms
  rw [Array.toList_push]
  exact Multiset.coe_eq_coe.2 (List.perm_append_singleton x a.toList)

theorem ms_pop (d : T) {a : Array T} (h : 0 < a.size) : ms a = at' d a (a.size - 1) ::ₘ ms a.pop := by
  obtain ⟨b, x, rfl⟩ := Array.exists_push_of_size_pos h
  rw [ms_push]
  simp [at']

theorem ms_mem (d : T) {a : Array T} {x : T} : x ∈ ms a ↔ ∃ i < a.size, at' d a i = x := by
  unfold ms
  rw [Multiset.mem_coe, Array.mem_toList_iff, Array.mem_iff_getElem]
  constructor
  · rintro ⟨i, h, e⟩; exact ⟨i, h, by simp [at', h, e]⟩
  · rintro ⟨i, h, e⟩; exact ⟨i, h, by simpa [at', h] using e⟩

theorem ms_card (a : Array T) : Multiset.card (ms a) = a.size := by simp [ms]

theorem at_pop (d : T) {a : Array T} {i : Nat} (h : i + 1 < a.size) : at' d a.pop i = at' d a i := by
  simp [at', show i < a.size - 1 by omega, show i < a.size by omega]

theorem at_push (d : T) (a : Array T) (x : T) (i : Nat) : at' d (a.push x) i = if i = a.size then x else at' d a i := by
  simp only [at', Array.getElem?_push]
  split <;> rfl

theorem at_default (d d' : T) {a : Array T} {i : Nat} (h : i < a.size) : at' d a i = at' d' a i := by
  simp [at', h]

end HeapArray
