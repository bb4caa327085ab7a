import Verif.Proof.DoubleEndedPriorityQueue
import Mathlib.Data.Int.Order.Basic

/-!
# DoubleEndedPriorityQueue: property C65

The abstract state is the multiset of contained elements.
-/

namespace Depq
open Cxx

variable {T : Type} [LinearOrder T]

/-- The smallest element. -/
def IsMin (t : Multiset T) (x : T) : Prop := x ∈ t ∧ ∀ y ∈ t, x ≤ y
/-- The largest element. -/
def IsMax (t : Multiset T) (x : T) : Prop := x ∈ t ∧ ∀ y ∈ t, y ≤ x

/-- Effect and answer of a call. -/
def Rel (t : Multiset T) : Op T → Out T → Multiset T → Prop
  | .push v, o, t' => o = .unit ∧ t' = v ::ₘ t
  | .max, o, t' => t' = t ∧ ∃ x, IsMax t x ∧ o = .val x
  | .min, o, t' => t' = t ∧ ∃ x, IsMin t x ∧ o = .val x
  | .popMax, o, t' => ∃ x, IsMax t x ∧ o = .val x ∧ t = x ::ₘ t'
  | .popMin, o, t' => ∃ x, IsMin t x ∧ o = .val x ∧ t = x ::ₘ t'
  | .size, o, t' => t' = t ∧ o = .size (Multiset.card t)
  | .empty, o, t' => t' = t ∧ o = .bool (Multiset.card t == 0)
  | .dumpSorted, o, t' => t' = t ∧ ∃ l : List T, l.Pairwise (· ≤ ·) ∧ (l : Multiset T) = t ∧ o = .list l

/-- Number of elements after a call. -/
def count (n : Nat) : Op T → Nat
  | .push _ => n + 1
  | .popMax => n - 1
  | .popMin => n - 1
  | _ => n

/-- The queue must not be empty when its extremes are asked for. -/
def Pre (n : Nat) : Op T → Prop
  | .max => 1 ≤ n
  | .min => 1 ≤ n
  | .popMax => 1 ≤ n
  | .popMin => 1 ≤ n
  | _ => True

instance (n : Nat) (c : Op T) : Decidable (Pre n c) := by cases c <;> (unfold Pre; infer_instance)

theorem step_sim {nth : List T → Nat → List T} (hn : NthOk nth) (s : State T) (t : Multiset T) (n : Nat) (c : Op T)
    (h : Inv s ∧ ms s = t ∧ size s = n) (hp : Pre n c) :
    Tot (step nth s c) fun r => ∃ t', Rel t c r.2 t' ∧ Inv r.1 ∧ ms r.1 = t' ∧ size r.1 = count n c := by
  obtain ⟨hi, rfl, rfl⟩ := h
  cases c with
  | push v =>
    obtain ⟨h1, h2⟩ := push_inv hi v
    refine Tot.pure ⟨_, ⟨rfl, rfl⟩, h1, h2, ?_⟩
    have := congrArg Multiset.card h2
    simpa [card_ms, count] using this
  | max => exact Tot.bind (max_tot hi hp) fun x hx => Tot.pure ⟨_, ⟨rfl, x, hx, rfl⟩, hi, rfl, rfl⟩
  | min =>
    refine Tot.bind (Q := _) (P := fun r : State T × T => Inv r.1 ∧ ms r.1 = ms s ∧ r.2 ∈ ms s ∧ ∀ y ∈ ms s, r.2 ≤ y) ?_ ?_
    · refine Tot.bind (ensureMin_tot hn hi hp) fun s' h' => ?_
      refine Tot.bind (minHeap_min h'.1 h'.2.2) fun x hx => Tot.pure ⟨h'.1, h'.2.1, ?_⟩
      rw [← h'.2.1]
      exact ⟨mem_ms.2 (Or.inl hx.1), hx.2⟩
    · rintro ⟨s', x⟩ ⟨h1, h2, h3⟩
      dsimp only at h1 h2 h3
      refine Tot.pure ⟨_, ⟨rfl, x, h3, rfl⟩, h1, h2, ?_⟩
      rw [← card_ms, h2, card_ms]; rfl
  | popMax =>
    refine Tot.bind (Q := _) (P := fun r : State T × T => Inv r.1 ∧ ms s = r.2 ::ₘ ms r.1 ∧ ∀ y ∈ ms s, y ≤ r.2) ?_ ?_
    · refine Tot.bind (ensureMax_tot hn hi hp) fun s' h' => ?_
      refine Tot.bind (maxHeap_max h'.1 h'.2.2) fun x hx => ?_
      have := popMax_inv h'.1 hx.1
      refine Tot.pure ⟨this.1, ?_, ?_⟩
      · rw [← h'.2.1]; exact this.2
      · rw [← h'.2.1]; exact hx.2
    · rintro ⟨s', x⟩ ⟨h1, h2, h3⟩
      dsimp only at h1 h2 h3
      refine Tot.pure ⟨_, ⟨x, ⟨by rw [h2]; simp, h3⟩, rfl, h2⟩, h1, rfl, ?_⟩
      have := congrArg Multiset.card h2
      simp only [card_ms, Multiset.card_cons] at this
      show size s' = size s - 1
      omega
  | popMin =>
    refine Tot.bind (Q := _) (P := fun r : State T × T => Inv r.1 ∧ ms s = r.2 ::ₘ ms r.1 ∧ ∀ y ∈ ms s, r.2 ≤ y) ?_ ?_
    · refine Tot.bind (ensureMin_tot hn hi hp) fun s' h' => ?_
      refine Tot.bind (minHeap_min h'.1 h'.2.2) fun x hx => ?_
      have := popMin_inv h'.1 hx.1 hx.2
      refine Tot.pure ⟨this.1, ?_, ?_⟩
      · rw [← h'.2.1]; exact this.2
      · rw [← h'.2.1]; exact hx.2
    · rintro ⟨s', x⟩ ⟨h1, h2, h3⟩
      dsimp only at h1 h2 h3
      refine Tot.pure ⟨_, ⟨x, ⟨by rw [h2]; simp, h3⟩, rfl, h2⟩, h1, rfl, ?_⟩
      have := congrArg Multiset.card h2
      simp only [card_ms, Multiset.card_cons] at this
      show size s' = size s - 1
      omega
  | size => exact Tot.pure ⟨_, ⟨rfl, by rw [card_ms]⟩, hi, rfl, rfl⟩
  | empty => exact Tot.pure ⟨_, ⟨rfl, by rw [card_ms]⟩, hi, rfl, rfl⟩
  | dumpSorted => exact Tot.pure ⟨_, ⟨rfl, _, (dumpSorted_ok hi).1, (dumpSorted_ok hi).2, rfl⟩, hi, rfl, rfl⟩

/-- **C65**: `DoubleEndedPriorityQueue` over any linear order, for every implementation of `nth_element` that has the guarantees of the
standard, any initial range and any history. -/
theorem depq_correct {nth : List T → Nat → List T} (hn : NthOk nth) (xs : List T) (p0 : T) (ops : List (Op T))
    (hv : ValidOps Pre count xs.length ops) :
    ∃ s outs, runOps (step nth) (init xs p0) ops = .ok (s, outs) ∧ RunOk Rel (xs : Multiset T) ops outs := by
  obtain ⟨⟨s, outs⟩, e, h⟩ := refineR (Sim := fun s t n => Inv s ∧ ms s = t ∧ size s = n)
    (step_sim hn) (s := init xs p0) (t := (xs : Multiset T)) ⟨fun h => absurd rfl h, by simp [ms, init], by simp [size, init]⟩ hv
  exact ⟨s, outs, e, h⟩

/-! ### The hypotheses are met -/

/-- Sorting is an admissible `nth_element`. -/
theorem nthSort_ok : NthOk fun (l : List T) (_ : Nat) => l.mergeSort fun x y => decide (x ≤ y) := by
  intro l k hk
  have hs : (l.mergeSort fun x y => decide (x ≤ y)).Pairwise (· ≤ ·) := by
    have := List.pairwise_mergeSort (le := fun x y : T => decide (x ≤ y)) (by simp; exact fun a b c => le_trans) (by simpa using fun a b => le_total a b) l
    simpa using this
  have hk' : k < (l.mergeSort fun x y => decide (x ≤ y)).length := by simpa using hk
  refine ⟨List.mergeSort_perm _ _, (l.mergeSort fun x y => decide (x ≤ y))[k], by rw [List.getElem?_eq_getElem hk'], ?_, ?_⟩
  · intro x hx
    obtain ⟨i, hi, rfl⟩ := List.mem_iff_getElem.1 hx
    rw [List.getElem_take]
    simp at hi
    exact List.pairwise_iff_getElem.1 hs _ _ _ _ hi.1
  · intro x hx
    obtain ⟨i, hi, rfl⟩ := List.mem_iff_getElem.1 hx
    rw [List.getElem_drop]
    exact List.pairwise_iff_getElem.1 hs _ _ _ _ (by omega)

def demoOps : List (Op Int) := [.min, .push 5, .max, .popMin, .popMax, .popMax, .push 0, .dumpSorted, .popMax, .popMax, .popMax, .size]

example : ValidOps Pre count [3, 1, 4, 1].length demoOps := by decide

end Depq
