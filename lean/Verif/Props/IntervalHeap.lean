import Verif.Proof.IntervalHeap
import Mathlib.Data.Int.Order.Basic

/-!
# IntervalHeap: property C18

The abstract state is the multiset of contained elements.
-/

namespace IntervalHeap
open Cxx HeapArray

variable {T : Type}

/-- A minimal element of `t`. -/
def Minimal (lt : T → T → Bool) (t : Multiset T) (x : T) : Prop := x ∈ t ∧ ∀ y ∈ t, lt y x = false
/-- A maximal element of `t`. -/
def Maximal (lt : T → T → Bool) (t : Multiset T) (x : T) : Prop := x ∈ t ∧ ∀ y ∈ t, lt x y = false

/-- Effect and answer of a call. -/
def Rel (lt : T → T → Bool) (t : Multiset T) : Op T → Out T → Multiset T → Prop
  | .push v, o, t' => o = .unit ∧ t' = v ::ₘ t
  | .max, o, t' => t' = t ∧ ∃ x, Maximal lt t x ∧ o = .val x
  | .min, o, t' => t' = t ∧ ∃ x, Minimal lt t x ∧ o = .val x
  | .popMax, o, t' => ∃ x, Maximal lt t x ∧ o = .val x ∧ t = x ::ₘ t'
  | .popMin, o, t' => ∃ x, Minimal lt t x ∧ o = .val x ∧ t = x ::ₘ t'
  | .size, o, t' => t' = t ∧ o = .size (Multiset.card t)
  | .empty, o, t' => t' = t ∧ o = .bool (Multiset.card t == 0)

/-- Number of elements after a call. -/
def count (n : Nat) : Op T → Nat
  | .push _ => n + 1
  | .popMax => n - 1
  | .popMin => n - 1
  | _ => n

/-- The queue must not be empty when its extremes are asked for. -/
def Pre (n : Nat) : Op T → Prop
  | .max => 1 ≤ n
  | .min => 1 ≤ n
  | .popMax => 1 ≤ n
  | .popMin => 1 ≤ n
  | _ => True

instance (n : Nat) (c : Op T) : Decidable (Pre n c) := by cases c <;> (unfold Pre; infer_instance)

theorem step_sim (lt : T → T → Bool) (hw : StrictWeak lt) (a : Array T) (t : Multiset T) (n : Nat) (c : Op T)
    (h : Inv lt a ∧ ms a = t ∧ a.size = n) (hp : Pre n c) :
    Tot (step lt a c) fun r => ∃ t', Rel lt t c r.2 t' ∧ Inv lt r.1 ∧ ms r.1 = t' ∧ r.1.size = count n c := by
  obtain ⟨hi, rfl, rfl⟩ := h
  cases c with
  | push v =>
    refine Tot.bind (push_tot hw hi v) fun b hb => Tot.pure ⟨_, ⟨rfl, rfl⟩, hb.2, hb.1, ?_⟩
    have := congrArg Multiset.card hb.1
    simpa [ms_card, count] using this
  | max => exact Tot.bind (max_tot hw hi hp) fun x hx => Tot.pure ⟨_, ⟨rfl, x, ⟨hx.1, hx.2⟩, rfl⟩, hi, rfl, rfl⟩
  | min => exact Tot.bind (min_tot hw hi hp) fun x hx => Tot.pure ⟨_, ⟨rfl, x, ⟨hx.1, hx.2⟩, rfl⟩, hi, rfl, rfl⟩
  | popMax =>
    refine Tot.bind (popMax_tot hw hi hp) fun r hr => Tot.pure ⟨_, ⟨r.2, ⟨?_, hr.2.2⟩, rfl, hr.1⟩, hr.2.1, rfl, ?_⟩
    · rw [hr.1]; simp
    · have := congrArg Multiset.card hr.1
      simp only [ms_card, Multiset.card_cons] at this
      show r.1.size = a.size - 1
      omega
  | popMin =>
    refine Tot.bind (popMin_tot hw hi hp) fun r hr => Tot.pure ⟨_, ⟨r.2, ⟨?_, hr.2.2⟩, rfl, hr.1⟩, hr.2.1, rfl, ?_⟩
    · rw [hr.1]; simp
    · have := congrArg Multiset.card hr.1
      simp only [ms_card, Multiset.card_cons] at this
      show r.1.size = a.size - 1
      omega
  | size => exact Tot.pure ⟨_, ⟨rfl, by rw [ms_card]⟩, hi, rfl, rfl⟩
  | empty => exact Tot.pure ⟨_, ⟨rfl, by rw [ms_card]⟩, hi, rfl, rfl⟩

/-- **C18** for `IntervalHeap`, any strict weak order, any history starting with an empty queue. -/
theorem intervalHeap_correct (lt : T → T → Bool) (hw : StrictWeak lt) (ops : List (Op T)) (hv : ValidOps Pre count 0 ops) :
    ∃ s outs, runOps (step lt) #[] ops = .ok (s, outs) ∧ RunOk (Rel lt) 0 ops outs := by
  obtain ⟨⟨s, outs⟩, e, h⟩ := refineR (Sim := fun a t n => Inv lt a ∧ ms a = t ∧ a.size = n)
    (step_sim lt hw) (s := #[]) (t := 0) ⟨inv_small (by simp), rfl, rfl⟩ hv
  exact ⟨s, outs, e, h⟩

/-! ### The hypotheses are met -/

example : StrictWeak fun x y : Int => decide (x < y) :=
  ⟨by simp, by simp; exact fun x y z => lt_trans, by simp; exact fun x y z a b => le_trans b a⟩

def demoOps : List (Op Int) := [.push 5, .push 2, .push 9, .push 4, .max, .min, .popMin, .popMax, .push 1, .popMax, .popMax, .popMin, .size]

example : ValidOps Pre count 0 demoOps := by decide

example : (runOps (step fun x y : Int => decide (x < y)) #[] demoOps >>= fun r => .ok r.2) =
    .ok [.unit, .unit, .unit, .unit, .val 9, .val 2, .val 2, .val 9, .unit, .val 5, .val 4, .val 1, .size 0] := by decide

end IntervalHeap
