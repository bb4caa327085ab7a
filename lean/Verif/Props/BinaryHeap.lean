import Verif.Proof.BinaryHeap
import Mathlib.Data.Int.Order.Basic

/-!
# BinaryHeap: property C17

The abstract state is the multiset of contained elements.
-/

namespace BinaryHeap
open Cxx HeapArray

variable {T : Type}

/-- `x` is an extremal element of `t`: minimal for a min-heap, maximal for a max-heap. -/
def Extremal (isMin : Bool) (comp : T → T → Bool) (t : Multiset T) (x : T) : Prop :=
  x ∈ t ∧ ∀ y ∈ t, (if isMin then comp y x else comp x y) = false

/-- Effect and answer of a call. -/
def Rel (isMin : Bool) (comp : T → T → Bool) (t : Multiset T) : Op T → Out T → Multiset T → Prop
  | .push v, o, t' => o = .unit ∧ t' = v ::ₘ t
  | .top, o, t' => t' = t ∧ ∃ x, Extremal isMin comp t x ∧ o = .val x
  | .pop, o, t' => ∃ x, Extremal isMin comp t x ∧ o = .val x ∧ t = x ::ₘ t'
  | .size, o, t' => t' = t ∧ o = .size (Multiset.card t)
  | .empty, o, t' => t' = t ∧ o = .bool (Multiset.card t == 0)
  | .clear, o, t' => t' = 0 ∧ o = .unit

/-- Number of elements after a call. -/
def count (n : Nat) : Op T → Nat
  | .push _ => n + 1
  | .pop => n - 1
  | .clear => 0
  | _ => n

/-- `top` needs an element; `pop` needs **two** (see `pop_last_undefined`). -/
def Pre (n : Nat) : Op T → Prop
  | .top => 1 ≤ n
  | .pop => 2 ≤ n
  | _ => True

instance (n : Nat) (c : Op T) : Decidable (Pre n c) := by cases c <;> (unfold Pre; infer_instance)

theorem compare_weak {isMin : Bool} {comp : T → T → Bool} (hw : StrictWeak comp) : StrictWeak (compare isMin comp) := by
  cases isMin
  · exact hw.swap
  · exact hw

theorem step_sim (isMin : Bool) (comp : T → T → Bool) (hw : StrictWeak comp) (a : Array T) (t : Multiset T) (n : Nat) (c : Op T)
    (h : Inv (compare isMin comp) a ∧ ms a = t ∧ a.size = n) (hp : Pre n c) :
    Tot (step (compare isMin comp) a c) fun r => ∃ t', Rel isMin comp t c r.2 t' ∧ Inv (compare isMin comp) r.1 ∧ ms r.1 = t' ∧ r.1.size = count n c := by
  obtain ⟨hi, rfl, rfl⟩ := h
  have hw' := compare_weak (isMin := isMin) hw
  cases c with
  | push v =>
    refine Tot.bind (push_tot hw' hi v) fun b hb => Tot.pure ⟨_, ⟨rfl, rfl⟩, hb.2, hb.1, ?_⟩
    have := congrArg Multiset.card hb.1
    simpa [ms_card, count] using this
  | top =>
    refine Tot.bind (top_tot hw' hi hp) fun x hx => Tot.pure ⟨_, ⟨rfl, x, ⟨hx.1, hx.2⟩, rfl⟩, hi, rfl, rfl⟩
  | pop =>
    refine Tot.bind (pop_tot hw' hi hp) fun r hr => Tot.pure ⟨_, ⟨r.2, ⟨?_, hr.2.2⟩, rfl, hr.1⟩, hr.2.1, rfl, ?_⟩
    · rw [hr.1]; simp
    · have := congrArg Multiset.card hr.1
      simp only [ms_card, Multiset.card_cons] at this
      show r.1.size = a.size - 1
      omega
  | size => exact Tot.pure ⟨_, ⟨rfl, by rw [ms_card]⟩, hi, rfl, rfl⟩
  | empty => exact Tot.pure ⟨_, ⟨rfl, by rw [ms_card]⟩, hi, rfl, rfl⟩
  | clear => exact Tot.pure ⟨_, ⟨rfl, rfl⟩, fun d i i1 i2 => by simp at i2, rfl, rfl⟩

/-- **C17** (partial: `pop` only while at least two elements are contained). The heap is built from any range (`init`; the empty
range is the default constructor) and any history of calls follows. -/
theorem binaryHeap_partial (isMin : Bool) (comp : T → T → Bool) (hw : StrictWeak comp) (init : Array T) (ops : List (Op T))
    (hv : ValidOps Pre count init.size ops) :
    ∃ a0 s outs, constructHeap (compare isMin comp) init = .ok a0 ∧ runOps (step (compare isMin comp)) a0 ops = .ok (s, outs) ∧
      RunOk (Rel isMin comp) (init.toList : Multiset T) ops outs := by
  obtain ⟨a0, e0, hm, hi⟩ := constructHeap_tot (compare_weak (isMin := isMin) hw) init
  have hs : a0.size = init.size := by rw [← ms_card, ← ms_card, hm]
  obtain ⟨⟨s, outs⟩, e, h⟩ := refineR (Sim := fun a t n => Inv (compare isMin comp) a ∧ ms a = t ∧ a.size = n)
    (step_sim isMin comp hw) (s := a0) (t := (init.toList : Multiset T)) ⟨hi, hm, hs⟩ hv
  exact ⟨a0, s, outs, e0, e, h⟩

/-- The code violates C17 for the last element: `pop` on a heap with exactly one element passes its assertion and then sifts down
in the already emptied vector, reading `_dat[0]` out of range. -/
theorem pop_last_undefined (comp : T → T → Bool) (x : T) : pop comp #[x] = .error .ub := rfl

/-! ### The hypotheses are met -/

theorem ltInt : StrictWeak fun x y : Int => decide (x < y) :=
  ⟨by simp, by simp; exact fun x y z => lt_trans, by simp; exact fun x y z a b => le_trans b a⟩

def demoOps : List (Op Int) := [.push 5, .top, .pop, .push (-3), .pop, .pop, .size]

example : ValidOps Pre count (#[4, 1, 7] : Array Int).size demoOps := by decide

example : (do let a ← constructHeap (compare true fun x y : Int => decide (x < y)) #[4, 1, 7]
              let r ← runOps (step (compare true fun x y : Int => decide (x < y))) a demoOps
              return r.2) = .ok [.unit, .val 1, .val 1, .unit, .val (-3), .val 4, .size 2] := by decide

end BinaryHeap
