import Verif.Proof.SlidingWindowMinimum
import Mathlib.Order.Defs.LinearOrder
import Mathlib.Data.Int.Order.Basic

/-!
# sliding_window_minimum: property C19

Abstract state: the window `[l, r)`.  The element sequence is `f = gen`.
-/

namespace SlidingWindowMinimum
open Cxx

variable {T : Type}

/-- Moves of the window. -/
def next (w : Nat × Nat) : Op → Nat × Nat
  | .procRight => (w.1, w.2 + 1)
  | .procRightTo t => (w.1, max w.2 t)
  | .procLeft => (w.1 + 1, w.2)
  | .procLeftTo t => (max w.1 t, w.2)
  | .proc l r => (max w.1 l, max w.2 r)
  | _ => w

/-- The window stays inside of `[0, n)`, its left end does not overtake its right end, queries are on non-empty windows. -/
def Pre (n : Nat) (w : Nat × Nat) : Op → Prop
  | .procRight => w.2 < n
  | .procRightTo t => t ≤ n
  | .procLeft => w.1 < w.2
  | .procLeftTo t => t ≤ w.2
  | .proc l r => r ≤ n ∧ l ≤ max w.2 r
  | .argQuery => w.1 < w.2
  | .query => w.1 < w.2
  | _ => True

instance (n : Nat) (w : Nat × Nat) (c : Op) : Decidable (Pre n w c) := by
  cases c <;> (unfold Pre; infer_instance)

/-- `Best w i`: index `i` is the answer for the window `w`. -/
def Ans (f : Nat → T) (Best : Nat × Nat → Nat → Prop) (w : Nat × Nat) : Op → Out T → Prop
  | .argQuery, o => ∃ i, Best w i ∧ o = .idx i
  | .query, o => ∃ i, Best w i ∧ o = .val (f i)
  | .getLeft, o => o = .idx w.1
  | .getRight, o => o = .idx w.2
  | .windowSize, o => o = .idx (w.2 - w.1)
  | _, o => o = .unit

/-- `i` lies in the window and its value is extremal for `≤`; among equal values it is the leftmost. -/
def Leftmost (le : T → T → Prop) (f : Nat → T) (w : Nat × Nat) (i : Nat) : Prop :=
  w.1 ≤ i ∧ i < w.2 ∧ ∀ j, w.1 ≤ j → j < w.2 → le (f i) (f j) ∧ (f j = f i → i ≤ j)

/-- The same with the rightmost index. -/
def Rightmost (le : T → T → Prop) (f : Nat → T) (w : Nat × Nat) (i : Nat) : Prop :=
  w.1 ≤ i ∧ i < w.2 ∧ ∀ j, w.1 ≤ j → j < w.2 → le (f i) (f j) ∧ (f j = f i → j ≤ i)

theorem step_sim (cmp : T → T → Bool) (hc : Order cmp) (n : Nat) (f : Nat → T) (Best : Nat × Nat → Nat → Prop)
    (hB : ∀ w i, w.1 ≤ i → i < w.2 → (∀ j, i < j → j < w.2 → cmp (f i) (f j) = false) → (∀ j, w.1 ≤ j → j < i → cmp (f j) (f i) = true) → Best w i)
    (s : State T) (w : Nat × Nat) (c : Op) (h : Inv cmp n f w.1 w.2 s) (hp : Pre n w c) :
    Tot (step cmp s c) fun r => Inv cmp n f (next w c).1 (next w c).2 r.1 ∧ Ans f Best w c r.2 := by
  cases c with
  | procRight => exact Tot.bind (procRight_tot hc h hp) fun s' h' => Tot.pure ⟨h', rfl⟩
  | procRightTo t => exact Tot.bind (procRightTo_tot hc h hp) fun s' h' => Tot.pure ⟨h', rfl⟩
  | procLeft => exact Tot.bind (procLeft_tot h hp) fun s' h' => Tot.pure ⟨h', rfl⟩
  | procLeftTo t => exact Tot.bind (procLeftTo_tot h hp) fun s' h' => Tot.pure ⟨h', rfl⟩
  | proc l r =>
    refine Tot.bind ?_ fun s' h' => Tot.pure ⟨h', rfl⟩
    exact Tot.bind (procRightTo_tot hc h hp.1) fun s' h' => procLeftTo_tot h' hp.2
  | argQuery => exact Tot.bind (argQuery_tot hc h hp) fun i hi => Tot.pure ⟨h, i, hB w i hi.1 hi.2.1 hi.2.2.1 hi.2.2.2, rfl⟩
  | query =>
    refine Tot.bind (P := fun v => ∃ i, Best w i ∧ v = f i) ?_ ?_
    · refine Tot.bind (argQuery_tot hc h hp) fun i hi => ?_
      rw [rd_some (h.ha i (by have := h.hrn; omega))]
      exact Tot.pure ⟨i, hB w i hi.1 hi.2.1 hi.2.2.1 hi.2.2.2, rfl⟩
    · rintro v ⟨i, hi, rfl⟩
      exact Tot.pure ⟨h, i, hi, rfl⟩
  | getLeft => exact Tot.pure ⟨h, by show Out.idx s.l = _; rw [h.hl]⟩
  | getRight => exact Tot.pure ⟨h, by show Out.idx s.r = _; rw [h.hr]⟩
  | windowSize => exact Tot.pure ⟨h, by show Out.idx (s.r - s.l) = _; rw [h.hl, h.hr]⟩

theorem correct_of (cmp : T → T → Bool) (hc : Order cmp) (n : Nat) (f : Nat → T) (Best : Nat × Nat → Nat → Prop)
    (hB : ∀ w i, w.1 ≤ i → i < w.2 → (∀ j, i < j → j < w.2 → cmp (f i) (f j) = false) → (∀ j, w.1 ≤ j → j < i → cmp (f j) (f i) = true) → Best w i)
    (ops : List Op) (hv : ValidOps (Pre n) next (0, 0) ops) :
    ∃ s outs, runOps (step cmp) (init n f) ops = .ok (s, outs) ∧ TraceOk next (Ans f Best) (0, 0) ops outs := by
  obtain ⟨⟨s, outs⟩, e, -, h⟩ := refine (Sim := fun s w => Inv cmp n f w.1 w.2 s) (step_sim cmp hc n f Best hB) (init_inv n f) hv
  exact ⟨s, outs, e, h⟩

variable [LinearOrder T]

/-- **C19**, `left_most_min` (the default, `std::greater`). -/
theorem slidingWindow_leftMostMin (n : Nat) (f : Nat → T) (ops : List Op) (hv : ValidOps (Pre n) next (0, 0) ops) :
    ∃ s outs, runOps (step fun x y => decide (x > y)) (init n f) ops = .ok (s, outs) ∧ TraceOk next (Ans f (Leftmost (· ≤ ·) f)) (0, 0) ops outs := by
  refine correct_of _ ⟨fun x y z => ?_, fun x y z => ?_⟩ n f _ (fun w i h1 h2 h3 h4 => ⟨h1, h2, fun j h5 h6 => ?_⟩) ops hv
  · simp only [decide_eq_false_iff_not, not_lt, gt_iff_lt]; exact le_trans
  · simp only [decide_eq_true_eq, gt_iff_lt]; exact fun a b => lt_trans b a
  · simp only [decide_eq_false_iff_not, not_lt, gt_iff_lt, decide_eq_true_eq] at h3 h4
    rcases Nat.lt_trichotomy j i with hj | rfl | hj
    · have := h4 j h5 hj
      exact ⟨this.le, fun e => absurd e this.ne'⟩
    · exact ⟨le_rfl, fun _ => le_rfl⟩
    · exact ⟨h3 j hj h6, fun _ => hj.le⟩

/-- **C19**, `right_most_min` (`std::greater_equal`). -/
theorem slidingWindow_rightMostMin (n : Nat) (f : Nat → T) (ops : List Op) (hv : ValidOps (Pre n) next (0, 0) ops) :
    ∃ s outs, runOps (step fun x y => decide (x ≥ y)) (init n f) ops = .ok (s, outs) ∧ TraceOk next (Ans f (Rightmost (· ≤ ·) f)) (0, 0) ops outs := by
  refine correct_of _ ⟨fun x y z => ?_, fun x y z => ?_⟩ n f _ (fun w i h1 h2 h3 h4 => ⟨h1, h2, fun j h5 h6 => ?_⟩) ops hv
  · simp only [decide_eq_false_iff_not, not_le, ge_iff_le]; exact lt_trans
  · simp only [decide_eq_true_eq, ge_iff_le]; exact fun a b => le_trans b a
  · simp only [decide_eq_false_iff_not, not_le, ge_iff_le, decide_eq_true_eq] at h3 h4
    rcases Nat.lt_trichotomy j i with hj | rfl | hj
    · exact ⟨h4 j h5 hj, fun _ => hj.le⟩
    · exact ⟨le_rfl, fun _ => le_rfl⟩
    · have := h3 j hj h6
      exact ⟨this.le, fun e => absurd e this.ne'⟩

/-- **C19**, `left_most_max` (`std::less`). -/
theorem slidingWindow_leftMostMax (n : Nat) (f : Nat → T) (ops : List Op) (hv : ValidOps (Pre n) next (0, 0) ops) :
    ∃ s outs, runOps (step fun x y => decide (x < y)) (init n f) ops = .ok (s, outs) ∧ TraceOk next (Ans f (Leftmost (· ≥ ·) f)) (0, 0) ops outs := by
  refine correct_of _ ⟨fun x y z => ?_, fun x y z => ?_⟩ n f _ (fun w i h1 h2 h3 h4 => ⟨h1, h2, fun j h5 h6 => ?_⟩) ops hv
  · simp only [decide_eq_false_iff_not, not_lt]; exact fun a b => le_trans b a
  · simp only [decide_eq_true_eq]; exact lt_trans
  · simp only [decide_eq_false_iff_not, not_lt, decide_eq_true_eq] at h3 h4
    rcases Nat.lt_trichotomy j i with hj | rfl | hj
    · have := h4 j h5 hj
      exact ⟨this.le, fun e => absurd e this.ne⟩
    · exact ⟨le_rfl, fun _ => le_rfl⟩
    · exact ⟨h3 j hj h6, fun _ => hj.le⟩

/-- **C19**, `right_most_max` (`std::less_equal`). -/
theorem slidingWindow_rightMostMax (n : Nat) (f : Nat → T) (ops : List Op) (hv : ValidOps (Pre n) next (0, 0) ops) :
    ∃ s outs, runOps (step fun x y => decide (x ≤ y)) (init n f) ops = .ok (s, outs) ∧ TraceOk next (Ans f (Rightmost (· ≥ ·) f)) (0, 0) ops outs := by
  refine correct_of _ ⟨fun x y z => ?_, fun x y z => ?_⟩ n f _ (fun w i h1 h2 h3 h4 => ⟨h1, h2, fun j h5 h6 => ?_⟩) ops hv
  · simp only [decide_eq_false_iff_not, not_le]; exact fun a b => lt_trans b a
  · simp only [decide_eq_true_eq]; exact le_trans
  · simp only [decide_eq_false_iff_not, not_le, decide_eq_true_eq] at h3 h4
    rcases Nat.lt_trichotomy j i with hj | rfl | hj
    · exact ⟨h4 j h5 hj, fun _ => hj.le⟩
    · exact ⟨le_rfl, fun _ => le_rfl⟩
    · have := h3 j hj h6
      exact ⟨this.le, fun e => absurd e this.ne⟩

/-! ### The hypotheses are met -/

def demo : Nat → Int := fun i => [3, 1, 2, 1, 5, 0].getD i 0
def demoOps : List Op := [.proc 0 4, .argQuery, .procLeftTo 2, .query, .proc 4 6, .argQuery, .windowSize]

example : ValidOps (Pre 6) next (0, 0) demoOps := by decide

example : (runOps (step fun x y => decide (x > y)) (init 6 demo) demoOps >>= fun r => .ok r.2) =
    .ok [.unit, .idx 1, .unit, .val 1, .unit, .idx 5, .idx 2] := by decide

end SlidingWindowMinimum
