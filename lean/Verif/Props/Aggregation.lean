import Verif.Proof.Aggregation
import Mathlib.Algebra.FreeMonoid.Basic

/-!
# QueueAggregation and DequeAggregation: properties C14 and C15

Abstract state: the list of elements from front to back.
-/

namespace QueueAggregation
open Cxx

variable {T S R : Type}

def next (q : List T) : Op T → List T
  | .pushBack v => q ++ [v]
  | .popFront => q.tail
  | .clear => []
  | _ => q

/-- Nothing is taken out of an empty queue. -/
def Pre (q : List T) : Op T → Prop
  | .popFront => q ≠ []
  | .front => q ≠ []
  | .back => q ≠ []
  | .get i => i < q.length
  | _ => True

/-- `total` is what the user means by the product of a list of elements. -/
def Ans (total : List T → R) (q : List T) : Op T → Out T R → Prop
  | .prod, o => o = .sum (total q)
  | .front, o => ∃ v, q.head? = some v ∧ o = .val v
  | .back, o => ∃ v, q.getLast? = some v ∧ o = .val v
  | .get i, o => ∃ v, q[i]? = some v ∧ o = .val v
  | .size, o => o = .num q.length
  | _, o => o = .unit

/-- The contract on the template parameters: merging the accumulation of a front part (accumulated from its last element to its first) with
the accumulation of a back part (first to last) gives the total of the whole. -/
def Lawful (p : Params T S R) (total : List T → R) : Prop :=
  ∀ xs ys, p.merge (xs.reverse.foldl p.append p.e) (ys.foldl p.append p.e) = total (xs ++ ys)

theorem step_sim (p : Params T S R) (total : List T → R) (hl : Lawful p total) (s : State T S) (q : List T) (c : Op T)
    (h : ∃ xs ys, Rep p s xs ys ∧ xs ++ ys = q) (hp : Pre q c) :
    Tot (step p s c) fun r => (∃ xs ys, Rep p r.1 xs ys ∧ xs ++ ys = next q c) ∧ Ans total q c r.2 := by
  obtain ⟨xs, ys, h, rfl⟩ := h
  cases c with
  | pushBack v => exact Tot.pure ⟨⟨xs, ys ++ [v], pushBack_rep h v, by simp [next]⟩, rfl⟩
  | popFront => exact Tot.bind (popFront_tot h hp) fun s' h' => Tot.pure ⟨h', rfl⟩
  | prod =>
    refine Tot.pure ⟨⟨xs, ys, h, rfl⟩, ?_⟩
    show Out.sum (prod p s) = _
    unfold prod
    rw [h.1, h.2, top_tagged, top_tagged, hl]
  | front =>
    obtain ⟨v, hv⟩ := Option.isSome_iff_exists.1 (List.isSome_head?.2 hp)
    simp only [step, front_eq h hv, ok_bind]
    exact Tot.pure ⟨⟨xs, ys, h, rfl⟩, v, hv, rfl⟩
  | back =>
    obtain ⟨v, hv⟩ := Option.isSome_iff_exists.1 (List.getLast?_isSome.2 hp)
    simp only [step, back_eq h hv, ok_bind]
    exact Tot.pure ⟨⟨xs, ys, h, rfl⟩, v, hv, rfl⟩
  | get i =>
    have hv : (xs ++ ys)[i]? = some (xs ++ ys)[i] := List.getElem?_eq_getElem hp
    simp only [step, get_eq h hv, ok_bind]
    exact Tot.pure ⟨⟨xs, ys, h, rfl⟩, _, hv, rfl⟩
  | size =>
    refine Tot.pure ⟨⟨xs, ys, h, rfl⟩, ?_⟩
    show Out.num (size s) = _
    unfold size
    rw [h.sizeL, h.sizeR, List.length_append]
  | clear => exact Tot.pure ⟨⟨[], [], ⟨rfl, rfl⟩, rfl⟩, rfl⟩

theorem ofList_rep (p : Params T S R) (vs : List T) : Rep p (ofList p vs) [] vs := by
  unfold ofList
  have : ∀ (ws : List T) (s : State T S), Rep p s [] ws → Rep p (vs.foldl (pushBack p) s) [] (ws ++ vs) := by
    induction vs with
    | nil => intro ws s h; simpa using h
    | cons v vs ih =>
      intro ws s h
      have := ih (ws ++ [v]) _ (pushBack_rep h v)
      simpa using this
  simpa using this [] init ⟨rfl, rfl⟩

/-- **C14.** Any initial contents, any history. -/
theorem queueAggregation_correct (p : Params T S R) (total : List T → R) (hl : Lawful p total) (vs : List T) (ops : List (Op T))
    (hv : ValidOps Pre next vs ops) :
    ∃ s outs, runOps (step p) (ofList p vs) ops = .ok (s, outs) ∧ TraceOk next (Ans total) vs ops outs := by
  obtain ⟨⟨s, outs⟩, e, -, h⟩ := refine (Sim := fun s q => ∃ xs ys, Rep p s xs ys ∧ xs ++ ys = q) (step_sim p total hl)
    ⟨[], vs, ofList_rep p vs, rfl⟩ hv
  exact ⟨s, outs, e, h⟩

/-- A lawful instance that sees the order of the elements: `SumType` carries the elements in the order of insertion, `merge` reverses the first
argument. -/
def demo : Params Nat (List Nat) (List Nat) := ⟨[], fun s v => s ++ [v], fun a b => a.reverse ++ b⟩

example : Lawful demo id := by
  have : ∀ (xs acc : List Nat), xs.foldl (fun s v => s ++ [v]) acc = acc ++ xs := by
    intro xs
    induction xs with
    | nil => simp
    | cons x xs ih => intro acc; simp [ih]
  intro xs ys
  simp [demo, this]

def demoOps : List (Op Nat) := [.pushBack 4, .popFront, .pushBack 5, .prod, .front, .back, .get 2, .popFront, .size, .prod]

example : ValidOps Pre next [1, 2, 3] demoOps :=
  ⟨trivial, (by decide : [1, 2, 3, 4] ≠ []), trivial, trivial, (by decide : [2, 3, 4, 5] ≠ []), (by decide : [2, 3, 4, 5] ≠ []),
    (by decide : 2 < 4), (by decide : [2, 3, 4, 5] ≠ []), trivial, trivial, trivial⟩

example : (runOps (step demo) (ofList demo [1, 2, 3]) demoOps >>= fun r => .ok r.2) =
    .ok [.unit, .unit, .unit, .sum [2, 3, 4, 5], .val 2, .val 5, .val 4, .unit, .num 3, .sum [3, 4, 5]] := by decide

end QueueAggregation

namespace DequeAggregation
open Cxx

variable {T : Type} [Monoid T]

def next (q : List T) : Op T → List T
  | .pushBack v => q ++ [v]
  | .pushFront v => v :: q
  | .popBack => q.dropLast
  | .popFront => q.tail
  | .clear => []
  | _ => q

/-- Nothing is taken out of an empty deque. -/
def Pre (q : List T) : Op T → Prop
  | .popFront => q ≠ []
  | .popBack => q ≠ []
  | .front => q ≠ []
  | .back => q ≠ []
  | .get i => i < q.length
  | _ => True

/-- `prod` is the ordered product of the elements. -/
def Ans (q : List T) : Op T → Out T → Prop
  | .prod, o => o = .val q.prod
  | .front, o => ∃ v, q.head? = some v ∧ o = .val v
  | .back, o => ∃ v, q.getLast? = some v ∧ o = .val v
  | .get i, o => ∃ v, q[i]? = some v ∧ o = .val v
  | .size, o => o = .num q.length
  | _, o => o = .unit

theorem step_sim (s : State T) (q : List T) (c : Op T) (h : ∃ xs ys, Rep s xs ys ∧ xs ++ ys = q) (hp : Pre q c) :
    Tot (step (· * ·) 1 s c) fun r => (∃ xs ys, Rep r.1 xs ys ∧ xs ++ ys = next q c) ∧ Ans q c r.2 := by
  obtain ⟨xs, ys, h, rfl⟩ := h
  cases c with
  | pushBack v => exact Tot.pure ⟨⟨xs, ys ++ [v], pushBack_rep h v, by simp [next]⟩, rfl⟩
  | pushFront v => exact Tot.pure ⟨⟨v :: xs, ys, pushFront_rep h v, by simp [next]⟩, rfl⟩
  | popFront => exact Tot.bind (popFront_tot h hp) fun s' h' => Tot.pure ⟨h', rfl⟩
  | popBack => exact Tot.bind (popBack_tot h hp) fun s' h' => Tot.pure ⟨h', rfl⟩
  | prod =>
    refine Tot.pure ⟨⟨xs, ys, h, rfl⟩, ?_⟩
    show Out.val (prod (· * ·) 1 s) = _
    rw [prod_eq h]
  | front =>
    obtain ⟨v, hv⟩ := Option.isSome_iff_exists.1 (List.isSome_head?.2 hp)
    simp only [step, front_eq h hv, ok_bind]
    exact Tot.pure ⟨⟨xs, ys, h, rfl⟩, v, hv, rfl⟩
  | back =>
    obtain ⟨v, hv⟩ := Option.isSome_iff_exists.1 (List.getLast?_isSome.2 hp)
    simp only [step, back_eq h hv, ok_bind]
    exact Tot.pure ⟨⟨xs, ys, h, rfl⟩, v, hv, rfl⟩
  | get i =>
    have hv : (xs ++ ys)[i]? = some (xs ++ ys)[i] := List.getElem?_eq_getElem hp
    simp only [step, get_eq h hv, ok_bind]
    exact Tot.pure ⟨⟨xs, ys, h, rfl⟩, _, hv, rfl⟩
  | size =>
    refine Tot.pure ⟨⟨xs, ys, h, rfl⟩, ?_⟩
    show Out.num (size s) = _
    unfold size
    rw [h.sizeL, h.sizeR, List.length_append]
  | clear => exact Tot.pure ⟨⟨[], [], ⟨rfl, rfl⟩, rfl⟩, rfl⟩

/-- **C15.** Any monoid, any history (the range constructors are histories of `push_back`). -/
theorem dequeAggregation_correct (ops : List (Op T)) (hv : ValidOps Pre next [] ops) :
    ∃ s outs, runOps (step (· * ·) 1) (init : State T) ops = .ok (s, outs) ∧ TraceOk next Ans [] ops outs := by
  have h0 : ∃ xs ys, Rep (init : State T) xs ys ∧ xs ++ ys = [] := ⟨[], [], ⟨rfl, rfl⟩, rfl⟩
  obtain ⟨⟨s, outs⟩, e, -, h⟩ := refine (Sim := fun s q => ∃ xs ys, Rep s xs ys ∧ xs ++ ys = q) step_sim h0 hv
  exact ⟨s, outs, e, h⟩

/-- A history in a free monoid: both rebalancing paths are taken. -/
def demoOps : List (Op (FreeMonoid Nat)) :=
  [.pushBack (.of 1), .pushBack (.of 2), .pushBack (.of 3), .pushBack (.of 4), .popFront, .prod, .popBack, .popBack, .pushFront (.of 9),
    .popBack, .prod]

example : ValidOps Pre next [] demoOps :=
  ⟨trivial, trivial, trivial, trivial, List.cons_ne_nil _ _, trivial, List.cons_ne_nil _ _, List.cons_ne_nil _ _, trivial, List.cons_ne_nil _ _,
    trivial, trivial⟩

example : (runOps (step (fun a b : List Nat => a ++ b) []) init
    [.pushBack [1], .pushBack [2], .pushBack [3], .pushBack [4], .popFront, .prod, .popBack, .popBack, .pushFront [9], .popBack, .prod]
    >>= fun r => .ok r.2) =
    .ok [.unit, .unit, .unit, .unit, .unit, .val [2, 3, 4], .unit, .unit, .unit, .unit, .val [9]] := by decide

end DequeAggregation
