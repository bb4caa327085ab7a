import Verif.Proof.UndoUnionFind

/-!
# UndoUnionFind: property C03

Abstract state: `base`, the pairs that can no longer be undone (merged before the last `snapshot`), and
`stk`, the stack of *successful* merges since then.
-/

namespace UndoUnionFind
open Cxx
open UnionFind (Inv Sim Connected cls mem_cls link)
open Classical in
/-- Abstract transition. A merge that joins two components is pushed; `undo` pops the latest one; `rollback` returns to the last
`snapshot`. -/
noncomputable def next (t : List (Nat × Nat) × List (Nat × Nat)) : Op → List (Nat × Nat) × List (Nat × Nat)
  | .merge x y => if Connected (t.2 ++ t.1) x y then t else (t.1, (x, y) :: t.2)
  | .snapshot => (t.2 ++ t.1, [])
  | .undo => (t.1, t.2.tail)
  | .rollback => (t.1, [])
  | _ => t

/-- Vertices are in range; `undo` needs a merge to undo. -/
def Pre (n : Nat) (t : List (Nat × Nat) × List (Nat × Nat)) : Op → Prop
  | .root x => x < n
  | .merge x y => x < n ∧ y < n
  | .same x y => x < n ∧ y < n
  | .size x => x < n
  | .undo => t.2 ≠ []
  | _ => True

/-- The answers, in terms of the pairs currently in force. -/
def Ans (n : Nat) (t : List (Nat × Nat) × List (Nat × Nat)) : Op → Out → Prop
  | .root x, .vertex r => r < n ∧ Connected (t.2 ++ t.1) x r
  | .merge x y, .bool b => b = true ↔ ¬ Connected (t.2 ++ t.1) x y
  | .same x y, .bool b => b = true ↔ Connected (t.2 ++ t.1) x y
  | .size x, .int k => k = Set.ncard {y | y < n ∧ Connected (t.2 ++ t.1) x y}
  | .groups, .groups gs =>
      (∀ g ∈ gs, g ≠ []) ∧ gs.flatten.Perm (List.range n) ∧
      ∀ g ∈ gs, ∀ x ∈ g, ∀ y < n, (y ∈ g ↔ Connected (t.2 ++ t.1) x y)
  | .snapshot, .unit => True
  | .undo, .unit => True
  | .rollback, .unit => True
  | _, _ => False

theorem step_sim (n : Nat) (s : State) (t : List (Nat × Nat) × List (Nat × Nat)) (op : Op)
    (hs : Hist n t.1 s t.2) (hp : Pre n t op) :
    Tot (step s op) fun r => Hist n (next t op).1 r.1 (next t op).2 ∧ Ans n t op r.2 := by
  obtain ⟨base, stk⟩ := t
  have hs' := hs
  obtain ⟨R, rk, hI, hR⟩ := hs.sim
  cases op with
  | root x =>
    simp only [step, root_eq hI hp, ok_bind]
    exact Tot.pure ⟨hs, hI.lt x hp, (hR x _ hp (hI.lt x hp)).mp (hI.idem x hp).symm⟩
  | merge x y =>
    obtain ⟨hx, hy⟩ := hp
    obtain ⟨h1, h2⟩ := merge_eq s hI hx hy
    by_cases e : R x = R y
    · simp only [step, h1 e, ok_bind]
      refine Tot.pure ⟨?_, ?_⟩
      · simp only [next, if_pos ((hR x y hx hy).mp e)]; exact hs
      · show false = true ↔ _
        rw [← hR x y hx hy]; simp [e]
    · obtain ⟨p, c, rk', dat', vp, vc, hpc, he, hI', hp, hc, hne, hback⟩ := h2 e
      simp only [step, he, ok_bind]
      refine Tot.pure ⟨?_, ?_⟩
      · simp only [next, if_neg (mt (hR x y hx hy).mpr e)]
        refine ⟨⟨_, rk', hI', fun z w hz hw => ?_⟩, c, vc, p, vp, s.hist, rfl, hc, hp, ?_⟩
        · rw [List.cons_append, UnionFind.connected_cons]
          exact UnionFind.link_iff hx hy hR hpc z w hz hw
        · rw [hback]; exact hs
      · show true = true ↔ _
        rw [← hR x y hx hy]; simp [e]
  | same x y =>
    obtain ⟨hx, hy⟩ := hp
    simp only [step, same, root_eq hI hx, root_eq hI hy, ok_bind, pure_eq]
    refine Tot.pure ⟨hs, ?_⟩
    show decide _ = true ↔ _
    rw [decide_eq_true_iff]; exact hR x y hx hy
  | size x =>
    simp only [step, size, root_eq hI hp, ok_bind, rd_some (hI.root _ (hI.lt x hp) (hI.idem x hp)), pure_eq, neg_neg]
    exact Tot.pure ⟨hs, UnionFind.size_ans hR hp⟩
  | groups =>
    simp only [step, groups_eq s hI, ok_bind, pure_eq]
    exact Tot.pure ⟨hs, UnionFind.groups_ans hI.lt hR rfl⟩
  | snapshot =>
    exact Tot.pure ⟨⟨rfl, hs.sim⟩, trivial⟩
  | undo =>
    obtain ⟨e, stk, rfl⟩ := List.exists_cons_of_ne_nil hp
    obtain ⟨d, hist⟩ := s
    obtain ⟨-, c, vc, p, vp, h, rfl, hc, hp', hrest⟩ := hs
    simp only [step, undo_eq (h := h) (vc := vc) (vp := vp) (d := d) (by rw [hI.size]; exact hc)
      (by rw [hI.size]; exact hp'), ok_bind]
    exact Tot.pure ⟨hrest, trivial⟩
  | rollback =>
    refine Tot.bind (Hist.rollback stk s hs _ le_rfl) fun s' h' => ?_
    exact Tot.pure ⟨h', trivial⟩

/-- **C03.** Every history of in-range calls (with `undo` only when a merge can be undone) on `UndoUnionFind(n)` completes
safely, and every answer is the one for the pairs still in force: `undo` removes exactly the last successful merge,
`rollback` all successful merges since the last `snapshot`. -/
theorem undoUnionFind_correct (n : Nat) (ops : List Op) (hv : ValidOps (Pre n) next ([], []) ops) :
    ∃ s outs, runOps step (init n) ops = .ok (s, outs) ∧ TraceOk next (Ans n) ([], []) ops outs := by
  have h0 : Hist n [] (init n) [] := ⟨rfl, UnionFind.sim_init n⟩
  obtain ⟨⟨s, outs⟩, e, -, h⟩ := refine (Sim := fun s t => Hist n t.1 s t.2) (step_sim n) (t := ([], [])) h0 hv
  exact ⟨s, outs, e, h⟩

/-- The hypotheses are met by a history that undoes across a useless merge. -/
example : ValidOps (Pre 4) next ([], []) [.merge 0 1, .merge 1 0, .undo, .same 0 1, .merge 2 3, .rollback] := by
  have h01 : ∀ x y, Connected [] x y → x = y := by
    intro x y h
    induction h with
    | rel _ _ h => simp at h
    | refl => rfl
    | symm _ _ _ ih => exact ih.symm
    | trans _ _ _ _ _ ih1 ih2 => exact ih1.trans ih2
  have n1 : next ([], []) (.merge 0 1) = ([], [(0, 1)]) := if_neg fun h => absurd (h01 0 1 h) (by decide)
  have n2 : next ([], [(0, 1)]) (.merge 1 0) = ([], [(0, 1)]) := if_pos (.symm _ _ (.rel _ _ (by simp)))
  simp only [ValidOps, n1, n2]
  simp [Pre, next]

/-- **C03 (state restoration).** `undo` right after a successful `merge` restores the object bit for bit, whatever the
history before. -/
theorem undo_merge_restores (n : Nat) (ops : List Op) (hv : ValidOps (Pre n) next ([], []) ops) (x y : Nat)
    (hx : x < n) (hy : y < n) :
    ∃ s outs, runOps step (init n) ops = .ok (s, outs) ∧
      ∃ s' b, merge s x y = .ok (s', b) ∧ (b = true → undo s' = .ok s) ∧ (b = false → s' = s) := by
  have h0 : Hist n [] (init n) [] := ⟨rfl, UnionFind.sim_init n⟩
  obtain ⟨⟨s, outs⟩, e, hs, -⟩ := refine (Sim := fun s t => Hist n t.1 s t.2) (step_sim n) (t := ([], [])) h0 hv
  obtain ⟨R, rk, hI, hR⟩ := hs.sim
  simp only at hI
  refine ⟨s, outs, e, ?_⟩
  obtain ⟨h1, h2⟩ := merge_eq s hI hx hy
  by_cases e : R x = R y
  · exact ⟨s, false, h1 e, by simp, by simp⟩
  · obtain ⟨p, c, rk', dat', vp, vc, -, he, hI', hp, hc, hne, hback⟩ := h2 e
    refine ⟨_, true, he, fun _ => ?_, by simp⟩
    rw [undo_eq (by rw [hI'.size]; exact hc) (by rw [hI'.size]; exact hp), hback]

example : ValidOps (Pre 3) next ([], []) [.root 0, .size 1, .groups] := by simp [ValidOps, Pre]

example : (runOps step (init 4) [.merge 0 1, .merge 1 0, .undo, .same 0 1, .merge 2 3, .size 3, .rollback, .size 3]).toOption.map (·.2)
   = some [.bool true, .bool false, .unit, .bool false, .bool true, .int 2, .unit, .int 1] := by decide

end UndoUnionFind
