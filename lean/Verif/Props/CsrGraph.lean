import Verif.Proof.CsrGraphBuild

/-!
# Properties of `library/graph/csr_graph.hpp`
-/

namespace CsrGraph
open Cxx Spec
variable {W : Type}

theorem step_tot [Inhabited W] {g : Graph W} {S : State W} (h : ∃ off room, Rep g S off room) (c : Op W) (hc : Pre S c) :
    Tot (step g c) fun r => (∃ off room, Rep r.1 (next S c) off room) ∧ Ans S c r.2 := by
  obtain ⟨off, room, h⟩ := h
  by_cases hs : c = .shrinkToFit
  · subst hs
    dsimp only [step]
    exact Tot.bind (shrink_tot h hc) fun g' hg => Tot.pure ⟨⟨_, _, hg⟩, rfl⟩
  · exact (list_step_tot h c hc hs).mono fun r hr => ⟨⟨_, _, hr.1⟩, hr.2⟩

theorem behaves_of_rep [Inhabited W] {g : Graph W} {S : State W} (h : ∃ off room, Rep g S off room) : Behaves g S := by
  intro ops hv
  exact (refine (Sim := fun g S => ∃ off room, Rep g S off room) (fun s t i hs hp => step_tot hs i hp) h hv).mono fun r hr => hr.2

theorem rep_init [Inhabited W] {u : Bool} {n : Nat} {es : List (Nat × Nat × W)} {cap : Array Int}
    (h : ∀ e ∈ es, e.1 < n ∧ (u = true → e.2.1 < n)) (hcap : cap.size = 0 ∨ n ≤ cap.size) :
    Tot (create u n es cap) fun g => ∃ off room, Rep g (Spec.init u n es cap) off room :=
  (create_tot h hcap).mono fun _ h => ⟨_, _, h⟩

theorem rep_run [Inhabited W] {g : Graph W} {S : State W} (h : ∃ off room, Rep g S off room) {ops : List (Op W)}
    (hv : ValidOps Pre next S ops) : Tot (runOps step g ops) fun r => ∃ off room, Rep r.1 (ops.foldl next S) off room :=
  (refine (Sim := fun g S => ∃ off room, Rep g S off room) (fun s t i hs hp => step_tot hs i hp) h hv).mono fun r hr => hr.1

/-- C204: a graph made from a list of edges behaves as a family of bounded lists.  For all edges, directed or undirected, with
end points in range, and all sequences of permitted calls, every list initially has the arcs of its vertex in the order
of the input, and all calls have the effect and the result they have on lists, whichever other lists are changed in between. -/
theorem csr_correct [Inhabited W] {u : Bool} {n : Nat} {es : List (Nat × Nat × W)} {cap : Array Int}
    (h : ∀ e ∈ es, e.1 < n ∧ (u = true → e.2.1 < n)) (hcap : cap.size = 0 ∨ n ≤ cap.size) :
    Tot (create u n es cap) fun g => Behaves g (Spec.init u n es cap) :=
  (rep_init h hcap).mono fun _ h => behaves_of_rep h

/-- C204: the graph made from a vector of adjacency lists has these lists. -/
theorem ofLists_correct [Inhabited W] (g : Array (List (Nat × W))) :
    Tot (ofLists g) fun r => Behaves r (Spec.ofLists g) := by
  unfold ofLists
  refine Tot.bind (makeEdges_tot g) ?_
  rintro es ⟨h1, h2⟩
  refine (create_tot (u := false) (fun e he => ⟨h1 e he, fun h => absurd h (by simp)⟩) (Or.inl rfl)).mono fun r hr =>
    behaves_of_rep ⟨_, _, hr.n, hr.sz, fun i hi => ?_, fun i hi => ?_, hr.dis, fun i hi => ?_⟩
  · have := hr.adj i hi
    dsimp only [Spec.init] at this
    rw [neighbours_false, h2 i hi] at this
    exact this
  · have := hr.fit i hi
    dsimp only [Spec.init] at this
    rw [neighbours_false, h2 i hi] at this
    dsimp only [Spec.ofLists]
    rw [neighbours_false, h2 i hi]
    exact this
  · have := hr.val i hi
    dsimp only [Spec.init] at this
    rw [neighbours_false, h2 i hi] at this
    exact this

/-- C204: `reversed`, after any history of a graph all of whose targets are vertices, returns the graph of the reversed arcs and
leaves the lists of the graph as they are. -/
theorem reversed_correct [Inhabited W] {u : Bool} {n : Nat} {es : List (Nat × Nat × W)} {cap cap' : Array Int}
    (h : ∀ e ∈ es, e.1 < n ∧ (u = true → e.2.1 < n)) (hcap : cap.size = 0 ∨ n ≤ cap.size) {ops : List (Op W)}
    (hv : ValidOps Pre next (Spec.init u n es cap) ops) {S : State W} (hS : S = ops.foldl next (Spec.init u n es cap))
    (hlt : ∀ i < S.n, ∀ e ∈ (S.v i).list, e.1 < S.n) (hcap' : cap'.size = 0 ∨ S.n ≤ cap'.size) :
    Tot (create u n es cap) fun g => Tot (runOps step g ops) fun r => Tot (reversed r.1 cap') fun q =>
      Behaves q.1 (accessed S) ∧ Behaves q.2 (Spec.reverse S cap') := by
  refine (rep_init h hcap).mono fun g hg => (rep_run hg hv).mono fun r hr => ?_
  rw [← hS] at hr
  obtain ⟨off, room, hr⟩ := hr
  unfold reversed
  refine Tot.bind (rev_tot hr hlt) ?_
  rintro ⟨g', es'⟩ ⟨h1, h2, h3⟩
  dsimp only at h1 h2 h3 ⊢
  have hn : g'.n = S.n := h1.n
  rw [hn]
  refine Tot.bind (create_tot (u := false) (fun e he => ⟨h2 e he, fun h => absurd h (by simp)⟩) hcap') ?_
  intro q hq
  have e : Spec.init false S.n es' cap' = Spec.reverse S cap' := by
    unfold Spec.init Spec.reverse
    congr 1
    funext k
    rw [neighbours_false, h3]
    rfl
  rw [e] at hq
  exact Tot.pure ⟨behaves_of_rep ⟨_, _, h1⟩, behaves_of_rep ⟨_, _, hq⟩⟩

instance [DecidableEq W] (S : State W) (c : Op W) : Decidable (Pre S c) := by
  cases c <;> unfold Pre <;> infer_instance

/-- An undirected graph with a loop, and a history with removals, insertions, a compaction and reads. -/
example : ValidOps Pre next (Spec.init (W := Unit) true 3 [(0, 1, ()), (1, 2, ()), (1, 1, ())] #[])
    [.erase 1 1 3, .pushBack 1 (0, ()), .emplace 1 1 (2, ()), .list 1, .back 0, .popBack 1, .shrinkToFit, .rlist 1] := by
  decide +kernel

/-- C205, violated: the argument `cap` does not reserve room.  In a graph just made, with any edges and any capacities, an edge cannot be
added to any vertex: the assertion of `push_back` fails. -/
theorem pushBack_counterexample [Inhabited W] {u : Bool} {n : Nat} {es : List (Nat × Nat × W)} {cap : Array Int}
    (h : ∀ e ∈ es, e.1 < n ∧ (u = true → e.2.1 < n)) (hcap : cap.size = 0 ∨ n ≤ cap.size) {i : Nat} (hi : i < n) (x : Nat × W) :
    Tot (create u n es cap) fun g => step g (.pushBack i x) = .error .assertion := by
  refine (create_tot h hcap).mono fun g hg => ?_
  have ha := hg.adj i hi
  dsimp only [step]
  unfold modify access pushBack
  rw [rd_some ha, ok_bind, wr_eq (by rw [hg.sz]; exact hi)]
  simp only [ok_bind, pure_eq]
  rw [show decide _ = false from decide_eq_false (by dsimp only [Spec.init]; push_cast; omega)]
  rfl

/-- C205, the part that holds: after any history, `push_back` appends if and only if the list is shorter than its capacity, and
otherwise fails in its assertion. -/
theorem pushBack_partial [Inhabited W] {u : Bool} {n : Nat} {es : List (Nat × Nat × W)} {cap : Array Int}
    (h : ∀ e ∈ es, e.1 < n ∧ (u = true → e.2.1 < n)) (hcap : cap.size = 0 ∨ n ≤ cap.size) {ops : List (Op W)}
    (hv : ValidOps Pre next (Spec.init u n es cap) ops) {S : State W} (hS : S = ops.foldl next (Spec.init u n es cap))
    {i : Nat} (hi : i < S.n) (x : Nat × W) :
    Tot (create u n es cap) fun g => Tot (runOps step g ops) fun r =>
      if ((S.v i).list.length : Int) < (S.v i).cap then
        Tot (step r.1 (.pushBack i x)) fun q => Behaves q.1 (S.put i ((S.v i).list ++ [x]))
      else step r.1 (.pushBack i x) = .error .assertion := by
  refine (rep_init h hcap).mono fun g hg => (rep_run hg hv).mono fun r hr => ?_
  rw [← hS] at hr
  by_cases hc : ((S.v i).list.length : Int) < (S.v i).cap
  · rw [if_pos hc]
    exact (step_tot hr (.pushBack i x) ⟨hi, by omega⟩).mono fun q hq => behaves_of_rep hq.1
  · rw [if_neg hc]
    obtain ⟨off, room, hr⟩ := hr
    dsimp only [step]
    unfold modify access pushBack
    rw [rd_some (hr.adj i hi), ok_bind, wr_eq (by rw [hr.sz]; exact hi)]
    simp only [ok_bind, pure_eq]
    rw [show decide _ = false from decide_eq_false (by push_cast; omega)]
    rfl

/-- Both cases of `pushBack_partial` occur: after one removal there is room for one edge. -/
example : let S := [Op.popBack 0].foldl next (Spec.init (W := Unit) false 2 [(0, 1, ()), (1, 0, ())] #[])
    ((S.v 0).list.length : Int) < (S.v 0).cap ∧ ¬ ((S.v 1).list.length : Int) < (S.v 1).cap := by
  decide +kernel

/-- C206, violated: `shrink_to_fit` of a graph that was copied or moved and not accessed since reads through pointers to
the old object, which no longer exists. -/
theorem shrinkToFit_counterexample [Inhabited W] {u : Bool} {n : Nat} {es : List (Nat × Nat × W)} {cap : Array Int} (hn : 0 < n)
    (h : ∀ e ∈ es, e.1 < n ∧ (u = true → e.2.1 < n)) (hcap : cap.size = 0 ∨ n ≤ cap.size) :
    Tot (create u n es cap) fun g => runOps step g [.moved, .shrinkToFit] = .error .ub := by
  refine (create_tot h hcap).mono fun g hg => ?_
  have hm := moved_rep hg
  have ha := hm.adj 0 hn
  have hgn : (moved g).n = n := hm.n
  simp only [runOps, step, pure_eq, ok_bind]
  unfold shrinkToFit
  dsimp only
  rw [hgn]
  obtain ⟨m, rfl⟩ : ∃ m, n = m + 1 := ⟨n - 1, by omega⟩
  unfold forUp
  rw [show m + 1 - 0 = m + 1 from rfl, forN]
  unfold shrinkStep deref
  dsimp only
  rw [rd_some ha, ok_bind]
  rfl

/-- C206, the part that holds: all calls on the lists of a copied or moved graph are right, and so is `shrink_to_fit` once every list has
been accessed. -/
theorem moved_partial [Inhabited W] {u : Bool} {n : Nat} {es : List (Nat × Nat × W)} {cap : Array Int}
    (h : ∀ e ∈ es, e.1 < n ∧ (u = true → e.2.1 < n)) (hcap : cap.size = 0 ∨ n ≤ cap.size) :
    Tot (create u n es cap) fun g =>
      Behaves (moved g) ⟨n, fun i => ⟨((Spec.init u n es cap).v i).list, ((Spec.init u n es cap).v i).cap, false⟩⟩ :=
  (create_tot h hcap).mono fun _ hg => behaves_of_rep ⟨_, _, moved_rep hg⟩

example : ValidOps Pre next ⟨2, fun i => ⟨((Spec.init (W := Unit) true 2 [(0, 1, ())] #[]).v i).list,
      ((Spec.init (W := Unit) true 2 [(0, 1, ())] #[]).v i).cap, false⟩⟩
    [.size 0, .list 1, .shrinkToFit] := by
  decide +kernel

/-- `insert(pos, 0, x)` before the end of a list moves a range onto itself, which `std::move_backward` does not allow. -/
theorem insert_none_undefined [Inhabited W] : ∃ (g : Graph Unit), create false 1 [(0, 0, ())] #[] = .ok g ∧
    step g (.insertN 0 0 0 (0, ())) = .error .ub := ⟨_, rfl, rfl⟩

end CsrGraph
