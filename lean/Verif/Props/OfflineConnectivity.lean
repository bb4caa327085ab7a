import Verif.Proof.OfflineConnectivity

/-!
# Offline dynamic connectivity: properties C169, C170, C171
-/

namespace OfflineConnectivity
open Cxx

variable {Q : Type}

/-- The queries of a valid history are valid. -/
theorem asked_ok {n : Nat} {ok : Q → Prop} : ∀ (E : List (Nat × Nat)) (ops : List (Op Q)), Valid n ok E ops →
    ∀ x ∈ asked E ops, ok x.2
  | _, [], _ => by simp [asked]
  | E, .add u v :: ops, h => asked_ok _ ops h.2
  | E, .del u v c :: ops, h => asked_ok _ ops h.2
  | E, .query x :: ops, h => by
    intro y hy
    rcases List.mem_cons.mp hy with rfl | hy
    · exact h.1
    · exact asked_ok E ops h.2 y hy

theorem run_tot {n : Nat} {ok : Q → Prop} (ops : List (Op Q)) (hv : Valid n ok [] ops) :
    Tot (run ops) fun s => Closed n (close s) (asked [] ops) ∧ Closed n (close (close s)) (asked [] ops) := by
  refine Tot.mono (step_tot (inv_init n) ops hv) ?_
  rintro s ⟨E, h⟩
  have := close_closed h
  rw [List.nil_append] at this
  exact ⟨this, by simpa [close] using this⟩

end OfflineConnectivity

namespace OfflineDynamicConnectivity
open Cxx OfflineConnectivity
open UnionFind (Connected Sim)

theorem undoable (n : Nat) : Undoable uf (fun s A => Sim n s.dat A) n := by
  refine ⟨fun s A u v ⟨R, rk, hI, hR⟩ hu hv => ?_⟩
  obtain ⟨h1, h2⟩ := UndoUnionFind.merge_eq s hI hu hv
  by_cases e : R u = R v
  · exact ⟨_, h1 e, ⟨R, rk, hI, UnionFind.sim_cons_of_connected hu hv hR e⟩, by simp, fun _ => rfl⟩
  · obtain ⟨p, c, rk', dat', vp, vc, hpc, he, hI', hp, hc, hne, hback⟩ := h2 e
    refine ⟨_, he, ⟨_, rk', hI', fun z w hz hw => ?_⟩, fun _ => ?_, by simp⟩
    · rw [UnionFind.connected_cons]
      exact UnionFind.link_iff hu hv hR hpc z w hz hw
    · show UndoUnionFind.undo _ = _
      rw [UndoUnionFind.undo_eq (by rw [hI'.size]; exact hc) (by rw [hI'.size]; exact hp), hback]

theorem answer_closed {n : Nat} {s : State (Nat × Nat)} {S : List (List (Nat × Nat) × (Nat × Nat))} (hc : Closed n (close s) S)
    (hok : ∀ x ∈ S, x.2.1 < n ∧ x.2.2 < n) :
    ∃ bs, answer n s = .ok (close s, bs) ∧ List.Forall₂ (fun x (b : Bool) => b = true ↔ Connected x.1 x.2.1 x.2.2) S bs := by
  refine answer_tot (undoable n) (UnionFind.sim_init n) false (fun x b => b = true ↔ Connected x.1 x.2.1 x.2.2)
    (ok := fun x => x.1 < n ∧ x.2 < n) ?_ hc hok
  rintro s A E ⟨u, v⟩ ⟨R, rk, hI, hR⟩ ⟨hu, hv⟩ hAE
  simp only [uf, UndoUnionFind.same, UndoUnionFind.root_eq hI hu, UndoUnionFind.root_eq hI hv, ok_bind]
  refine Tot.pure ?_
  rw [decide_eq_true_iff, hR u v hu hv]
  exact hAE u v

/-- **C169.** After any history of `add_query`, `del_query` (of existing edges, whichever of several equal ones `find` returns)
and `connectivity_query` on vertices below `n`, `answer()` returns for the `j`-th query whether its vertices were connected in the
graph of that moment. -/
theorem answer_correct (n : Nat) (ops : List (Op (Nat × Nat))) (hv : Valid n (fun x => x.1 < n ∧ x.2 < n) [] ops) :
    ∃ s s' bs, run ops = .ok s ∧ answer n s = .ok (s', bs) ∧
      List.Forall₂ (fun x (b : Bool) => b = true ↔ Connected x.1 x.2.1 x.2.2) (asked [] ops) bs := by
  obtain ⟨s, hs, hc, -⟩ := run_tot ops hv
  obtain ⟨bs, e, h⟩ := answer_closed hc (asked_ok [] ops hv)
  exact ⟨s, _, bs, hs, e, h⟩

/-- **C171, part.** A second `answer()` right after the first returns the same. -/
theorem answer_twice_partial (n : Nat) (ops : List (Op (Nat × Nat))) (hv : Valid n (fun x => x.1 < n ∧ x.2 < n) [] ops) :
    ∃ s s' bs, run ops = .ok s ∧ answer n s = .ok (s', bs) ∧ answer n s' = .ok (s', bs) := by
  obtain ⟨s, hs, hc, hc'⟩ := run_tot ops hv
  obtain ⟨bs, e, h⟩ := answer_closed hc (asked_ok [] ops hv)
  obtain ⟨bs', e', h'⟩ := answer_closed hc' (asked_ok [] ops hv)
  have hcc : close (close s) = close s := by simp [close]
  rw [hcc] at e'
  refine ⟨s, _, bs, hs, e, ?_⟩
  have : bs' = bs := by
    clear e e' hs hc hc' hv
    generalize asked [] ops = S at h h'
    induction h generalizing bs' with
    | nil => cases h'; rfl
    | cons h1 _ ih =>
      cases h' with
      | cons g1 g2 =>
        rw [ih _ g2, Bool.eq_iff_iff.mpr (g1.trans h1.symm)]
  rw [e', this]

/-- A history with parallel edges, a loop, and an edge deleted in the other direction. -/
example : Valid 4 (fun x : Nat × Nat => x.1 < 4 ∧ x.2 < 4) []
    [.query (0, 1), .add 0 1, .add 1 0, .query (0, 1), .del 1 0 1, .add 2 2, .query (1, 0), .del 0 1 0, .query (0, 1), .add 3 2, .query (2, 3)] := by
  decide

/-- … and its answers. -/
example : (do
    let s ← run [.query (0, 1), .add 0 1, .add 1 0, .query (0, 1), .del 1 0 1, .add 2 2, .query (1, 0), .del 0 1 0, .query (0, 1), .add 3 2, .query (2, 3)]
    let (_, bs) ← answer 4 s
    return bs : M (List Bool)) = .ok [false, true, true, false, true] := by decide +kernel

/-- **C171, refuted.** `answer()` forgets the edges that are still there: a query made after it does not see them, … -/
theorem answer_forgets_counterexample : (do
    let s ← run [.add 0 1, .query (0, 1)]
    let (s, b1) ← answer 2 s
    let s ← step s (.query (0, 1))
    let (_, b2) ← answer 2 s
    return (b1, b2) : M (List Bool × List Bool)) = .ok ([true], [true, false]) := by decide +kernel

/-- … and deleting such an edge fails the assertion. -/
theorem delete_after_answer_counterexample : (do
    let s ← run [.add 0 1, .query (0, 1)]
    let (s, _) ← answer 2 s
    step s (.del 0 1 0) : M (State (Nat × Nat))) = .error .assertion := by decide +kernel

end OfflineDynamicConnectivity

namespace OfflineDynamicConnectivityComponentSum
open Cxx OfflineConnectivity
open UnionFind (Connected)
open UndoUnionFindComponentSum (SimS)

variable {T V A : Type} [AddCommMonoid A]

theorem undoable {mergeData : T → T → T} {undoData : T → T} (getValue : T → V) {obs : T → A}
    (hf : ∀ a b, obs (mergeData a b) = obs a + obs b) (hu : ∀ a b, undoData (mergeData a b) = a) (w : Nat → A) (n : Nat) :
    Undoable (uf mergeData undoData getValue) (SimS obs w n) n := by
  refine ⟨fun s E u v ⟨R, rk, hI, hR, hS⟩ hx hy => ?_⟩
  obtain ⟨h1, h2⟩ := UndoUnionFindComponentSum.merge_eq hf s hI hS hx hy
  by_cases e : R u = R v
  · exact ⟨_, h1 e, ⟨R, rk, hI, UnionFind.sim_cons_of_connected hx hy hR e, hS⟩, by simp, fun _ => rfl⟩
  · obtain ⟨p, c, rk', dat', vp, vc, sum', hpc, he, hI', hS', hp, hc, hne, hback, va, vb, hva, rfl⟩ := h2 e
    have hps : p < s.sum.size := by rw [hS.1]; exact hp
    refine ⟨_, he, ⟨_, rk', hI', fun z w hz hw => ?_, hS'⟩, fun _ => ?_, by simp⟩
    · rw [UnionFind.connected_cons]
      exact UnionFind.link_iff hx hy hR hpc z w hz hw
    · show UndoUnionFindComponentSum.undo undoData _ = _
      rw [UndoUnionFindComponentSum.undo_eq (v := mergeData va vb) (by rw [hI'.size]; exact hc) (by rw [hI'.size]; exact hp)
        (by rw [get?_set _ _ _ _ hps, if_pos rfl]), hback, hu]
      have : (s.sum.setIfInBounds p (mergeData va vb)).setIfInBounds p va = s.sum := by
        apply Array.ext_getElem?
        intro i
        rw [get?_set _ _ _ _ (by simpa using hps), get?_set _ _ _ _ hps]
        split
        · subst_vars; exact hva.symm
        · rfl
      rw [this]

/-- Vertices of a query are below `n`. -/
def okQuery (n : Nat) : Query → Prop
  | .same u v => u < n ∧ v < n
  | .sum u => u < n

/-- The answer to a query on a graph with the edges `E`: connectivity, or the sum of the values of the vertices connected with `u`. -/
def Answers (obs : V → A) (val : Nat → A) (n : Nat) (E : List (Nat × Nat)) : Query → Ans V → Prop
  | .same u v, .bool b => b = true ↔ Connected E u v
  | .sum u, .val x => obs x = ComponentSum.compSum n E val u
  | _, _ => False

/-- **C170.** After any history of `add_query`, `del_query` (of existing edges), `connectivity_query` and `component_sum_query`,
`answer(init_values)` returns for the `j`-th query whether its vertices were connected in the graph of that moment, or the sum of the
initial values over the component of the vertex at that moment. Here `undo_data` undoes `merge_data`, and `obs ∘ get_value` of the
merged data is the sum. -/
theorem answer_correct {mergeData : T → T → T} {undoData : T → T} {getValue : T → V} {obs : V → A}
    (hf : ∀ a b, obs (getValue (mergeData a b)) = obs (getValue a) + obs (getValue b)) (hu : ∀ a b, undoData (mergeData a b) = a)
    (a : Array T) (ops : List (Op Query)) (hv : Valid a.size (okQuery a.size) [] ops) :
    ∃ s s' as, run ops = .ok s ∧ answer mergeData undoData getValue a s = .ok (s', as) ∧
      List.Forall₂ (fun x b => Answers obs (fun y => (a[y]?.map fun t => obs (getValue t)).getD 0) a.size x.1 x.2 b) (asked [] ops) as := by
  obtain ⟨s, hs, hc, -⟩ := run_tot ops hv
  have hask : ∀ s E' E x, SimS (fun t => obs (getValue t)) (fun y => (a[y]?.map fun t => obs (getValue t)).getD 0) a.size s E' →
      okQuery a.size x → (∀ x y, Connected E' x y ↔ Connected E x y) → Tot ((uf mergeData undoData getValue).ask s x) fun b =>
        Answers obs (fun y => (a[y]?.map fun t => obs (getValue t)).getD 0) a.size E x b := by
    rintro s E' E x ⟨R, rk, hI, hR, hS⟩ hx hAE
    cases x with
    | same u v =>
      obtain ⟨hu, hv⟩ := hx
      simp only [uf, UndoUnionFind.same, UndoUnionFind.root_eq hI hu, UndoUnionFind.root_eq hI hv, ok_bind, pure_eq]
      refine Tot.pure ?_
      show _ = true ↔ _
      rw [decide_eq_true_iff, hR u v hu hv]
      exact hAE u v
    | sum u =>
      have hu : u < a.size := hx
      obtain ⟨v, hv, ho⟩ := hS.2 (R u) (hI.lt u hu) (hI.idem u hu)
      simp only [uf, UndoUnionFindComponentSum.sum, UndoUnionFind.root_eq hI hu, ok_bind, rd_some hv, pure_eq]
      refine Tot.pure ?_
      show obs (getValue v) = _
      refine ho.trans ?_
      rw [ComponentSum.sum_ans hR hu]
      unfold ComponentSum.compSum
      congr 1
      ext y
      simp only [Finset.mem_filter, hAE]
  obtain ⟨as, e, h⟩ := answer_tot (undoable getValue (obs := fun t => obs (getValue t)) hf hu
      (fun y => (a[y]?.map fun t => obs (getValue t)).getD 0) a.size) (uf := UndoUnionFindComponentSum.init a)
    ⟨id, _, UnionFind.inv_init a.size, fun _ _ _ _ => UnionFind.connected_nil.symm, ComponentSum.sinv_init _ a⟩ (.bool false)
    (fun x b => Answers obs (fun y => (a[y]?.map fun t => obs (getValue t)).getD 0) a.size x.1 x.2 b) (ok := okQuery a.size) hask hc
    (asked_ok [] ops hv)
  exact ⟨s, _, as, hs, e, h⟩

/-- Data meeting the hypotheses (a stack of the added values) and a history. -/
example : (∀ a b : List Int, id (List.sum (b.sum :: a)) = id a.sum + id b.sum) ∧ (∀ a b : List Int, (b.sum :: a).tail = a) ∧
    Valid 3 (okQuery 3) [] [.sum 0 |> .query, .add 0 1, .query (.sum 0), .del 1 0 0, .add 2 1, .query (.sum 1), .query (.same 0 2)] := by
  refine ⟨fun a b => by simp [add_comm], fun _ _ => rfl, ?_⟩
  simp [Valid, okQuery, edges]

/-- … and its answers. -/
example : (do
    let s ← run [.query (.sum 0), .add 0 1, .query (.sum 0), .del 1 0 0, .add 2 1, .query (.sum 1), .query (.same 0 2)]
    let (_, as) ← answer (fun a b : List Int => b.sum :: a) List.tail List.sum #[[1], [10], [100]] s
    return as.map (fun | .bool b => (if b then 1 else 0) | .val x => x) : M (List Int)) = .ok [1, 11, 110, 0] := by decide +kernel

end OfflineDynamicConnectivityComponentSum
