import Verif.Proof.MatchingVertexCover
import Mathlib.Tactic.FinCases

/-!
# Bipartite matching (`library/graph/bipartite_matching.hpp`)

An object is constructed with `n` left and `m` right vertices and used for any sequence of calls that add edges or ask questions. The graph is the list of the edges added so far.
-/

namespace BipartiteMatching
open Cxx

/-- A call that changes the object. -/
inductive Op
  | add (l r : Nat)
  | solve
  | matching
  | cover
  | independent

/-- The edges added by a history. -/
def edges : List Op → List (Nat × Nat)
  | [] => []
  | .add l r :: ops => (l, r) :: edges ops
  | _ :: ops => edges ops

/-- The edges join existing vertices. -/
abbrev ValidOps (n m : Nat) (ops : List Op) : Prop := ∀ e ∈ edges ops, e.1 < n ∧ e.2 < m

/-- The object after one call. -/
def apply (o : Obj) : Op → M Obj
  | .add l r => o.addEdge l r
  | .solve => do return (← o.solve).1
  | .matching => do return (← o.maxMatching).1
  | .cover => do return (← o.minVertexCover).1
  | .independent => do return (← o.maxIndependentSet).1

/-- The object after a history. -/
def run (n m : Nat) (ops : List Op) : M Obj := forEach ops (Obj.new n m) apply

theorem edges_append (a b : List Op) : edges (a ++ b) = edges a ++ edges b := by
  induction a with
  | nil => rfl
  | cons x a ih =>
    cases x <;> simp [edges, ih]

theorem new_good (n m : Nat) : Good (Obj.new n m) [] := by
  have hR : ∀ (k x : Nat), at' none (Array.replicate k (none : Option Nat)) x = none := by
    intro k x
    unfold at'
    rw [Array.getElem?_replicate]
    split_ifs <;> rfl
  have hG : ∀ x, nb (Array.replicate (n + m) #[]) x = [] := by
    intro x
    unfold nb at'
    rw [Array.getElem?_replicate]
    split_ifs <;> rfl
  refine ⟨⟨⟨?_, ?_, ?_, ?_⟩, ?_, ?_, ?_⟩, fun _ => ⟨Array.replicate n 0 ++ Array.replicate m (-1), ⟨?_, ?_, ?_, ?_, ?_, ?_⟩, ?_⟩, ?_⟩
  · simp [Obj.new]
  · simp [Obj.new]
  · intro l r h
    rw [show (Obj.new n m).toR = Array.replicate n none from rfl, hR] at h
    cases h
  · intro l r h
    rw [show (Obj.new n m).toL = Array.replicate m none from rfl, hR] at h
    cases h
  · simp [Obj.new]
  · intro l _ r h
    rw [show (Obj.new n m).g = Array.replicate (n + m) #[] from rfl, hG] at h
    cases h
  · intro l r h
    rw [show (Obj.new n m).toR = Array.replicate n none from rfl, hR] at h
    cases h
  · simp [Obj.new]
  · intro l hl _
    change l < n at hl
    unfold at'
    rw [Array.getElem?_append_left (by simpa using hl), Array.getElem?_replicate, if_pos hl]
    rfl
  · intro l r h
    rw [show (Obj.new n m).toR = Array.replicate n none from rfl, hR] at h
    cases h
  · intro r hr h
    change r < m at hr
    change 0 ≤ at' (-1) _ (n + r) at h
    unfold at' at h
    rw [Array.getElem?_append_right (by simp), Array.size_replicate, Nat.add_sub_cancel_left, Array.getElem?_replicate, if_pos hr] at h
    simp at h
  · intro r _ _ l h
    rw [show (Obj.new n m).toL = Array.replicate m none from rfl, hR] at h
    cases h
  · intro l _ _ r h
    rw [show (Obj.new n m).g = Array.replicate (n + m) #[] from rfl, hG] at h
    cases h
  · intro r hr h
    change r < m at hr
    change 0 ≤ at' (-1) _ (n + r) at h
    unfold at' at h
    rw [Array.getElem?_append_right (by simp), Array.size_replicate, Nat.add_sub_cancel_left, Array.getElem?_replicate, if_pos hr] at h
    simp at h
  · intro l r
    rw [show (Obj.new n m).g = Array.replicate (n + m) #[] from rfl, hG]
    simp

theorem addEdge_tot {o : Obj} {E : List (Nat × Nat)} (ho : Good o E) {l r : Nat} (hl : l < o.n) (hr : r < o.m) :
    Tot (o.addEdge l r) (fun o' => Good o' (E ++ [(l, r)]) ∧ o'.n = o.n ∧ o'.m = o.m ∧ o'.f = none ∧ o'.toL = o.toL) := by
  unfold Obj.addEdge
  refine (pushRow_tot r (by rw [ho.ok.gsz]; omega)).bind ?_
  rintro g' ⟨h1, h2⟩
  have hsub : ∀ a x, x ∈ nb o.g a → x ∈ nb g' a := by
    intro a x hx
    rw [h2]
    split_ifs
    · exact List.mem_append_left _ hx
    · exact hx
  refine tot_ok.mpr ⟨⟨⟨ho.ok.val, h1.trans ho.ok.gsz, ?_, fun a b h => hsub _ _ (ho.ok.edge a b h)⟩, fun h => absurd rfl h, ?_⟩, rfl, rfl, rfl, rfl⟩
  · intro a ha x hx
    dsimp only at ha hx ⊢
    rw [h2] at hx
    split_ifs at hx
    · rcases List.mem_append.mp hx with hx | hx
      · exact ho.ok.nbr a ha x hx
      · rw [List.mem_singleton.mp hx]
        exact hr
    · exact ho.ok.nbr a ha x hx
  · intro a b
    dsimp only
    rw [List.mem_append, ho.graph a b, List.mem_singleton, h2, Prod.mk.injEq]
    split_ifs with hla
    · rw [List.mem_append, List.mem_singleton, ← hla]
      constructor
      · rintro (⟨h, h'⟩ | ⟨-, h⟩)
        · exact ⟨h, Or.inl h'⟩
        · exact ⟨hl, Or.inr h⟩
      · rintro ⟨h, h' | h'⟩
        · exact Or.inl ⟨h, h'⟩
        · exact Or.inr ⟨rfl, h'⟩
    · constructor
      · rintro (h | ⟨h, -⟩)
        · exact h
        · exact absurd h.symm hla
      · exact Or.inl

theorem apply_tot {o : Obj} {E : List (Nat × Nat)} (ho : Good o E) (op : Op) (hv : ∀ e ∈ edges [op], e.1 < o.n ∧ e.2 < o.m) :
    Tot (apply o op) (fun o' => Good o' (E ++ edges [op]) ∧ o'.n = o.n ∧ o'.m = o.m) := by
  cases op with
  | add l r =>
    obtain ⟨h1, h2⟩ := hv (l, r) (by simp [edges])
    refine (addEdge_tot ho h1 h2).mono ?_
    rintro o' ⟨a, b, c, -, -⟩
    exact ⟨a, b, c⟩
  | solve =>
    unfold apply
    have he : E ++ edges [Op.solve] = E := by simp [edges]
    rw [he]
    cases hf : o.f with
    | some f =>
      unfold Obj.solve
      rw [hf]
      exact tot_ok.mpr ⟨ho, rfl, rfl⟩
    | none =>
      refine (solve_tot ho.ok hf).bind ?_
      rintro r ⟨k1, k2, k3, k4, k5, k6, k7⟩
      refine tot_ok.mpr ⟨⟨k1, fun _ => k2, ?_⟩, k3, k4⟩
      intro a b
      rw [k3, k5]
      exact ho.graph a b
  | matching =>
    unfold apply
    have he : E ++ edges [Op.matching] = E := by simp [edges]
    rw [he]
    refine (maxMatching_tot ho).bind ?_
    rintro r ⟨k1, k2, k3, k4, -⟩
    exact tot_ok.mpr ⟨k1, k3, k4⟩
  | cover =>
    unfold apply
    have he : E ++ edges [Op.cover] = E := by simp [edges]
    rw [he]
    refine (minVertexCover_tot ho).bind ?_
    rintro r ⟨k1, k2, k3, -⟩
    exact tot_ok.mpr ⟨k1, k2, k3⟩
  | independent =>
    unfold apply
    have he : E ++ edges [Op.independent] = E := by simp [edges]
    rw [he]
    refine (maxIndependentSet_tot ho).bind ?_
    rintro r ⟨k1, k2, k3, -⟩
    exact tot_ok.mpr ⟨k1, k2, k3⟩

theorem run_tot {n m : Nat} {ops : List Op} (hv : ValidOps n m ops) : Tot (run n m ops) (fun o => Good o (edges ops) ∧ o.n = n ∧ o.m = m) := by
  unfold run
  refine Tot.forEach (P := fun pre o => Good o (edges pre) ∧ o.n = n ∧ o.m = m) ⟨new_good n m, rfl, rfl⟩ ?_
  rintro pre op post o hpp ⟨h1, h2, h3⟩
  refine (apply_tot h1 op ?_).mono ?_
  · intro e he
    rw [h2, h3]
    refine hv e ?_
    rw [hpp, show op :: post = [op] ++ post from rfl, edges_append, edges_append]
    exact List.mem_append_right _ (List.mem_append_left _ he)
  · rintro o' ⟨k1, k2, k3⟩
    rw [edges_append]
    exact ⟨k1, k2.trans h2, k3.trans h3⟩

/-- C145: after any history, `max_matching` returns a maximum matching of the edges added so far. -/
theorem maxMatching_correct (n m : Nat) (ops : List Op) (hv : ValidOps n m ops) :
    ∃ o o' M, run n m ops = .ok o ∧ o.maxMatching = .ok (o', M) ∧ MaxMatching (edges ops) M := by
  obtain ⟨o, ho, h1, -, -⟩ := run_tot hv
  obtain ⟨⟨o', M⟩, hr, k1, k2, -, -, k5⟩ := maxMatching_tot h1
  refine ⟨o, o', M, ho, hr, ?_⟩
  dsimp only at k1 k2 k5
  rw [k5]
  exact final_max k1.ok k2 k1.graph

/-- A history in which a later edge changes the matching. -/
example : ValidOps 2 2 [.add 0 0, .solve, .add 1 0, .add 0 1] := by decide +kernel

/-- C146: if no question has been asked before, `solve` returns the size of the maximum matchings, and it returns the same value again until an edge is added. -/
theorem solve_correct_partial (n m : Nat) (E : List (Nat × Nat)) (hE : ∀ e ∈ E, e.1 < n ∧ e.2 < m) :
    ∃ o o' v, run n m (E.map fun e => .add e.1 e.2) = .ok o ∧ o.solve = .ok (o', v) ∧ (∃ M, MaxMatching E M ∧ M.length = v) ∧ o'.solve = .ok (o', v) := by
  have hrun : Tot (run n m (E.map fun e => .add e.1 e.2)) (fun o => Good o E ∧ o.n = n ∧ o.m = m ∧ (o.f = none ∨ (E = [] ∧ o.f = some 0)) ∧ o.toL = Array.replicate m none) := by
    have hed : ∀ L : List (Nat × Nat), edges (L.map fun e => Op.add e.1 e.2) = L := by
      intro L
      induction L with
      | nil => rfl
      | cons e L ih => simp [edges, ih]
    unfold run
    refine (Tot.forEach (P := fun pre o => Good o (edges pre) ∧ o.n = n ∧ o.m = m ∧ (o.f = none ∨ (pre = [] ∧ o.f = some 0)) ∧ o.toL = Array.replicate m none)
      ⟨new_good n m, rfl, rfl, Or.inr ⟨rfl, rfl⟩, rfl⟩ ?_).mono ?_
    · rintro pre op post o hpp ⟨h1, h2, h3, h4, h5⟩
      have hop : op ∈ E.map fun e => Op.add e.1 e.2 := by rw [hpp]; simp
      obtain ⟨e, he, rfl⟩ := List.mem_map.mp hop
      obtain ⟨a, b⟩ := hE e he
      refine (addEdge_tot h1 (by rw [h2]; exact a) (by rw [h3]; exact b)).mono ?_
      rintro o' ⟨k1, k2, k3, k4, k5⟩
      rw [edges_append]
      exact ⟨k1, k2.trans h2, k3.trans h3, Or.inl k4, k5.trans h5⟩
    · rintro o ⟨h1, h2, h3, h4, h5⟩
      rw [hed] at h1
      refine ⟨h1, h2, h3, ?_, h5⟩
      rcases h4 with h4 | ⟨h4, h4'⟩
      · exact Or.inl h4
      · exact Or.inr ⟨List.map_eq_nil_iff.mp h4, h4'⟩
  obtain ⟨o, ho, h1, h2, h3, h4, h5⟩ := hrun
  have hsolve : ∀ (o : Obj) (f : Nat), o.f = some f → o.solve = .ok (o, f) := by
    intro o f hf
    unfold Obj.solve
    rw [hf]
    rfl
  rcases h4 with h4 | ⟨h4, h4'⟩
  · obtain ⟨⟨o', v⟩, hr, k1, k2, k3, k4, k5, k6, k7⟩ := solve_tot h1.ok h4
    dsimp only at k1 k2 k3 k4 k5 k6 k7
    refine ⟨o, o', v, ho, hr, ⟨pairs o', final_max k1 k2 ?_, ?_⟩, hsolve o' v k6⟩
    · intro a b
      rw [k3, k5]
      exact h1.graph a b
    · have hz : cnt o.m o.toL = 0 := by
        unfold cnt
        rw [Finset.card_eq_zero, Finset.filter_eq_empty_iff]
        intro x hx hne
        apply hne
        rw [h5]
        unfold at'
        rw [Array.getElem?_replicate]
        split_ifs <;> rfl
      rw [← cnt_pairs k1, k4, k7, hz, Nat.zero_add]
  · refine ⟨o, o, 0, ho, hsolve o 0 h4', ⟨[], ⟨⟨fun _ h => (by cases h), List.nodup_nil, List.nodup_nil⟩, ?_⟩, rfl⟩, hsolve o 0 h4'⟩
    intro M hM
    rw [h4] at hM
    cases M with
    | nil => exact le_refl _
    | cons e M =>
      have := hM.1 e List.mem_cons_self
      cases this

example : ∀ e ∈ [(0, 0), (1, 0), (0, 1)], e.1 < 2 ∧ e.2 < 2 := by decide

/-- C146 does not hold in general: a call of `solve` after more edges returns only the number of augmentations of that call. -/
theorem solve_again_counterexample : ∃ ops, ValidOps 2 2 ops ∧ ∃ o o' v M, run 2 2 ops = .ok o ∧ o.solve = .ok (o', v) ∧ MaxMatching (edges ops) M ∧ M.length = 2 ∧ v = 1 := by
  refine ⟨[.add 0 0, .solve, .add 1 1], by decide +kernel, ?_⟩
  refine ⟨⟨2, 2, #[some 0, none], #[some 0, none], #[#[0], #[1], #[], #[]], none⟩, ⟨2, 2, #[some 0, some 1], #[some 0, some 1], #[#[0], #[1], #[], #[]], some 1⟩, 1, [(0, 0), (1, 1)],
    by decide +kernel, by decide +kernel, ⟨⟨by decide, by decide, by decide⟩, ?_⟩, rfl, rfl⟩
  rintro M ⟨h1, h2, -⟩
  have := (List.subperm_of_subset h2 (l₂ := [0, 1]) (by
    intro x hx
    obtain ⟨e, he, rfl⟩ := List.mem_map.mp hx
    have := h1 e he
    fin_cases this <;> simp)).length_le
  rwa [List.length_map] at this

/-- C147: after any history, `min_vertex_cover` returns a minimum vertex cover without repetitions (the right vertex `r` is written `n + r`). -/
theorem minVertexCover_correct (n m : Nat) (ops : List Op) (hv : ValidOps n m ops) :
    ∃ o o' C, run n m ops = .ok o ∧ o.minVertexCover = .ok (o', C) ∧ VertexCover n (edges ops) C ∧ C.Nodup ∧ (∀ v ∈ C, v < n + m) ∧ ∀ C', VertexCover n (edges ops) C' → C.length ≤ C'.length := by
  obtain ⟨o, ho, h1, h2, h3⟩ := run_tot hv
  obtain ⟨⟨o', C⟩, hr, k1, k2, k3, k4, k5, k6, M, k7, k8⟩ := minVertexCover_tot h1
  rw [h2] at k4 k6
  rw [h3] at k6
  refine ⟨o, o', C, ho, hr, k4, k5, k6, ?_⟩
  intro C' hC'
  exact le_trans k8 (matching_le_cover (fun e he => (hv e he).1) k7 hC')

/-- C148: after any history, `max_independent_set` returns a maximum independent set. -/
theorem maxIndependentSet_correct (n m : Nat) (ops : List Op) (hv : ValidOps n m ops) :
    ∃ o o' I, run n m ops = .ok o ∧ o.maxIndependentSet = .ok (o', I) ∧ Independent n m (edges ops) I ∧ ∀ I', Independent n m (edges ops) I' → I'.length ≤ I.length := by
  obtain ⟨o, ho, h1, h2, h3⟩ := run_tot hv
  obtain ⟨⟨o', I⟩, hr, k1, k2, k3, k4, k5⟩ := maxIndependentSet_tot h1
  rw [h2, h3] at k4 k5
  exact ⟨o, o', I, ho, hr, k4, k5⟩

/-- A history with two questions. -/
example : ValidOps 3 2 [.add 0 0, .matching, .add 1 0, .cover, .add 2 1, .independent, .add 0 1] := by decide +kernel

/-- C149: if there are at most as many right as left vertices, `min_edge_cover` returns a smallest set of edges that meets every vertex that has an edge. -/
theorem minEdgeCover_correct_partial (n m : Nat) (ops : List Op) (hv : ValidOps n m ops) (hmn : m ≤ n) :
    ∃ o o' D, run n m ops = .ok o ∧ o.minEdgeCover = .ok (o', D) ∧ EdgeCover (edges ops) D ∧ ∀ D', EdgeCover (edges ops) D' → D.length ≤ D'.length := by
  obtain ⟨o, ho, h1, h2, h3⟩ := run_tot hv
  obtain ⟨⟨o', D⟩, hr, k1, k2, k3, k4, k5⟩ := minEdgeCover_tot h1 (by omega)
  exact ⟨o, o', D, ho, hr, k4, k5⟩

/-- C149 does not hold with more right than left vertices: the flags of the right vertices are accessed out of bounds. -/
theorem minEdgeCover_counterexample : ∃ ops, ValidOps 1 2 ops ∧ ∃ o, run 1 2 ops = .ok o ∧ o.minEdgeCover = .error .ub := by
  refine ⟨[.add 0 1], by decide +kernel, ⟨1, 2, #[none], #[none, none], #[#[1], #[], #[]], none⟩, by decide +kernel, by decide +kernel⟩

end BipartiteMatching
