import Verif.Props.CsrGraph
import Verif.Proof.CsrGraphDfsRun

/-!
# Properties of `Graph::dfs_tree` in `library/graph/csr_graph.hpp`
-/

namespace CsrGraph
open Cxx Spec
variable {W : Type}

theorem Pfx.all {a : Array Nat} {k n : Nat} {Q : List Nat} (h : Pfx a k n Q) (hq : Q.length = n) : a.toList = Q := by
  refine List.ext_getElem? fun i => ?_
  rw [Array.getElem?_toList]
  by_cases hi : i < n
  · exact h.get i (by rw [h.len, hq]; exact hi)
  · rw [Array.getElem?_eq_none (by rw [h.size]; omega), List.getElem?_eq_none (by omega)]

theorem isDfs_of {n : Nat} {L : Nat → List (Nat × W)} {s : Dfs W} {F Q : List Nat} {E Pa : Nat → Int} {PW : Nat → Option W}
    (h : St n L s [] F Q E Pa PW) (hF : ∀ x < n, x ∈ F) {start : Nat}
    (hr : 0 < n → Q.head? = some (start % n) ∧ Pa (start % n) = -1) :
    s.par.size = n ∧ IsDfs n L start (fun i => s.par.getD i 0) s.pre.toList s.pst.toList s.tree s.back := by
  have hFn : ∀ x, x ∈ F ↔ x < n := fun x => ⟨fun hx => h.core.lt x (by simpa using hx), hF x⟩
  have hQF : ∀ x, x ∈ Q ↔ x < n := fun x => by
    rw [h.ei.qm, ← hFn]
    constructor
    · intro hx
      by_contra hn
      have := h.ei.eU x (by simpa using hn)
      omega
    · intro hx
      rw [h.ei.eF x hx]
      omega
  have hQp : Q.Perm (List.range n) := by
    rw [List.perm_ext_iff_of_nodup h.ei.qn List.nodup_range]
    intro x; rw [hQF, List.mem_range]
  have hFp : F.Perm (List.range n) := by
    rw [List.perm_ext_iff_of_nodup (by simpa using h.core.nd) List.nodup_range]
    intro x; rw [hFn, List.mem_range]
  have hpre : s.pre.toList = Q := h.pre.all (by simpa using hQp.length_eq)
  have hpst : s.pst.toList = F := h.pst.all (by simpa using hFp.length_eq)
  have hpar : ∀ x < n, s.par.getD x 0 = Pa x := fun x hx => by
    simp [Array.getD_eq_getD_getElem?, h.par.get x hx]
  have hT : ∀ e ∈ s.tree, e.1 < n ∧ e.2.1 < n ∧ Pa e.2.1 = (e.1 : Int) ∧ e.2 ∈ L e.1 ∧ Before Q e.1 e.2.1 := fun e he => by
    obtain ⟨h1, h2⟩ := h.core.T1 e he
    have hx : e.2.1 < n := by
      rw [← hFn]
      by_contra hn
      have := (h.core.par e.2.1).mpr (by simpa using hn)
      omega
    obtain ⟨A, R, hA⟩ := List.append_of_mem ((hQF _).mpr hx)
    have hm := h.ei.qo A _ R hA _ h1
    refine ⟨(hQF _).mp (by rw [hA]; simp [hm]), hx, h1, h2, A, R, hA, hm⟩
  refine ⟨h.par.size, ?_⟩
  rw [hpre, hpst]
  refine ⟨hQp, hFp, fun hn => ?_, fun x hx => ?_, fun e he => ?_, h.core.Tn, fun e he => (hT e he).2.2.2.2, fun e he => ?_, fun e he => ?_,
    fun u hu => ?_⟩
  · rw [hpar _ (Nat.mod_lt _ hn)]
    exact hr hn
  · rw [hpar x hx]
    have h1 := h.core.pl x
    have h2 : Pa x ≠ -2 := fun h' => (h.core.par x).mp h' (by simpa using hF x hx)
    by_cases h3 : Pa x = -1
    · exact Or.inl h3
    · obtain ⟨u, hu⟩ : ∃ u : Nat, Pa x = (u : Int) := ⟨(Pa x).toNat, by omega⟩
      obtain ⟨w, hw⟩ := h.core.T2 x u hu
      exact Or.inr ⟨u, w, hu, hw⟩
  · obtain ⟨a, b, c, d, -⟩ := hT e he
    exact ⟨a, b, by rw [hpar _ b]; exact c, d⟩
  · obtain ⟨a, -, c, -, -⟩ := hT e he
    obtain ⟨A, R, hA⟩ := List.append_of_mem ((hFn _).mpr a)
    exact ⟨A, R, hA, h.core.fo A _ R hA _ c⟩
  · obtain ⟨a, b⟩ := h.core.B1 e he
    exact ⟨(hFn _).mp (by simpa using a), b⟩
  · obtain ⟨sk, fin, h1, h2, h3⟩ := h.core.cl u
    have hsn : seen L E u = L u := by
      unfold seen
      rw [h.ei.eF u (hF u hu), List.take_of_length_le (by omega)]
    rw [hsn] at h1 h3
    refine ⟨sk, fin, by rw [neighbours_false, neighbours_false]; exact h1, fun e he => ?_, ?_⟩
    · obtain ⟨A, R, hA⟩ := List.append_of_mem (hF u hu)
      exact ⟨A, R, hA, (h2 e he).2 A R hA⟩
    · rcases h3 with ⟨a, b⟩ | ⟨p, w, a, b, -⟩
      · exact Or.inl ⟨a, fun p w hw => (b p w hw).2⟩
      · exact Or.inr ⟨p, w, a, b⟩

theorem dfsTree_tot [DecidableEq W] [Inhabited W] {g : Graph W} {S : State W} {off room : Nat → Nat} (h : Rep g S off room)
    (hfr : ∀ i < S.n, (S.v i).fresh = true) (hlt : ∀ i < S.n, ∀ e ∈ (S.v i).list, e.1 < S.n) (start : Nat) :
    Tot (dfsTree g start) fun d => d.par.size = S.n ∧ ∃ T B,
      IsDfs S.n (fun i => (S.v i).list) start (fun i => d.par.getD i 0) d.preOrd.toList d.pstOrd.toList T B ∧
      Behaves d.tree (next (Spec.init false S.n T #[]) .moved) ∧ Behaves d.back (next (Spec.init false S.n B #[]) .moved) := by
  have hg : GOk g S.n (fun i => (S.v i).list) off :=
    ⟨h.n, h.sz, fun i hi => ⟨_, h.adj i hi, hfr i hi, rfl, rfl⟩, h.val, hlt⟩
  unfold dfsTree
  rw [h.n]
  dsimp only
  refine Tot.bind (Tot.forUp (P := fun i s => ∃ F Q E Pa PW, St S.n (fun i => (S.v i).list) s [] F Q E Pa PW ∧
    (∀ x ∈ ((List.range i).map fun j => (start + j) % S.n).reverse, x ∈ F) ∧
    (Q.head? = some (start % S.n) ∧ Pa (start % S.n) = -1 ∨ Q = [] ∧ i = 0)) (Nat.zero_le _) ?_ ?_) ?_
  · refine ⟨[], [], fun _ => -1, fun _ => -2, fun _ => none, ⟨⟨by simp, rfl, by simp⟩, ⟨by simp, rfl, by simp⟩, Arr.replicate _ _,
      Arr.replicate _ _, Arr.replicate _ _, ?_, ?_⟩, by simp, Or.inr ⟨rfl, rfl⟩⟩
    · refine ⟨by simp, by simp, by simp, by simp, trivial, by simp, by simp, fun x u hx => ?_, by simp, by simp, by simp [seen],
        fun u => ⟨[], [], by simp [seen, outs], by simp, Or.inl ⟨rfl, by simp⟩⟩⟩
      omega
    · exact ⟨by simp, by simp, by simp, by simp, by simp, by simp, by simp⟩
  · intro j s _ hj hs
    obtain ⟨F, Q, E, Pa, PW, hs, hV, hr⟩ := hs
    refine Tot.mono (rootStep_tot (r := start % S.n) hg hj ⟨F, Q, E, Pa, PW, hs, hV, hr.imp id fun hr => ⟨hr.1, by rw [hr.2]; rfl⟩⟩) ?_
    rintro s' ⟨F, Q, E, Pa, PW, a, b, d⟩
    refine ⟨F, Q, E, Pa, PW, a, fun x hx => b x ?_, Or.inl d⟩
    simpa [List.range_succ] using hx
  · rintro s ⟨F, Q, E, Pa, PW, hs, hV, hr⟩
    have hF : ∀ x < S.n, x ∈ F := fun x hx => by
      refine hV x (List.mem_reverse.mpr (List.mem_map.mpr ⟨(x + (S.n - start % S.n)) % S.n, ?_, ?_⟩))
      · exact List.mem_range.mpr (Nat.mod_lt _ (by omega))
      · have hsn := Nat.mod_lt start (show 0 < S.n by omega)
        rw [Nat.add_mod, Nat.mod_mod, ← Nat.add_mod, Nat.add_mod start, ]
        rw [← Nat.add_mod]
        have e : start + (x + (S.n - start % S.n)) = x + S.n * (start / S.n + 1) := by
          have := Nat.div_add_mod start S.n
          rw [Nat.mul_add]
          omega
        rw [e, Nat.add_mul_mod_self_left, Nat.mod_eq_of_lt hx]
    obtain ⟨h1, h2⟩ := isDfs_of hs hF (start := start) fun hn => hr.resolve_right (by omega)
    refine Tot.bind (create_tot (u := false) (fun e he => ⟨(h2.tree e he).1, fun h => absurd h (by simp)⟩) (Or.inl rfl)) ?_
    intro tr htr
    refine Tot.bind (create_tot (u := false) (fun e he => ⟨(h2.back e he).1, fun h => absurd h (by simp)⟩) (Or.inl rfl)) ?_
    intro bk hbk
    exact Tot.pure ⟨h1, _, _, h2, behaves_of_rep ⟨_, _, moved_rep htr⟩, behaves_of_rep ⟨_, _, moved_rep hbk⟩⟩

/-- C208: `dfs_tree`, after any history of a graph all of whose targets are vertices, terminates without undefined behaviour and returns
a depth-first search forest of the graph: parents, orders of discovery and completion, and the graphs of the tree arcs and of the
back arcs. -/
theorem dfsTree_correct [DecidableEq W] [Inhabited W] {u : Bool} {n : Nat} {es : List (Nat × Nat × W)} {cap : Array Int}
    (h : ∀ e ∈ es, e.1 < n ∧ (u = true → e.2.1 < n)) (hcap : cap.size = 0 ∨ n ≤ cap.size) {ops : List (Op W)}
    (hv : ValidOps Pre next (Spec.init u n es cap) ops) {S : State W} (hS : S = ops.foldl next (Spec.init u n es cap))
    (hfr : ∀ i < S.n, (S.v i).fresh = true) (hlt : ∀ i < S.n, ∀ e ∈ (S.v i).list, e.1 < S.n) (start : Nat) :
    Tot (create u n es cap) fun g => Tot (runOps step g ops) fun r => Tot (dfsTree r.1 start) fun d => d.par.size = S.n ∧ ∃ T B,
      IsDfs S.n (fun i => (S.v i).list) start (fun i => d.par.getD i 0) d.preOrd.toList d.pstOrd.toList T B ∧
      Behaves d.tree (next (Spec.init false S.n T #[]) .moved) ∧ Behaves d.back (next (Spec.init false S.n B #[]) .moved) := by
  refine (rep_init h hcap).mono fun g hg => (rep_run hg hv).mono fun r hr => ?_
  rw [← hS] at hr
  obtain ⟨off, room, hr⟩ := hr
  exact dfsTree_tot hr hfr hlt start

/-- A graph with a loop, parallel edges and two components, after a removal. -/
example : let ops : List (Op Nat) := [.popBack 3]
    let S₀ := Spec.init true 5 [(0, 1, 7), (1, 0, 7), (1, 2, 3), (2, 2, 1), (3, 4, 2), (3, 4, 2)] #[]
    ValidOps Pre next S₀ ops ∧ let S := ops.foldl next S₀
      (∀ i < S.n, (S.v i).fresh = true) ∧ (∀ i < S.n, ∀ e ∈ (S.v i).list, e.1 < S.n) := by
  decide +kernel

/-- The result on a triangle with a double edge: the second copy of the edge to the parent is a back arc. -/
example : (do
    let g ← create true 3 [(0, 1, ()), (1, 0, ()), (1, 2, ()), (2, 0, ())] #[]
    let d ← dfsTree g 1
    return (d.par, d.preOrd, d.pstOrd)) = (.ok (#[1, -1, 0], #[1, 0, 2], #[2, 0, 1]) : M _) := by
  decide +kernel

/-- C206, violated: `dfs_tree` of a graph that was copied or moved and not accessed since, from any vertex with an arc, reads through
pointers to the old object, which no longer exists. -/
theorem dfsTree_counterexample [DecidableEq W] [Inhabited W] {u : Bool} {n : Nat} {es : List (Nat × Nat × W)} {cap : Array Int}
    (h : ∀ e ∈ es, e.1 < n ∧ (u = true → e.2.1 < n)) (hcap : cap.size = 0 ∨ n ≤ cap.size) {start : Nat} (hs : start < n)
    (ha : neighbours u es start ≠ []) : Tot (create u n es cap) fun g => dfsTree (moved g) start = .error .ub := by
  refine (create_tot h hcap).mono fun g hg => ?_
  have hm := moved_rep hg
  obtain ⟨a, had, hown, hsiz⟩ : ∃ a, (moved g).adj[start]? = some a ∧ a.own = false ∧ a.siz = (neighbours u es start).length :=
    ⟨_, hm.adj start hs, rfl, rfl⟩
  have hgn : (moved g).n = n := hm.n
  have hlen : (neighbours u es start).length ≠ 0 := fun h' => ha (List.eq_nil_of_length_eq_zero h')
  have hstep : ∀ s : Dfs W, s.eid = Array.replicate n (-1) → s.pre = Array.replicate n 0 → s.preN = 0 →
      dfsStep (moved g) ((start : Int), s) = .error .ub := by
    intro s h1 h2 h3
    unfold dfsStep
    dsimp only
    rw [if_neg (by omega), Int.toNat_natCast, h1, (Arr.replicate n (-1 : Int)).rd hs, ok_bind,
      ((Arr.replicate n (-1 : Int)).wr hs _).1, ok_bind]
    unfold enter
    dsimp only
    rw [if_pos (by decide), h2, h3, wr_eq (by simp; omega), ok_bind, pure_eq, ok_bind, rd_some had, ok_bind]
    rw [if_neg (by omega)]
    unfold deref
    rw [hown]
    rfl
  have hroot : ∀ s : Dfs W, s.par = Array.replicate n (-2) → s.eid = Array.replicate n (-1) → s.pre = Array.replicate n 0 →
      s.preN = 0 → rootStep (moved g) start 0 s = .error .ub := by
    intro s h0 h1 h2 h3
    unfold rootStep
    rw [hgn, Nat.add_zero, Nat.mod_eq_of_lt hs]
    dsimp only
    rw [h0, (Arr.replicate n (-2 : Int)).rd hs, ok_bind, if_neg (by simp), ((Arr.replicate n (-2 : Int)).wr hs _).1, ok_bind]
    obtain ⟨k, hk⟩ : ∃ k, n + ((moved g).adj.toList.map Adj.siz).sum = k + 1 :=
      ⟨n + ((moved g).adj.toList.map Adj.siz).sum - 1, by omega⟩
    rw [hk, loop, hstep { s with par := (Array.replicate n (-2)).setIfInBounds start (-1) } h1 h2 h3]
    rfl
  unfold dfsTree
  dsimp only
  rw [hgn]
  obtain ⟨m, rfl⟩ : ∃ m, n = m + 1 := ⟨n - 1, by omega⟩
  unfold forUp
  rw [show m + 1 - 0 = m + 1 from rfl, forN, hroot _ rfl rfl rfl rfl]
  rfl

/-- The hypotheses are met by the graph of one edge. -/
example : (∀ e ∈ [((0 : Nat), (1 : Nat), ())], e.1 < 2 ∧ (true = true → e.2.1 < 2)) ∧ neighbours true [(0, 1, ())] 1 ≠ [] := by
  decide +kernel

/-- C206, the part that holds, is `dfsTree_correct`: a graph that was moved meets its hypotheses once all lists have been accessed. -/
example : let ops : List (Op Nat) := [.moved, .size 0, .list 1, .front 2]
    let S₀ := Spec.init true 3 [(0, 1, 7), (1, 2, 3)] #[]
    ValidOps Pre next S₀ ops ∧ let S := ops.foldl next S₀
      (∀ i < S.n, (S.v i).fresh = true) ∧ (∀ i < S.n, ∀ e ∈ (S.v i).list, e.1 < S.n) := by
  decide +kernel

end CsrGraph
