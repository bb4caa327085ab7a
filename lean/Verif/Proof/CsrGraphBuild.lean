import Verif.Proof.CsrGraph

/-!
# Construction of graphs
-/

namespace CsrGraph
open Cxx Spec
variable {W : Type}

theorem arcs_cons (u : Bool) (e : Nat × Nat × W) (es : List (Nat × Nat × W)) :
    arcs u (e :: es) = e :: ((if u then [(e.2.1, e.1, e.2.2)] else []) ++ arcs u es) := by
  simp [arcs]

theorem count_arcs (u : Bool) (es : List (Nat × Nat × W)) (adj : Array Adj) :
    forEach es adj (countEdge u) = forEach (arcs u es) adj fun adj e => incSiz adj e.1 := by
  induction es generalizing adj with
  | nil => rfl
  | cons e es ih =>
    rw [arcs_cons]
    simp only [forEach, countEdge]
    cases incSiz adj e.1 with
    | error x => rfl
    | ok a =>
      simp only [ok_bind]
      cases u with
      | true =>
        simp only [if_true, List.cons_append, List.nil_append, forEach]
        cases incSiz a e.2.1 with
        | error x => rfl
        | ok b => exact ih b
      | false =>
        simp only [Bool.false_eq_true, if_false, List.nil_append, pure_eq, ok_bind]
        exact ih a

theorem put_arcs (u : Bool) (es : List (Nat × Nat × W)) (st : Array Nat × Array (Nat × W)) :
    forEach es st (putEdge u) = forEach (arcs u es) st fun st e => put st e.1 e.2 := by
  induction es generalizing st with
  | nil => rfl
  | cons e es ih =>
    rw [arcs_cons]
    simp only [forEach, putEdge]
    cases put st e.1 e.2 with
    | error x => rfl
    | ok a =>
      simp only [ok_bind]
      cases u with
      | true =>
        simp only [if_true, List.cons_append, List.nil_append, forEach]
        cases put a e.2.1 (e.1, e.2.2) with
        | error x => rfl
        | ok b => exact ih b
      | false =>
        simp only [Bool.false_eq_true, if_false, List.nil_append, pure_eq, ok_bind]
        exact ih a

/-- The arcs of a list that leave `i`. -/
def outs (as : List (Nat × Nat × W)) (i : Nat) : List (Nat × W) := (as.filter fun e => e.1 = i).map fun e => e.2

theorem outs_snoc (as : List (Nat × Nat × W)) (e : Nat × Nat × W) (i : Nat) :
    outs (as ++ [e]) i = outs as i ++ if e.1 = i then [e.2] else [] := by
  unfold outs
  by_cases h : e.1 = i <;> simp [h]

theorem outs_append (as bs : List (Nat × Nat × W)) (i : Nat) : outs (as ++ bs) i = outs as i ++ outs bs i := by
  simp [outs]

theorem arcs_lt {u : Bool} {es : List (Nat × Nat × W)} {n : Nat} (h : ∀ e ∈ es, e.1 < n ∧ (u = true → e.2.1 < n)) :
    ∀ e ∈ arcs u es, e.1 < n := by
  intro e he
  simp only [arcs, List.mem_flatMap, List.mem_cons] at he
  obtain ⟨x, hx, rfl | he⟩ := he
  · exact (h _ hx).1
  · cases u with
    | false => simp at he
    | true => simp at he; subst he; exact (h _ hx).2 rfl

theorem create_tot [Inhabited W] {u : Bool} {n : Nat} {es : List (Nat × Nat × W)} {cap : Array Int}
    (h : ∀ e ∈ es, e.1 < n ∧ (u = true → e.2.1 < n)) (hcap : cap.size = 0 ∨ n ≤ cap.size) :
    Tot (create u n es cap) fun g =>
      Rep g (Spec.init u n es cap) (offs fun i => (neighbours u es i).length) fun i => (neighbours u es i).length := by
  obtain ⟨as, has⟩ : ∃ as, as = arcs u es := ⟨_, rfl⟩
  have hlt : ∀ e ∈ as, e.1 < n := by rw [has]; exact arcs_lt h
  obtain ⟨o, ho⟩ : ∃ o, o = offs fun i => (outs as i).length := ⟨_, rfl⟩
  have ho1 : ∀ i, o (i + 1) = o i + (outs as i).length := fun i => by rw [ho]; exact offs_succ _ _
  have hom : ∀ {i j}, i ≤ j → o i ≤ o j := fun h => by rw [ho]; exact offs_mono _ h
  have ho0 : o 0 = 0 := by rw [ho]; rfl
  have hnb : ∀ i, neighbours u es i = outs as i := fun i => by rw [has]; rfl
  unfold create
  rw [count_arcs, ← has]
  refine Tot.bind (Tot.forEach (P := fun pre adj => adj.size = n ∧ ∀ i < n, adj[i]? = some ⟨false, 0, 0, (outs pre i).length⟩)
    ⟨by simp, fun i hi => by simp [hi, outs]⟩ ?_) ?_
  · rintro pre e post adj he ⟨h1, h2⟩
    have hl : e.1 < n := hlt e (by rw [he]; simp)
    unfold incSiz
    rw [rd_some (h2 _ hl), ok_bind, wr_eq (by omega)]
    refine Tot.pure ⟨by simp [h1], fun i hi => ?_⟩
    rw [Array.getElem?_setIfInBounds, outs_snoc]
    by_cases e' : e.1 = i
    · subst e'; simp [h1, hl]
    · rw [if_neg e', if_neg e', h2 i hi]; simp
  rintro adj ⟨h1, h2⟩
  obtain ⟨c, hc⟩ : ∃ c, c = if cap.size = 0 then Array.replicate n (2 ^ 31 - 1) else cap := ⟨_, rfl⟩
  obtain ⟨cc, hcc⟩ : ∃ cc : Nat → Int, cc = fun i => if cap.size = 0 then 2 ^ 31 - 1 else cap.getD i 0 := ⟨_, rfl⟩
  have hcv : ∀ i < n, c[i]? = some (cc i) := by
    intro i hi
    rw [hc, hcc]
    by_cases h0 : cap.size = 0
    · simp [h0, hi]
    · have hi' : i < cap.size := by omega
      simp [h0, hi', Array.getD]
  rw [← hc]
  refine Tot.bind (Tot.forUp (P := fun i (st : Array Adj × Nat) => st.1.size = n ∧ st.2 = o i ∧
      ∀ j < n, st.1[j]? = if j < i then
          some ⟨true, min ((outs as j).length : Int) (cc j), o j, (outs as j).length⟩
        else some ⟨false, 0, 0, (outs as j).length⟩) (Nat.zero_le _)
    ⟨h1, ho0.symm, fun j hj => by rw [if_neg (by omega)]; exact h2 j hj⟩ ?_) ?_
  · rintro i ⟨adj', num⟩ - hi ⟨a1, a2, a3⟩
    dsimp only at a1 a2 a3
    have ai := a3 i hi
    rw [if_neg (by omega)] at ai
    unfold layout
    dsimp only
    rw [rd_some ai, ok_bind, rd_some (hcv i hi), ok_bind, wr_eq (by omega), ok_bind]
    refine Tot.pure ⟨by simp [a1], by dsimp only; rw [a2, ho1], fun j hj => ?_⟩
    dsimp only
    rw [Array.getElem?_setIfInBounds]
    by_cases e : i = j
    · subst e; rw [if_pos rfl, if_pos (by omega), if_pos (by omega), a2]
    · rw [if_neg e, a3 j hj]
      by_cases h' : j < i
      · rw [if_pos h', if_pos (by omega)]
      · rw [if_neg h', if_neg (by omega)]
  rintro ⟨adj', num⟩ ⟨a1, a2, a3⟩
  dsimp only at a1 a2 a3 ⊢
  have a3' : ∀ j < n, adj'[j]? =
      some ⟨true, min ((outs as j).length : Int) (cc j), o j, (outs as j).length⟩ :=
    fun j hj => (a3 j hj).trans (if_pos hj)
  refine Tot.bind (Tot.forUp (P := fun i (ptr : Array Nat) => ptr.size = n ∧ ∀ j < i, ptr[j]? = some (o j)) (Nat.zero_le _)
    ⟨by simp, fun j hj => absurd hj (by omega)⟩ ?_) ?_
  · rintro i ptr - hi ⟨b1, b2⟩
    rw [rd_some (a3' i hi), ok_bind, wr_eq (by omega)]
    refine Tot.pure ⟨by simp [b1], fun j hj => ?_⟩
    rw [Array.getElem?_setIfInBounds]
    by_cases e : i = j
    · subst e; rw [if_pos rfl, if_pos (by omega)]
    · rw [if_neg e, b2 j (by omega)]
  rintro ptr ⟨b1, b2⟩
  rw [put_arcs, ← has]
  refine Tot.bind (Tot.forEach (P := fun pre (st : Array Nat × Array (Nat × W)) => st.1.size = n ∧ st.2.size = o n ∧
      (∀ j < n, st.1[j]? = some (o j + (outs pre j).length)) ∧ ∀ j < n, Seg st.2 (o j) (outs pre j))
    ⟨b1, by simp [a2], fun j hj => by rw [b2 j hj]; rfl, fun j hj k hk => absurd hk (by simp [outs])⟩ ?_) ?_
  · rintro pre e post ⟨ptr, edges⟩ he ⟨c1, c2, c3, c4⟩
    dsimp only at c1 c2 c3 c4
    have hl : e.1 < n := hlt e (by rw [he]; simp)
    have hlen : ∀ j, (outs pre j).length + (if e.1 = j then 1 else 0) ≤ (outs as j).length := by
      intro j
      rw [he, show pre ++ e :: post = pre ++ [e] ++ post by simp, outs_append, outs_snoc]
      simp only [List.length_append]
      split <;> simp
    have hle := hlen e.1
    rw [if_pos rfl] at hle
    have hp : o e.1 + (outs pre e.1).length < edges.size := by
      rw [c2]
      have := hom (show e.1 + 1 ≤ n from hl)
      rw [ho1] at this
      omega
    unfold put
    dsimp only
    rw [rd_some (c3 _ hl), ok_bind, wr_eq hp, ok_bind, wr_eq (by omega), ok_bind]
    refine Tot.pure ⟨by simp [c1], by simp [c2], fun j hj => ?_, fun j hj k hk => ?_⟩
    · dsimp only
      rw [Array.getElem?_setIfInBounds, outs_snoc]
      by_cases e' : e.1 = j
      · subst e'; rw [if_pos rfl, if_pos (by omega), if_pos rfl]; simp; omega
      · rw [if_neg e', if_neg e', c3 j hj]; simp
    · dsimp only
      rw [Array.getElem?_setIfInBounds]
      rw [outs_snoc] at hk ⊢
      by_cases e' : e.1 = j
      · subst e'
        rw [if_pos rfl] at hk ⊢
        have hk' : k < (outs pre e.1).length + 1 := by simpa using hk
        by_cases e2 : k = (outs pre e.1).length
        · subst e2; rw [if_pos rfl, if_pos hp]; simp
        · rw [if_neg (by omega), c4 _ hl k (by omega), List.getElem?_append_left (by omega)]
      · rw [if_neg e', List.append_nil] at hk ⊢
        have hlj := hlen j
        rw [if_neg e'] at hlj
        rw [if_neg ?_]
        · exact c4 j hj k hk
        · rcases Nat.lt_or_gt_of_ne e' with e' | e'
          · have := hom (show e.1 + 1 ≤ j from e')
            rw [ho1] at this
            omega
          · have := hom (show j + 1 ≤ e.1 from e')
            rw [ho1] at this
            omega
  rintro ⟨ptr', edges⟩ ⟨c1, c2, c3, c4⟩
  dsimp only at c1 c2 c3 c4 ⊢
  have hf : (fun i => (neighbours u es i).length) = fun i => (outs as i).length := by funext i; rw [hnb]
  rw [hf, ← ho]
  refine Tot.pure ⟨rfl, a1, fun i hi => ?_, fun i hi => ?_, fun i j hij hj => ?_, fun i hi => ?_⟩
  · dsimp only [Spec.init] at hi ⊢
    rw [a3' i hi, hnb, hcc]
  · dsimp only [Spec.init] at hi ⊢
    rw [hnb, c2, ← ho1]
    exact ⟨Nat.le_refl _, Int.min_le_left _ _, hom hi⟩
  · rw [← ho1]
    exact hom hij
  · dsimp only [Spec.init] at hi ⊢
    rw [hnb]
    exact c4 i hi

/-! ### Lists of lists, and reversal -/

theorem neighbours_false (es : List (Nat × Nat × W)) (i : Nat) : neighbours false es i = outs es i := by
  unfold neighbours outs
  rw [show arcs false es = es from by simp [arcs]]

theorem makeEdges_tot (g : Array (List (Nat × W))) :
    Tot (makeEdges g) fun es => (∀ e ∈ es, e.1 < g.size) ∧ ∀ i < g.size, outs es i = g.getD i [] := by
  unfold makeEdges
  refine (Tot.forUp (P := fun i es => (∀ e ∈ es, e.1 < i) ∧ ∀ k, outs es k = if k < i then g.getD k [] else []) (Nat.zero_le _)
    ⟨by simp, fun k => by simp [outs]⟩ ?_).mono fun es h => ⟨h.1, fun i hi => (h.2 i).trans (if_pos hi)⟩
  rintro i es - hi ⟨h1, h2⟩
  rw [rd_eq hi, ok_bind]
  refine Tot.pure ⟨fun e he => ?_, fun k => ?_⟩
  · rcases List.mem_append.mp he with he | he
    · have := h1 e he; omega
    · obtain ⟨x, -, rfl⟩ := List.mem_map.mp he
      exact Nat.lt_succ_self _
  · rw [outs_append, h2]
    have hm : outs (g[i].map fun e => (i, e.1, e.2)) k = if i = k then g[i] else [] := by
      unfold outs
      by_cases e : i = k
      · simp [e, List.filter_map, Function.comp_def]
      · simp [e, List.filter_map, Function.comp_def]
    rw [hm]
    by_cases e : i = k
    · subst e
      rw [if_neg (by omega), if_pos rfl, if_pos (by omega)]
      simp [Array.getD, hi]
    · rw [if_neg e, List.append_nil]
      by_cases h' : k < i
      · rw [if_pos h', if_pos (by omega)]
      · rw [if_neg h', if_neg (by omega)]

/-- The arcs into `k` from the vertices below `i`. -/
def ins (L : Nat → List (Nat × W)) (i k : Nat) : List (Nat × W) :=
  (List.range i).flatMap fun j => ((L j).filter fun e => e.1 = k).map fun e => (j, e.2)

theorem access_tot {g : Graph W} {S : State W} {off room : Nat → Nat} (h : Rep g S off room) {i : Nat} (hi : i < S.n) :
    Tot (access g i) fun q => Rep q.1 (S.put i (S.v i).list) off room ∧
      q.2 = ⟨true, (S.v i).cap, off i, (S.v i).list.length⟩ := by
  obtain ⟨r, hr, -, h1⟩ := query_tot h hi (f := fun _ _ => .ok .unit) rfl
  unfold query at hr
  obtain ⟨q, hq⟩ : ∃ q, access g i = .ok q := by
    cases ha : access g i with
    | ok q => exact ⟨q, rfl⟩
    | error x => rw [ha] at hr; exact absurd hr (by simp [err_bind])
  rw [hq] at hr
  simp only [ok_bind, pure_eq] at hr
  cases hr
  refine ⟨q, hq, h1, ?_⟩
  unfold access at hq
  rw [rd_some (h.adj i hi), ok_bind, wr_eq (by rw [h.sz]; exact hi)] at hq
  cases hq
  rfl

theorem rev_tot {g : Graph W} {S : State W} {off room : Nat → Nat} (h : Rep g S off room)
    (hlt : ∀ i < S.n, ∀ e ∈ (S.v i).list, e.1 < S.n) :
    Tot (forUp 0 g.n (g, []) revStep) fun st => Rep st.1 ⟨S.n, fun i => ⟨(S.v i).list, (S.v i).cap, true⟩⟩ off room ∧
      (∀ e ∈ st.2, e.1 < S.n) ∧ ∀ k, outs st.2 k = ins (fun i => (S.v i).list) S.n k := by
  obtain ⟨T, hT⟩ : ∃ T : Nat → State W, T = fun i => ⟨S.n, fun j => if j < i then ⟨(S.v j).list, (S.v j).cap, true⟩ else S.v j⟩ :=
    ⟨_, rfl⟩
  have hTn : ∀ i, (T i).n = S.n := fun i => by rw [hT]
  have hTl : ∀ i j, ((T i).v j).list = (S.v j).list := fun i j => by rw [hT]; dsimp only; split <;> rfl
  have hTc : ∀ i j, ((T i).v j).cap = (S.v j).cap := fun i j => by rw [hT]; dsimp only; split <;> rfl
  have hTs : ∀ i, (T i).put i ((T i).v i).list = T (i + 1) := by
    intro i
    unfold State.put
    rw [hTl, hTc, hT]
    dsimp only
    congr 1
    funext j
    by_cases e : j = i
    · subst e; rw [if_pos rfl, if_pos (by omega)]
    · rw [if_neg e]
      by_cases h' : j < i
      · rw [if_pos h', if_pos (by omega)]
      · rw [if_neg h', if_neg (by omega)]
  have hT0 : T 0 = S := by rw [hT]; simp
  rw [h.n]
  refine (Tot.forUp (P := fun i (st : Graph W × List (Nat × Nat × W)) => Rep st.1 (T i) off room ∧ (∀ e ∈ st.2, e.1 < S.n) ∧
      ∀ k, outs st.2 k = ins (fun i => (S.v i).list) i k) (Nat.zero_le _)
    ⟨by rw [hT0]; exact h, by simp, fun k => by simp [outs, ins]⟩ ?_).mono ?_
  · rintro i ⟨g', es⟩ - hi ⟨h1, h2, h3⟩
    dsimp only at h1 h2 h3
    unfold revStep
    dsimp only
    refine Tot.bind (access_tot h1 (i := i) (by rw [hTn]; exact hi)) ?_
    rintro ⟨g2, a⟩ ⟨k1, k2⟩
    dsimp only at k1 k2 ⊢
    rw [hTs] at k1
    have hv := k1.val i (by rw [hTn]; exact hi)
    rw [hTl] at hv k2
    rw [elems_eq (l := (S.v i).list) (by rw [k2]; exact hv) (by rw [k2]), ok_bind]
    refine Tot.pure ⟨k1, fun e he => ?_, fun k => ?_⟩
    · rcases List.mem_append.mp he with he | he
      · exact h2 e he
      · obtain ⟨x, hx, rfl⟩ := List.mem_map.mp he
        exact hlt i hi x hx
    · dsimp only
      rw [outs_append, h3]
      unfold ins outs
      rw [List.range_succ, List.flatMap_append]
      simp [List.filter_map, Function.comp_def]
  · rintro ⟨g', es⟩ ⟨h1, h2, h3⟩
    refine ⟨?_, h2, h3⟩
    refine ⟨h1.n.trans (hTn _), h1.sz.trans (hTn _), fun i hi => ?_, fun i hi => ?_, fun i j hij hj => ?_, fun i hi => ?_⟩
    · have := h1.adj i (by rw [hTn]; exact hi)
      rw [hTl, hTc] at this
      rw [this]
      dsimp only at hi ⊢
      rw [hT]
      dsimp only
      rw [if_pos hi]
    · have := h1.fit i (by rw [hTn]; exact hi)
      rw [hTl, hTc] at this
      exact this
    · exact h1.dis i j hij (by rw [hTn]; exact hj)
    · have := h1.val i (by rw [hTn]; exact hi)
      rw [hTl] at this
      exact this

end CsrGraph
