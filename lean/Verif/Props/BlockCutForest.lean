import Verif.Proof.BlockCutForest
import Verif.Props.Biconnected

/-!
# C127: block-cut forest
-/

namespace BlockCutForest.Props
open Cxx Cut

/-- What the constructor was given: a `BiconnectedComponents` of a graph without self-loops, with its number `m` of blocks, isolated vertices `l` and
articulation points `A`. -/
structure Input (n : Nat) (es : List (Nat × Nat)) (p : LowLink.Obj × Biconnected.St) (m : Nat) (l A : List Nat) : Prop where
  bnd : ∀ e ∈ es, e.1 < n ∧ e.2 < n
  noloop : ∀ e ∈ es, e.1 ≠ e.2
  make : Biconnected.make n es = .ok p
  blocks : Biconnected.edgeComponentNum p.1 p.2 = .ok m
  iso : Biconnected.isolatedVertices p.1 p.2 = .ok l
  arts : LowLink.articulationPoints p.1 = .ok A

/-- The vertex `x` is an end of an edge of block `k`. -/
def InBlock (es : List (Nat × Nat)) (p : LowLink.Obj × Biconnected.St) (k x : Nat) : Prop :=
  ∃ y i, Inc es x y i ∧ Biconnected.get p.1 p.2 i = .ok (k : Int)

variable {n : Nat} {es : List (Nat × Nat)} {p : LowLink.Obj × Biconnected.St} {m : Nat} {l A : List Nat}

theorem unpack (h : Input n es p m l A) : ∃ v, LowLink.Built n es p.1 v ∧ Biconnected.Fin n es p.1 v p.2 ∧ m = p.2.num ∧ l = p.2.iso ∧ A = p.1.s.arts := by
  obtain ⟨v, B, F⟩ := Biconnected.Props.built_of h.bnd h.make
  have e1 := h.blocks
  have e2 := h.iso
  have e3 := h.arts
  unfold Biconnected.edgeComponentNum at e1
  unfold Biconnected.isolatedVertices at e2
  unfold LowLink.articulationPoints at e3
  rw [B.built] at e1 e2 e3
  injection e1 with e1
  injection e2 with e2
  injection e3 with e3
  exact ⟨v, B, F, e1.symm, e2.symm, e3.symm⟩

theorem inBlock_iff {v : LowLink.V} (h : Input n es p m l A) (B : LowLink.Built n es p.1 v) (F : Biconnected.Fin n es p.1 v p.2) {k x : Nat} :
    InBlock es p k x ↔ BlockCutForest.InBlock es p.2 k x := by
  have key : ∀ y i, Inc es x y i → (Biconnected.get p.1 p.2 i = .ok (k : Int) ↔ cid p.2 i = k) := by
    intro y i hi
    have hne : x ≠ y := by
      rcases hi with h' | h'
      · exact h.noloop _ (List.mem_of_getElem? h')
      · exact (h.noloop _ (List.mem_of_getElem? h')).symm
    rw [Biconnected.Props.get_ok B F (Biconnected.inc_lt hi), (cid_ok B F hi hne).1]
    simp
  unfold InBlock BlockCutForest.InBlock
  constructor
  · rintro ⟨y, i, h1, h2⟩
    exact ⟨y, i, h1, (key y i h1).mp h2⟩
  · rintro ⟨y, i, h1, h2⟩
    exact ⟨y, i, h1, (key y i h1).mpr h2⟩

/-- The forest has a node for every block, isolated vertex and articulation point, in this order. Its adjacency lists have no repetitions and join
the node of an articulation point exactly with the blocks the point belongs to; there are no cycles. -/
theorem forest_partial (h : Input n es p m l A) : ∃ t, make p.1 p.2 = .ok t ∧ size t = m + l.length + A.length ∧
    (∀ a, a < size t → ∃ adj, get t a = .ok adj ∧ adj.Nodup ∧ ∀ b, b ∈ adj ↔ ∃ (x j : Nat), A[j]? = some x ∧
      ((b = m + l.length + j ∧ InBlock es p a x) ∨ (a = m + l.length + j ∧ InBlock es p b x))) ∧
    (SimpleGraph.fromRel fun a b => ∃ adj, get t a = .ok adj ∧ b ∈ adj).IsAcyclic := by
  obtain ⟨v, B, F, rfl, rfl, rfl⟩ := unpack h
  obtain ⟨t, ht, D⟩ := make_tot B F h.noloop
  have hs : size t = nodes p.1 p.2 := by unfold size nodes; rw [D.blocks, D.isolated, D.arts]
  have hnode : ∀ {x j : Nat}, p.1.s.arts[j]? = some x → node p.1 p.2 x = p.2.num + p.2.iso.length + j ∧ x ∈ p.1.s.arts := by
    intro x j hj
    obtain ⟨hj', rfl⟩ := List.getElem?_eq_some_iff.mp hj
    unfold node
    rw [B.an.idxOf_getElem]
    exact ⟨rfl, List.getElem_mem _⟩
  refine ⟨t, ht, hs, ?_, ?_⟩
  · intro a ha
    refine ⟨at' [] t.g a, rd_at [] (by rw [D.gs]; omega), D.nd a, ?_⟩
    intro b
    rw [D.adj]
    constructor
    · rintro ⟨i, x, y, -, h2, h3, h4⟩
      have hj := List.idxOf_lt_length_of_mem h2
      refine ⟨x, p.1.s.arts.idxOf x, by rw [List.getElem?_eq_getElem hj, List.getElem_idxOf], ?_⟩
      rcases h4 with ⟨rfl, rfl⟩ | ⟨rfl, rfl⟩
      · exact .inl ⟨rfl, (inBlock_iff h B F).mpr ⟨y, i, h3, rfl⟩⟩
      · exact .inr ⟨rfl, (inBlock_iff h B F).mpr ⟨y, i, h3, rfl⟩⟩
    · rintro ⟨x, j, h1, ⟨h2, h3⟩ | ⟨h2, h3⟩⟩
      · obtain ⟨y, i, h4, h5⟩ := (inBlock_iff h B F).mp h3
        obtain ⟨h6, h7⟩ := hnode h1
        exact ⟨i, x, y, Biconnected.inc_lt h4, h7, h4, .inl ⟨h5.symm, by omega⟩⟩
      · obtain ⟨y, i, h4, h5⟩ := (inBlock_iff h B F).mp h3
        obtain ⟨h6, h7⟩ := hnode h1
        exact ⟨i, x, y, Biconnected.inc_lt h4, h7, h4, .inr ⟨h5.symm, by omega⟩⟩
  · have hrel : (fun a b => ∃ adj, get t a = .ok adj ∧ b ∈ adj) = Link es p.1 p.2 es.length := by
      funext a b
      refine propext ?_
      rw [← D.adj]
      constructor
      · rintro ⟨adj, h1, h2⟩
        by_cases ha : a < t.g.size
        · unfold get at h1
          rw [rd_at [] ha] at h1
          injection h1 with h1
          rw [h1]
          exact h2
        · unfold get at h1
          rw [rd_ub (by omega)] at h1
          cases h1
      · intro h1
        by_cases ha : a < t.g.size
        · exact ⟨_, rd_at [] ha, h1⟩
        · rw [at_ge [] (by omega)] at h1
          cases h1
    rw [hrel]
    exact acyclic B F h.noloop

open Classical in
/-- `vertex_num` of a block is the number of its vertices, and 1 for the other nodes; the predicates tell the three kinds of nodes apart. -/
theorem vertexNum_partial (h : Input n es p m l A) : ∃ t, make p.1 p.2 = .ok t ∧
    (∀ a, a < m → vertexNum t a = .ok ((Finset.range n).filter (InBlock es p a)).card ∧ isArt t a = false ∧ isBlock t a = true ∧ isIsolated t a = false) ∧
    (∀ j, j < l.length → vertexNum t (m + j) = .ok 1 ∧ isArt t (m + j) = false ∧ isBlock t (m + j) = true ∧ isIsolated t (m + j) = true) ∧
    ∀ j, j < A.length → vertexNum t (m + l.length + j) = .ok 1 ∧ isArt t (m + l.length + j) = true ∧ isBlock t (m + l.length + j) = false ∧
      isIsolated t (m + l.length + j) = false := by
  obtain ⟨v, B, F, rfl, rfl, rfl⟩ := unpack h
  obtain ⟨t, ht, D⟩ := make_tot B F h.noloop
  have hv : ∀ a, a < nodes p.1 p.2 → vertexNum t a = .ok (cnt es p.1 p.2 n a) := by
    intro a ha
    unfold vertexNum
    rw [rd_at 0 (by rw [D.vs]; exact ha), D.vn a ha]
  have one : ∀ a x, x < n → (∀ y, Mem es p.1 p.2 a y ↔ y = x) → cnt es p.1 p.2 n a = 1 := by
    intro a x hx hm
    unfold cnt
    rw [Finset.card_eq_one]
    refine ⟨x, ?_⟩
    ext y
    rw [Finset.mem_filter, Finset.mem_range, Finset.mem_singleton, hm]
    constructor
    · exact fun h => h.2
    · rintro rfl; exact ⟨hx, rfl⟩
  have ind : p.2.iso.Nodup := by
    rw [F.iso]
    exact List.nodup_range.filter _
  refine ⟨t, ht, ?_, ?_, ?_⟩
  · intro a ha
    refine ⟨?_, ?_⟩
    · rw [hv a (by unfold nodes; omega)]
      unfold cnt
      congr 2
      refine Finset.filter_congr fun x _ => ?_
      rw [inBlock_iff h B F]
      unfold Mem
      constructor
      · rintro (h1 | ⟨h1, h2⟩ | ⟨h1, h2⟩)
        · exact h1
        · omega
        · unfold node at h2; omega
      · exact fun h => .inl h
    · unfold isIsolated isBlock isArt
      rw [D.blocks, D.isolated]
      simp
      omega
  · intro j hj
    refine ⟨?_, ?_⟩
    · rw [hv _ (by unfold nodes; omega)]
      rw [one _ p.2.iso[j] ((iso_iff B F).mp (List.getElem_mem hj)).1]
      intro y
      unfold Mem
      constructor
      · rintro (h1 | ⟨h1, h2⟩ | ⟨h1, h2⟩)
        · have := inBlock_lt B F h.noloop h1; omega
        · have : p.2.iso.idxOf y = j := by omega
          subst this
          rw [List.getElem_idxOf]
        · unfold node at h2; omega
      · rintro rfl
        exact .inr (.inl ⟨List.getElem_mem _, by rw [ind.idxOf_getElem]⟩)
    · unfold isIsolated isBlock isArt
      rw [D.blocks, D.isolated]
      simp
      omega
  · intro j hj
    refine ⟨?_, ?_⟩
    · rw [hv _ (by unfold nodes; omega)]
      rw [one _ p.1.s.arts[j] (LowLink.isCut_lt B.cert.bnd ((B.am _).mp (List.getElem_mem hj)))]
      intro y
      unfold Mem
      constructor
      · rintro (h1 | ⟨h1, h2⟩ | ⟨h1, h2⟩)
        · have := inBlock_lt B F h.noloop h1; omega
        · have := List.idxOf_lt_length_of_mem h1; omega
        · have : p.1.s.arts.idxOf y = j := by unfold node at h2; omega
          subst this
          rw [List.getElem_idxOf]
      · rintro rfl
        exact .inr (.inr ⟨List.getElem_mem _, by unfold node; rw [B.an.idxOf_getElem]⟩)
    · unfold isIsolated isBlock isArt
      rw [D.blocks, D.isolated]
      simp

/-- `component_id` of an isolated vertex is its node; of another vertex it is a block the vertex belongs to, which is the only one unless the vertex is an
articulation point. -/
theorem componentId_partial (h : Input n es p m l A) : ∃ t, make p.1 p.2 = .ok t ∧
    (∀ (j : Nat) x, l[j]? = some x → componentId t x = .ok ((m + j : Nat) : Int)) ∧
    ∀ x, x < n → x ∉ l → ∃ k : Nat, componentId t x = .ok (k : Int) ∧ k < m ∧ InBlock es p k x ∧ (x ∉ A → ∀ k', InBlock es p k' x → k' = k) := by
  obtain ⟨v, B, F, rfl, rfl, rfl⟩ := unpack h
  obtain ⟨t, ht, D⟩ := make_tot B F h.noloop
  have hc : ∀ x, x < n → componentId t x = .ok (at' (-1) t.comp x) := fun x hx => rd_at (-1) (by rw [D.cs]; exact hx)
  have ind : p.2.iso.Nodup := by
    rw [F.iso]
    exact List.nodup_range.filter _
  refine ⟨t, ht, ?_, ?_⟩
  · intro j x hj
    obtain ⟨hj', rfl⟩ := List.getElem?_eq_some_iff.mp hj
    have hm := List.getElem_mem hj'
    rw [hc _ ((iso_iff B F).mp hm).1, D.c1 _ hm, ind.idxOf_getElem]
  · intro x hx hi
    obtain ⟨y, i, h1, h2⟩ := D.c2 x hx hi
    have hb : BlockCutForest.InBlock es p.2 (cid p.2 i) x := ⟨y, i, h1, rfl⟩
    refine ⟨cid p.2 i, by rw [hc x hx, h2], inBlock_lt B F h.noloop hb, (inBlock_iff h B F).mpr hb, ?_⟩
    intro hA k' hk
    obtain ⟨z, j, g1, g2⟩ := (inBlock_iff h B F).mp hk
    have ne : ∀ {z j}, Inc es x z j → x ≠ z := by
      rintro z j (h' | h')
      · exact h.noloop _ (List.mem_of_getElem? h')
      · exact (h.noloop _ (List.mem_of_getElem? h')).symm
    rw [← g2]
    exact one_block B F (fun hh => hA ((B.am x).mpr hh)) g1 h1 (ne g1) (ne h1)

/-- With a self-loop the constructor uses the number `-1` of its edge as an index. -/
theorem loop_ub : (∀ e ∈ [(0, 0)], e.1 < 1 ∧ e.2 < 1) ∧ (do let p ← Biconnected.make 1 [(0, 0)]; make p.1 p.2) = .error .ub := by
  refine ⟨by decide, rfl⟩

/-- A triangle and a pending edge sharing the vertex 2, and a vertex of its own. -/
example : ∃ p, Input 5 [(0, 1), (1, 2), (2, 0), (2, 3)] p 2 [4] [2] ∧ (do let t ← make p.1 p.2; return (t.g, t.vnum)) = .ok (#[[3], [3], [], [1, 0]], #[2, 3, 1, 1]) := by
  obtain ⟨p, hp⟩ : ∃ p, Biconnected.make 5 [(0, 1), (1, 2), (2, 0), (2, 3)] = .ok p := ⟨_, rfl⟩
  refine ⟨p, ⟨by decide, by decide, hp, ?_, ?_, ?_⟩, ?_⟩ <;> (cases hp; rfl)

end BlockCutForest.Props
