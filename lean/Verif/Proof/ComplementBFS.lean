import Verif.Model.ComplementBFS
import Verif.Spec.ComplementGraph
import Verif.Proof.BFS
import Verif.Proof.Triangles

/-! # Proofs about `library/graph/bfs_complement.hpp` -/

namespace ComplementBFS
open Cxx Graph

/-- What `std::partition` promises. -/
def PartOk (part : Part) : Prop := ∀ p s, (part p s).1.Perm (s.filter p) ∧ (part p s).2.Perm (s.filter fun v => !p v)

theorem compl_size (g : Array (List Nat)) : (compl g).size = g.size := by simp [Graph.compl]

theorem compl_E {g : Array (List Nat)} {u v : Nat} : E (compl g) u v ↔ u < g.size ∧ v < g.size ∧ v ≠ u ∧ v ∉ adj g u := by
  unfold E
  rw [adj]
  by_cases h : u < g.size
  · simp [Graph.compl, h]
  · simp [Graph.compl, h]

theorem compl_valid (g : Array (List Nat)) : Valid (compl g) := fun u v h => by
  rw [compl_size]
  exact (compl_E.1 h).2.1

theorem mark_tot {n : Nat} {ex : Array Bool} (hx : ex.size = n) (b : Bool) (l : List Nat) (hl : ∀ j ∈ l, j < n) :
    Tot (mark b l ex) fun ex' => ex'.size = n ∧ ∀ k, at' false ex' k = if k ∈ l then b else at' false ex k :=
  Triangles.mark_tot hx b l hl

theorem partition_tot {part : Part} {adj : Array Bool} {s : List Nat} (hs : ∀ v ∈ s, v < adj.size) :
    Tot (partition part adj s) fun p => p = part (fun v => at' false adj v) s := by
  unfold partition
  refine Tot.bind (P := fun _ => True) ?_ fun _ _ => Tot.pure rfl
  refine Tot.forEach (P := fun _ _ => True) trivial ?_
  rintro pre v post t he -
  rw [rd_at false (hs v (by rw [he]; simp)), ok_bind]
  exact Tot.pure trivial

theorem others_tot {n : Nat} {src : List Nat} (hs : ∀ s ∈ src, s < n) :
    Tot (others n src) fun s => s = (List.range n).filter fun v => v ∉ src := by
  unfold others
  refine Tot.bind (mark_tot (ex := Array.replicate n false) (by simp) true src hs) fun b ⟨h1, h2⟩ => ?_
  refine (Tot.forUp (P := fun i s => s = (List.range i).filter fun v => v ∉ src) (Nat.zero_le _) (by simp) ?_)
  rintro i s - hi rfl
  rw [rd_at false (by omega), ok_bind]
  refine Tot.pure ?_
  rw [List.range_succ, List.filter_append, h2]
  by_cases h : i ∈ src <;> simp [h, at', hi]

/-- Invariant of the loop of `distance`. -/
structure Inv (g : Array (List Nat)) (src : List Nat) (st : St) : Prop where
  bfs : BFS.Inv (compl g) src (st.dist, st.dq)
  nodup : st.s.Nodup
  s : ∀ v, v ∈ st.s ↔ v < g.size ∧ BFS.d st.dist v = -1
  size : st.adj.size = g.size
  clear : ∀ k, at' false st.adj k = false

theorem step_tot {part : Part} (hp : PartOk part) {g : Array (List Nat)} (hg : Valid g) {src : List Nat} {st : St} (h : Inv g src st) :
    Tot (step part g st) fun r => match r with
      | none => st.dq = []
      | some t => Inv g src t ∧ t.dq.length + BFS.unv t.dist < st.dq.length + BFS.unv st.dist := by
  unfold step
  obtain ⟨dist, dq, s, adj⟩ := st
  cases dq with
  | nil => exact Tot.pure rfl
  | cons u dq =>
    obtain ⟨hb, h1, h2, h3, h4⟩ := h
    dsimp only at hb h1 h2 h3 h4 ⊢
    have hu : u < g.size := by have := hb.lt u (by simp); rwa [compl_size] at this
    have hsz : dist.size = g.size := by have := hb.size; rwa [compl_size] at this
    have hvu : BFS.d dist u ≠ -1 := hb.vis u (by simp)
    rw [rd_some (adj_eq hu), ok_bind]
    refine Tot.bind (mark_tot h3 true _ fun j hj => hg u j hj) fun adj1 ⟨a1, a2⟩ => ?_
    refine Tot.bind (partition_tot fun v hv => by rw [a1]; exact ((h2 v).1 hv).1) fun p hpe => ?_
    obtain ⟨q1, q2⟩ := hp (fun v => at' false adj1 v) s
    rw [← hpe] at q1 q2
    have m1 : ∀ v, v ∈ p.1 ↔ v ∈ s ∧ v ∈ Graph.adj g u := by
      intro v
      rw [q1.mem_iff, List.mem_filter, a2, h4]
      by_cases hv : v ∈ Graph.adj g u <;> simp [hv]
    have m2 : ∀ v, v ∈ p.2 ↔ v ∈ s ∧ v ∉ Graph.adj g u := by
      intro v
      rw [q2.mem_iff, List.mem_filter, a2, h4]
      by_cases hv : v ∈ Graph.adj g u <;> simp [hv]
    have n1 : p.1.Nodup := q1.nodup_iff.2 (h1.filter _)
    have n2 : p.2.Nodup := q2.nodup_iff.2 (h1.filter _)
    refine Tot.bind (P := fun (t : Array Int × List Nat) => BFS.InvN (compl g) src u p.2.reverse t ∧ t.2.length + BFS.unv t.1 = dq.length + BFS.unv dist ∧
      ∀ w, BFS.d t.1 w = -1 ↔ BFS.d dist w = -1 ∧ w ∉ p.2.reverse) ?_ ?_
    · refine Tot.forEach (P := fun pre (t : Array Int × List Nat) => BFS.InvN (compl g) src u pre t ∧ t.2.length + BFS.unv t.1 = dq.length + BFS.unv dist ∧
        ∀ w, BFS.d t.1 w = -1 ↔ BFS.d dist w = -1 ∧ w ∉ pre) ⟨BFS.inv_pop hb, rfl, by simp⟩ ?_
      rintro pre v post ⟨a, q⟩ he ⟨i1, i2, i3⟩
      dsimp only at i1 i2 i3
      have hv : v ∈ p.2 := by rw [← List.mem_reverse, he]; simp
      have hvpre : v ∉ pre := by
        have := List.nodup_reverse.2 n2
        rw [he, List.nodup_append] at this
        exact fun hm => this.2.2 v hm v (by simp) rfl
      obtain ⟨k1, k2⟩ := (m2 v).1 hv
      obtain ⟨k3, k4⟩ := (h2 v).1 k1
      have hne : v ≠ u := fun e => hvu (by rw [← e]; exact k4)
      have hE : E (compl g) u v := compl_E.2 ⟨hu, k3, hne, k2⟩
      have hd : at' (-1) a v = -1 := (i3 v).2 ⟨k4, hvpre⟩
      have hasz : a.size = g.size := by have := i1.size; rwa [compl_size] at this
      have e1 : pushStep u (a, q) v = .ok (a.setIfInBounds v (at' (-1) a u + 1), q ++ [v]) := by
        unfold pushStep
        rw [rd_at (-1) (by show u < a.size; omega), ok_bind, wr_eq (by show v < a.size; omega), ok_bind]
        rfl
      have e2 : BFS.visit u (a, q) v = .ok (a.setIfInBounds v (at' (-1) a u + 1), q ++ [v]) := by
        unfold BFS.visit
        rw [rd_at (-1) (by show v < a.size; omega), ok_bind, if_pos hd, rd_at (-1) (by show u < a.size; omega), ok_bind, wr_eq (by show v < a.size; omega), ok_bind]
        rfl
      have := BFS.visit_tot (compl_valid g) hE i1
      rw [e2, tot_ok] at this
      obtain ⟨j1, j2⟩ := this
      rw [e1]
      refine Tot.pure ⟨j1, by rw [j2]; exact i2, fun w => ?_⟩
      have hk := i1.visu
      have hpos := i1.sound u
      dsimp only at hk hpos ⊢
      rw [BFS.d, at_set' (-1) (by omega)]
      by_cases hw : w = v
      · subst hw
        rw [if_pos rfl]
        refine ⟨fun hh => ?_, fun hh => absurd (by simp) hh.2⟩
        rcases hpos with hp0 | ⟨k, hk', -⟩
        · exact absurd hp0 hk
        · rw [BFS.d] at hk'
          omega
      · rw [if_neg hw, i3 w]
        simp [hw]
    · rintro ⟨a, q⟩ ⟨i1, i2, i3⟩
      dsimp only at i1 i2 i3 ⊢
      refine Tot.bind (mark_tot a1 false _ fun j hj => hg u j hj) fun adj2 ⟨b1, b2⟩ => ?_
      refine Tot.pure ⟨⟨BFS.inv_push i1 fun v hv => ?_, n1, fun v => ?_, b1, fun k => ?_⟩, ?_⟩
      · obtain ⟨-, c2, c3, c4⟩ := compl_E.1 hv
        intro hd
        obtain ⟨c5, c6⟩ := (i3 v).1 hd
        exact c6 (List.mem_reverse.2 ((m2 v).2 ⟨(h2 v).2 ⟨c2, c5⟩, c4⟩))
      · dsimp only
        rw [m1, i3, List.mem_reverse, m2, h2]
        tauto
      · dsimp only
        rw [b2, a2, h4]
        split <;> simp_all
      · simp only [List.length_cons]
        omega

theorem distance_tot {part : Part} (hp : PartOk part) {g : Array (List Nat)} (hg : Valid g) {src : List Nat} (hs : ∀ s ∈ src, s < g.size) :
    Tot (distance part g src) (BFS.Correct (compl g) src) := by
  unfold distance
  refine Tot.bind (others_tot hs) fun s he => ?_
  have hc := compl_size g
  have := BFS.init_tot (compl g) src (by rw [hc]; exact hs)
  rw [hc] at this
  refine Tot.bind this fun a ⟨h1, h2⟩ => ?_
  refine Tot.bind (P := fun (r : St) => Inv g src r ∧ r.dq = []) ?_ fun r hr => Tot.pure ?_
  · refine Tot.loop (P := Inv g src) (fun s => s.dq.length + BFS.unv s.dist) ?_ ⟨BFS.inv_init (by rw [hc]; exact hs) (by rw [hc]; exact h1) h2, ?_, fun v => ?_, by simp, fun k => ?_⟩ ?_
    · intro st h
      refine (step_tot hp hg h).mono ?_
      rintro (_ | t) ht
      · exact ⟨h, ht⟩
      · exact ht
    · rw [he]
      exact List.nodup_range.filter _
    · rw [he]
      dsimp only
      rw [h2, List.mem_filter, List.mem_range]
      by_cases h : v ∈ src <;> simp [h]
    · by_cases h : k < g.size <;> simp [at', h]
    · dsimp only
      have : BFS.unv a ≤ a.size := BFS.unv_le
      omega
  · obtain ⟨h, hq⟩ := hr
    obtain ⟨a, q, s, adj⟩ := r
    dsimp only at hq
    subst hq
    exact BFS.correct_of_inv h.bfs

/-! ### Connected components -/

/-- While a component is explored; `F` are the vertices of the earlier components. -/
structure InvC (g : Array (List Nat)) (F : List Nat) (i : Nat) (st : CSt) : Prop where
  size : st.vis.size = g.size
  vis : ∀ v, at' false st.vis v = true ↔ v ∈ F ++ st.cmp
  perm : (F ++ st.cmp ++ st.dq ++ st.s).Perm (List.range g.size)
  reach : ∀ v ∈ st.cmp ++ st.dq, Reach (compl g) i v
  start : i ∈ st.cmp ++ st.dq
  closed : ∀ u ∈ st.cmp, ∀ v, E (compl g) u v → v ∉ st.s
  asize : st.adj.size = g.size
  clear : ∀ k, at' false st.adj k = false

theorem compStep_tot {part : Part} (hp : PartOk part) {g : Array (List Nat)} (hg : Valid g) {F : List Nat} {i : Nat} {st : CSt} (h : InvC g F i st) :
    Tot (compStep part g st) fun r => match r with
      | none => st.dq = []
      | some t => InvC g F i t ∧ t.dq.length + t.s.length < st.dq.length + st.s.length := by
  unfold compStep
  obtain ⟨vis, s, adj, dq, cmp⟩ := st
  cases dq with
  | nil => exact Tot.pure rfl
  | cons u dq =>
    obtain ⟨h1, h2, h3, h4, h5, h6, h7, h8⟩ := h
    dsimp only at h1 h2 h3 h4 h5 h6 h7 h8 ⊢
    have hlt : ∀ v, v ∈ F ++ cmp ++ (u :: dq) ++ s → v < g.size := fun v hv => List.mem_range.1 (h3.mem_iff.1 hv)
    have hnd : (F ++ cmp ++ (u :: dq) ++ s).Nodup := h3.nodup_iff.2 List.nodup_range
    have hu : u < g.size := hlt u (by simp)
    have hus : u ∉ s := by
      rw [List.nodup_append] at hnd
      exact fun hm => hnd.2.2 u (by simp) u hm rfl
    rw [wr_eq (by omega), ok_bind, rd_some (adj_eq hu), ok_bind]
    refine Tot.bind (mark_tot h7 true _ fun j hj => hg u j hj) fun adj1 ⟨a1, a2⟩ => ?_
    refine Tot.bind (partition_tot fun v hv => by rw [a1]; exact hlt v (by simp [hv])) fun p hpe => ?_
    obtain ⟨q1, q2⟩ := hp (fun v => at' false adj1 v) s
    rw [← hpe] at q1 q2
    have m1 : ∀ v, v ∈ p.1 ↔ v ∈ s ∧ v ∈ Graph.adj g u := by
      intro v
      rw [q1.mem_iff, List.mem_filter, a2, h8]
      by_cases hv : v ∈ Graph.adj g u <;> simp [hv]
    have m2 : ∀ v, v ∈ p.2 ↔ v ∈ s ∧ v ∉ Graph.adj g u := by
      intro v
      rw [q2.mem_iff, List.mem_filter, a2, h8]
      by_cases hv : v ∈ Graph.adj g u <;> simp [hv]
    have hperm : (p.2 ++ p.1).Perm s := by
      refine (List.Perm.append q2 q1).trans ?_
      refine List.perm_append_comm.trans ?_
      exact List.filter_append_perm _ s
    refine Tot.bind (mark_tot a1 false _ fun j hj => hg u j hj) fun adj2 ⟨b1, b2⟩ => ?_
    refine Tot.pure ⟨⟨by simpa using h1, fun v => ?_, ?_, ?_, ?_, ?_, b1, fun k => ?_⟩, ?_⟩
    · dsimp only
      rw [at_set' false (by omega)]
      by_cases hv : v = u
      · subst hv; simp
      · rw [if_neg hv, h2]
        simp [hv]
    · dsimp only
      refine List.Perm.trans ?_ h3
      rw [show F ++ (cmp ++ [u]) ++ (dq ++ p.2) ++ p.1 = F ++ cmp ++ (u :: dq) ++ (p.2 ++ p.1) by simp]
      exact hperm.append_left _
    · intro v hv
      have hvr : v ∈ cmp ++ u :: dq ∨ v ∈ p.2 := by
        simp only [List.mem_append, List.mem_singleton, List.mem_cons] at hv ⊢
        tauto
      rcases hvr with hv | hv
      · exact h4 v hv
      · refine (h4 u (by simp)).tail (compl_E.2 ?_)
        obtain ⟨c1, c2⟩ := (m2 v).1 hv
        exact ⟨hu, hlt v (by simp [c1]), fun e => hus (e ▸ c1), c2⟩
    · dsimp only
      simp only [List.mem_append, List.mem_singleton, List.mem_cons] at h5 ⊢
      tauto
    · intro w hw v hE hv
      dsimp only at hw hv
      obtain ⟨c1, c2⟩ := (m1 v).1 hv
      simp only [List.mem_append, List.mem_singleton] at hw
      rcases hw with hw | rfl
      · exact h6 w hw v hE c1
      · exact (compl_E.1 hE).2.2.2 c2
    · dsimp only
      rw [b2, a2, h8]
      split <;> simp_all
    · have := hperm.length_eq
      simp only [List.length_append, List.length_cons] at this ⊢
      omega

/-- Between two components. -/
structure InvO (g : Array (List Nat)) (o : OSt) : Prop where
  size : o.vis.size = g.size
  vis : ∀ v, at' false o.vis v = true ↔ v ∈ o.res.flatten
  perm : (o.res.flatten ++ o.s).Perm (List.range g.size)
  comp : ∀ c ∈ o.res, ∀ u ∈ c, ∀ v, v ∈ c ↔ Reach (compl g) u v
  ne : ∀ c ∈ o.res, c ≠ []
  asize : o.adj.size = g.size
  clear : ∀ k, at' false o.adj k = false

theorem component_tot {part : Part} (hp : PartOk part) {g : Array (List Nat)} (hg : Valid g) (hsym : ∀ u v, E g u v → E g v u) {o : OSt} (h : InvO g o)
    {i : Nat} (hi : i < g.size) (hvi : at' false o.vis i = false) :
    Tot (component part g i o) fun t => InvO g t ∧ at' false t.vis i = true ∧ ∀ v, at' false o.vis v = true → at' false t.vis v = true := by
  obtain ⟨vis, s, adj, res⟩ := o
  obtain ⟨h1, h2, h3, h4, h5, h6, h7⟩ := h
  dsimp only at h1 h2 h3 h4 h5 h6 h7 hvi
  have hcsym : ∀ u v, E (compl g) u v → E (compl g) v u := by
    intro u v h
    obtain ⟨c1, c2, c3, c4⟩ := compl_E.1 h
    exact compl_E.2 ⟨c2, c1, Ne.symm c3, fun hm => c4 (hsym v u hm)⟩
  have hiF : i ∉ res.flatten := fun hm => by rw [(h2 i).2 hm] at hvi; cases hvi
  have his : i ∈ s := by
    have : i ∈ res.flatten ++ s := h3.mem_iff.2 (List.mem_range.2 hi)
    exact (List.mem_append.1 this).resolve_left hiF
  have hclosed : ∀ u v, u ∉ res.flatten → E (compl g) u v → v ∉ res.flatten := by
    intro u v hu huv hv
    obtain ⟨c, hc, hvc⟩ := List.mem_flatten.1 hv
    exact hu (List.mem_flatten.2 ⟨c, hc, (h4 c hc v hvc u).2 (.single (hcsym _ _ huv))⟩)
  unfold component
  dsimp only
  rw [eraseFind, if_pos his]
  have hlen : (s.erase i).length + 1 = s.length := by
    rw [List.length_erase_of_mem his]
    have := List.length_pos_of_mem his
    omega
  refine Tot.bind (P := fun t => t = s.erase i) (Tot.pure rfl) fun t ht => ?_
  subst ht
  refine Tot.bind (P := fun r => InvC g res.flatten i r ∧ r.dq = []) ?_ fun r hr => Tot.pure ?_
  · refine Tot.loop (P := InvC g res.flatten i) (fun r => r.dq.length + r.s.length) ?_ ⟨h1, fun v => ?_, ?_, ?_, ?_, ?_, h6, h7⟩ ?_
    · intro st h
      refine (compStep_tot hp hg h).mono ?_
      rintro (_ | t) ht
      · exact ⟨h, ht⟩
      · exact ht
    · simpa using h2 v
    · dsimp only
      refine List.Perm.trans ?_ h3
      rw [List.append_nil, List.append_assoc]
      exact (List.perm_cons_erase his).symm.append_left _
    · intro v hv
      simp at hv
      subst hv
      exact .refl
    · simp
    · simp
    · have := h3.length_eq
      simp only [List.length_append, List.length_range, List.length_cons, List.length_nil] at this ⊢
      omega
  · obtain ⟨vis', s', adj', q, cmp⟩ := r
    obtain ⟨⟨g1, g2, g3, g4, g5, g6, g7, g8⟩, hq⟩ := hr
    dsimp only at g1 g2 g3 g4 g5 g6 g7 g8 hq ⊢
    subst hq
    have hnd := g3.nodup_iff.2 List.nodup_range
    have hic : i ∈ cmp := by simpa using g5
    have hcF : ∀ v ∈ cmp, v ∉ res.flatten := by
      intro v hv hF
      rw [List.append_nil, List.append_assoc, List.nodup_append] at hnd
      exact hnd.2.2 v hF v (by simp [hv]) rfl
    have hcr : ∀ v, v ∈ cmp ↔ Reach (compl g) i v := by
      intro v
      refine ⟨fun hv => g4 v (by simpa using hv), fun hv => ?_⟩
      induction hv with
      | refl => exact hic
      | @tail b c _ he ih =>
        have hm : c ∈ res.flatten ++ cmp ++ [] ++ s' := g3.mem_iff.2 (List.mem_range.2 (compl_E.1 he).2.1)
        simp only [List.append_nil, List.mem_append] at hm
        rcases hm with (hm | hm) | hm
        · exact absurd hm (hclosed b c (hcF b ih) he)
        · exact hm
        · exact absurd hm (g6 b ih c he)
    refine ⟨⟨g1, fun v => ?_, ?_, ?_, ?_, g7, g8⟩, ?_, ?_⟩
    · dsimp only
      rw [g2 v]; simp
    · simpa using g3
    · intro c hc u hu v
      simp only [List.mem_append, List.mem_singleton] at hc
      rcases hc with hc | rfl
      · exact h4 c hc u hu v
      · rw [hcr]
        have := (hcr u).1 hu
        exact ⟨fun h => (BFS.Reach.symm hcsym this).trans h, fun h => this.trans h⟩
    · intro c hc
      simp only [List.mem_append, List.mem_singleton] at hc
      rcases hc with hc | rfl
      · exact h5 c hc
      · intro e
        rw [e] at hic
        simp at hic
    · exact (g2 i).2 (by simp [hic])
    · intro v hv
      have := (h2 v).1 hv
      exact (g2 v).2 (List.mem_append_left _ this)

theorem components_tot {part : Part} (hp : PartOk part) {g : Array (List Nat)} (hg : Valid g) (hsym : ∀ u v, E g u v → E g v u) :
    Tot (components part g) fun res => res.flatten.Perm (List.range g.size) ∧ (∀ c ∈ res, c ≠ []) ∧ ∀ c ∈ res, ∀ u ∈ c, ∀ v, v ∈ c ↔ Reach (compl g) u v := by
  unfold components
  dsimp only
  refine Tot.bind (P := fun (t : OSt) => InvO g t ∧ ∀ j < g.size, at' false t.vis j = true) ?_ fun t ht => Tot.pure ?_
  · refine Tot.forUp (P := fun i (t : OSt) => InvO g t ∧ ∀ j < i, at' false t.vis j = true) (Nat.zero_le _) ⟨⟨by simp, fun v => ?_, by simp, by simp, by simp, by simp, fun k => ?_⟩, by simp⟩ ?_
    · by_cases h : v < g.size <;> simp [at', h]
    · by_cases h : k < g.size <;> simp [at', h]
    · rintro i o - hi ⟨h1, h2⟩
      have hsz := h1.size
      unfold outer
      rw [rd_at false (by omega), ok_bind]
      cases hb : at' false o.vis i with
      | true =>
        rw [if_pos rfl]
        refine Tot.pure ⟨h1, fun j hj => ?_⟩
        by_cases hji : j = i
        · rw [hji]; exact hb
        · exact h2 j (by omega)
      | false =>
        rw [if_neg (by simp)]
        refine (component_tot hp hg hsym h1 hi hb).mono ?_
        rintro t ⟨g1, g2, g3⟩
        refine ⟨g1, fun j hj => ?_⟩
        by_cases hji : j = i
        · rw [hji]; exact g2
        · exact g3 j (h2 j (by omega))
  · obtain ⟨h1, h2⟩ := ht
    have hs : t.s = [] := by
      rw [List.eq_nil_iff_forall_not_mem]
      intro v hv
      have hnd := h1.perm.nodup_iff.2 List.nodup_range
      have hm : v < g.size := List.mem_range.1 (h1.perm.mem_iff.1 (by simp [hv]))
      rw [List.nodup_append] at hnd
      exact hnd.2.2 v ((h1.vis v).1 (h2 v hm)) v hv rfl
    have := h1.perm
    rw [hs, List.append_nil] at this
    exact ⟨this, h1.ne, h1.comp⟩

end ComplementBFS
