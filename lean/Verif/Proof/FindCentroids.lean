import Verif.Model.FindCentroids
import Verif.Proof.IterDFS
import Mathlib.Algebra.Order.Ring.Int

/-! # Proofs about `library/tree/find_centroid.hpp` -/

namespace FindCentroids
open Cxx Graph Tree IterDFS

/-- All children of `x` have small subtrees. -/
def light (n : Nat) (F : Forest) (x : Nat) : Bool := decide (∀ c ∈ (F.under x).roots, 2 * F.sub c ≤ n)

/-- The test of line 21. -/
def cen (n : Nat) (F : Forest) (x : Nat) : Bool := light n F x && decide (n ≤ 2 * F.sub x)

/-- The effect of finishing the vertices of `F`, whose roots have the parent `p`. -/
structure Post (n : Nat) (p : Option Nat) (F : Forest) (s t : St) : Prop where
  ssize : t.sub.size = s.sub.size
  isize : t.isc.size = s.isc.size
  sub : ∀ x, at' 0 t.sub x = if x ∈ F.pre then F.sub x else if p = some x then at' 0 s.sub x + F.size else at' 0 s.sub x
  isc : ∀ x, at' false t.isc x = if x ∈ F.pre then light n F x else if p = some x then at' false s.isc x && decide (∀ c ∈ F.roots, 2 * F.sub c ≤ n) else at' false s.isc x
  res : t.res = s.res ++ ((post p F).map Prod.fst).filter (cen n F)

theorem sub_cons_left {v : Nat} {ch rest : Forest} {x : Nat} (hx : x ∈ ch.pre) (hv : x ≠ v) : (Forest.cons v ch rest).under x = ch.under x := by
  rw [Forest.under, if_neg hv, if_pos hx]

theorem sub_cons_right {v : Nat} {ch rest : Forest} {x : Nat} (hx : x ∉ ch.pre) (hv : x ≠ v) : (Forest.cons v ch rest).under x = rest.under x := by
  rw [Forest.under, if_neg hv, if_neg hx]

theorem light_congr {n : Nat} {F G : Forest} {x : Nat} (hu : F.under x = G.under x) (h : ∀ c ∈ (G.under x).roots, F.under c = G.under c) : light n F x = light n G x := by
  unfold light
  rw [hu, decide_eq_decide]
  constructor
  · intro h1 c hc; have := h1 c hc; rwa [Forest.sub, h c hc] at this
  · intro h1 c hc; have := h1 c hc; rwa [Forest.sub, h c hc]

theorem fin_tot {n v : Nat} {p : Option Nat} {s : St} (hv : v < s.sub.size) (hi : v < s.isc.size) (hn : n < 2 ^ 30) (h1 : at' 0 s.sub v ≤ n)
    (hp : ∀ q, p = some q → q ≠ v ∧ q < s.sub.size ∧ q < s.isc.size ∧ at' 0 s.sub q + at' 0 s.sub v ≤ n) :
    Tot (fin n v p s) fun t => t.sub.size = s.sub.size ∧ t.isc.size = s.isc.size ∧ (∀ x, at' 0 t.sub x = if p = some x then at' 0 s.sub x + at' 0 s.sub v else at' 0 s.sub x) ∧
      (∀ x, at' false t.isc x = if p = some x then at' false s.isc x && decide (2 * at' 0 s.sub v ≤ n) else at' false s.isc x) ∧
      t.res = s.res ++ if at' false s.isc v && decide (n ≤ 2 * at' 0 s.sub v) then [v] else [] := by
  have hnote : ∀ t : St, t.sub.size = s.sub.size → t.isc.size = s.isc.size → at' 0 t.sub v = at' 0 s.sub v → at' false t.isc v = at' false s.isc v → t.res = s.res →
      note n v t = .ok { t with res := s.res ++ if at' false s.isc v && decide (n ≤ 2 * at' 0 s.sub v) then [v] else [] } := by
    intro t t1 t2 t3 t4 t5
    rw [note, rd_at false (by omega), ok_bind, rd_at 0 (by omega), ok_bind, t3, t4, i32_ok ⟨by omega, by omega⟩, ok_bind]
    have e : decide (2 * ((at' 0 s.sub v : Nat) : Int) ≥ n) = decide (n ≤ 2 * at' 0 s.sub v) := by rw [decide_eq_decide]; omega
    rw [e]
    split
    · rw [t5]; rfl
    · rw [← t5]; simp
  unfold fin
  cases p with
  | none =>
    rw [up]
    show Tot (note n v s) _
    rw [hnote s rfl rfl rfl rfl rfl]
    exact Tot.pure ⟨rfl, rfl, fun x => by simp, fun x => by simp, rfl⟩
  | some q =>
    obtain ⟨q1, q2, q3, q4⟩ := hp q rfl
    rw [up]
    rw [rd_at 0 q2, ok_bind, rd_at 0 hv, ok_bind, i32_ok ⟨by omega, by omega⟩, ok_bind, wr_eq q2, ok_bind, rd_at false q3, ok_bind, rd_at 0 (by simpa using hv), ok_bind,
      at_set' 0 q2, if_neg (Ne.symm q1), i32_ok ⟨by omega, by omega⟩, ok_bind, wr_eq q3, ok_bind]
    have e : decide (2 * ((at' 0 s.sub v : Nat) : Int) ≤ n) = decide (2 * at' 0 s.sub v ≤ n) := by rw [decide_eq_decide]; omega
    have e2 : (((at' 0 s.sub q : Nat) : Int) + ((at' 0 s.sub v : Nat) : Int)).toNat = at' 0 s.sub q + at' 0 s.sub v := by omega
    rw [e, e2]
    simp only [pure_eq, ok_bind]
    rw [hnote ⟨s.sub.setIfInBounds q (at' 0 s.sub q + at' 0 s.sub v), s.isc.setIfInBounds q (at' false s.isc q && decide (2 * at' 0 s.sub v ≤ n)), s.res⟩ (by simp) (by simp) (by dsimp only; rw [at_set' 0 q2, if_neg (Ne.symm q1)]) (by dsimp only; rw [at_set' false q3, if_neg (Ne.symm q1)]) rfl]
    refine Tot.pure ⟨by simp, by simp, fun x => ?_, fun x => ?_, rfl⟩
    · dsimp only
      rw [at_set' 0 q2]
      by_cases hx : x = q
      · rw [if_pos hx, if_pos (by rw [hx]), hx]
      · rw [if_neg hx, if_neg (by simpa using Ne.symm hx)]
    · dsimp only
      rw [at_set' false q3]
      by_cases hx : x = q
      · rw [if_pos hx, if_pos (by rw [hx]), hx]
      · rw [if_neg hx, if_neg (by simpa using Ne.symm hx)]

theorem post_tot {n : Nat} {g : Array (List Nat)} (hn : n < 2 ^ 30) (F : Forest) : ∀ (p : Option Nat) (s : St), F.Fits g p → F.pre.Nodup → (∀ q, p = some q → q ∉ F.pre ∧ q < g.size ∧ at' 0 s.sub q + F.size ≤ n) →
    s.sub.size = g.size → s.isc.size = g.size → F.size ≤ n → (∀ x ∈ F.pre, at' 0 s.sub x = 1 ∧ at' false s.isc x = true) → Tot (forEach (post p F) s fun t x => fin n x.1 x.2 t) (Post n p F s) := by
  induction F with
  | nil =>
    intro p s _ _ _ _ _ _ _
    refine Tot.pure ⟨rfl, rfl, fun x => ?_, fun x => ?_, by simp [post]⟩
    · simp [Forest.pre]
    · simp [Forest.pre, Forest.roots]
  | cons v ch rest ih1 ih2 =>
    intro p s hf hnd hp s1 s2 s3 h0
    obtain ⟨hv, f1, f2, f3⟩ := hf
    have hnd' := hnd
    rw [Forest.pre, List.nodup_cons, List.mem_append, List.nodup_append] at hnd'
    obtain ⟨m2, m3, m4, m5⟩ := hnd'
    have hvc : v ∉ ch.pre := fun h => m2 (Or.inl h)
    have hvr : v ∉ rest.pre := fun h => m2 (Or.inr h)
    simp only [Forest.size_cons] at s3 hp
    have h0v := h0 v (by simp [Forest.pre])
    rw [post]
    have happ : ∀ (l m : List (Nat × Option Nat)) (s : St), forEach (l ++ m) s (fun t x => fin n x.1 x.2 t) = forEach l s (fun t x => fin n x.1 x.2 t) >>= fun s => forEach m s (fun t x => fin n x.1 x.2 t) := by
      intro l m
      induction l with
      | nil => intro s; rfl
      | cons x l ih =>
        intro s
        rw [List.cons_append, forEach, forEach]
        cases fin n x.1 x.2 s with
        | error e => rfl
        | ok t => rw [ok_bind, ok_bind, ih]
    rw [happ]
    refine Tot.bind (ih1 (some v) s f2 m3 (fun q hq => by
      injection hq with hq
      subst hq
      refine ⟨hvc, hv, ?_⟩
      rw [h0v.1]; omega) s1 s2 (by omega) (fun x hx => h0 x (by simp [Forest.pre, hx]))) fun a ha => ?_
    have a1 := ha.ssize
    have a2 := ha.isize
    have av : at' 0 a.sub v = ch.size + 1 := by rw [ha.sub, if_neg hvc, if_pos rfl, h0v.1]; omega
    have ai : at' false a.isc v = decide (∀ c ∈ ch.roots, 2 * ch.sub c ≤ n) := by rw [ha.isc, if_neg hvc, if_pos rfl, h0v.2, Bool.true_and]
    have hpv : p ≠ some v := by
      intro e
      exact (hp v e).1 (by simp [Forest.pre])
    have hpc : ∀ q, p = some q → q ∉ ch.pre ∧ q ∉ rest.pre ∧ q ≠ v := fun q hq => by
      have := (hp q hq).1
      simp only [Forest.pre, List.mem_cons, List.mem_append, not_or] at this
      exact ⟨this.2.1, this.2.2, this.1⟩
    have aq : ∀ q, p = some q → at' 0 a.sub q = at' 0 s.sub q ∧ at' false a.isc q = at' false s.isc q := fun q hq => by
      obtain ⟨q1, q2, q3⟩ := hpc q hq
      rw [ha.sub, ha.isc, if_neg q1, if_neg q1, if_neg (by simpa using Ne.symm q3), if_neg (by simpa using Ne.symm q3)]
      exact ⟨rfl, rfl⟩
    rw [forEach]
    refine Tot.bind (fin_tot (n := n) (v := v) (p := p) (s := a) (by omega) (by omega) hn (by omega) (fun q hq => ?_)) ?_
    · have := hp q hq
      refine ⟨(hpc q hq).2.2, by omega, by omega, ?_⟩
      rw [(aq q hq).1, av]
      omega
    rintro b ⟨b1, b2, b3, b4, b5⟩
    rw [av] at b3 b4
    have hpx : ∀ x, x ∈ rest.pre → p ≠ some x := fun x hx e => (hpc x e).2.1 hx
    refine (ih2 p b f3 m4 (fun q hq => ?_) (by omega) (by omega) (by omega) (fun x hx => ?_)).mono fun t ht => ?_
    · have := hp q hq
      refine ⟨(hpc q hq).2.1, this.2.1, ?_⟩
      rw [b3, if_pos hq, (aq q hq).1]
      omega
    · have hxv : x ≠ v := by rintro rfl; exact hvr hx
      have hxc : x ∉ ch.pre := fun h => m5 x h x hx rfl
      rw [b3, b4, if_neg (hpx x hx), if_neg (hpx x hx), ha.sub, ha.isc, if_neg hxc, if_neg hxc, if_neg (by simpa using Ne.symm hxv), if_neg (by simpa using Ne.symm hxv)]
      exact h0 x (by simp [Forest.pre, hx])
    have t1 := ht.ssize
    have t2 := ht.isize
    have uv : (Forest.cons v ch rest).under v = ch := by rw [Forest.under, if_pos rfl]
    have uc : ∀ x ∈ ch.pre, (Forest.cons v ch rest).under x = ch.under x := fun x hx => sub_cons_left hx (by rintro rfl; exact hvc hx)
    have ur : ∀ x ∈ rest.pre, (Forest.cons v ch rest).under x = rest.under x := fun x hx => sub_cons_right (fun h => m5 x h x hx rfl) (by rintro rfl; exact hvr hx)
    have lv : light n (.cons v ch rest) v = decide (∀ c ∈ ch.roots, 2 * ch.sub c ≤ n) := by
      unfold light
      rw [uv, decide_eq_decide]
      constructor
      · intro h1 c hc; have := h1 c hc; rwa [Forest.sub, uc c (Forest.roots_sub hc)] at this
      · intro h1 c hc; have := h1 c hc; rwa [Forest.sub, uc c (Forest.roots_sub hc)]
    have lc : ∀ x ∈ ch.pre, light n (.cons v ch rest) x = light n ch x := fun x hx => light_congr (uc x hx) fun c hc => uc c (Forest.under_sub hx (Forest.roots_sub hc))
    have lr : ∀ x ∈ rest.pre, light n (.cons v ch rest) x = light n rest x := fun x hx => light_congr (ur x hx) fun c hc => ur c (Forest.under_sub hx (Forest.roots_sub hc))
    refine ⟨by omega, by omega, fun x => ?_, fun x => ?_, ?_⟩
    · rw [ht.sub, b3, ha.sub]
      simp only [Forest.pre, List.mem_cons, List.mem_append, Forest.size_cons]
      by_cases hxr : x ∈ rest.pre
      · rw [if_pos hxr, if_pos (Or.inr (Or.inr hxr)), Forest.sub, Forest.sub, ur x hxr]
      · rw [if_neg hxr]
        by_cases hxp : p = some x
        · obtain ⟨q1, q2, q3⟩ := hpc x hxp
          rw [if_pos hxp, if_pos hxp, if_neg q1, if_neg (by simpa using Ne.symm q3), if_neg (by tauto), if_pos hxp]
          omega
        · rw [if_neg hxp, if_neg hxp]
          by_cases hxc : x ∈ ch.pre
          · rw [if_pos hxc, if_pos (Or.inr (Or.inl hxc)), Forest.sub, Forest.sub, uc x hxc]
          · rw [if_neg hxc]
            by_cases hxv : x = v
            · subst hxv
              rw [if_pos rfl, if_pos (Or.inl rfl), Forest.sub, uv, h0v.1]; omega
            · rw [if_neg (by simpa using Ne.symm hxv), if_neg (by tauto), if_neg hxp]
    · rw [ht.isc, b4, ha.isc]
      simp only [Forest.pre, List.mem_cons, List.mem_append]
      by_cases hxr : x ∈ rest.pre
      · rw [if_pos hxr, if_pos (Or.inr (Or.inr hxr)), lr x hxr]
      · rw [if_neg hxr]
        by_cases hxp : p = some x
        · obtain ⟨q1, q2, q3⟩ := hpc x hxp
          rw [if_pos hxp, if_pos hxp, if_neg q1, if_neg (by simpa using Ne.symm q3), if_neg (by tauto), if_pos hxp, Bool.and_assoc]
          congr 1
          rw [← Bool.decide_and, decide_eq_decide]
          simp only [Forest.roots, List.forall_mem_cons]
          rw [Forest.sub, uv]
          refine and_congr Iff.rfl ⟨fun h1 c hc => ?_, fun h1 c hc => ?_⟩
          · have := h1 c hc; rwa [Forest.sub, ur c (Forest.roots_sub hc)]
          · have := h1 c hc; rwa [Forest.sub, ur c (Forest.roots_sub hc)] at this
        · rw [if_neg hxp, if_neg hxp]
          by_cases hxc : x ∈ ch.pre
          · rw [if_pos hxc, if_pos (Or.inr (Or.inl hxc)), lc x hxc]
          · rw [if_neg hxc]
            by_cases hxv : x = v
            · subst hxv
              rw [if_pos rfl, if_pos (Or.inl rfl), lv, h0v.2, Bool.true_and]
            · rw [if_neg (by simpa using Ne.symm hxv), if_neg (by tauto), if_neg hxp]
    · rw [ht.res, b5, ha.res, av, ai, post]
      simp only [List.map_append, List.map_cons, List.filter_append, List.filter_cons]
      have e1 : ((post (some v) ch).map Prod.fst).filter (cen n (.cons v ch rest)) = ((post (some v) ch).map Prod.fst).filter (cen n ch) := by
        refine List.filter_congr fun x hx => ?_
        have hx := (post_perm ch _).mem_iff.1 hx
        rw [cen, cen, lc x hx, Forest.sub, Forest.sub, uc x hx]
      have e2 : ((post p rest).map Prod.fst).filter (cen n (.cons v ch rest)) = ((post p rest).map Prod.fst).filter (cen n rest) := by
        refine List.filter_congr fun x hx => ?_
        have hx := (post_perm rest _).mem_iff.1 hx
        rw [cen, cen, lr x hx, Forest.sub, Forest.sub, ur x hx]
      have e3 : cen n (.cons v ch rest) v = (decide (∀ c ∈ ch.roots, 2 * ch.sub c ≤ n) && decide (n ≤ 2 * (ch.size + 1))) := by
        rw [cen, lv, Forest.sub, uv]
      rw [e1, e2, e3]
      split <;> simp

/-! ### The number of centroids -/

variable {g : Array (List Nat)} {r : Nat} {F : Forest}

theorem child_iff (h : Rooted g r F) {v c : Nat} (hv : v < g.size) : c ∈ ((Forest.tree r F).under v).roots ↔ c < g.size ∧ rpath r F c = rpath r F v ++ [c] := by
  rw [Forest.mem_under_roots h.tree_nodup ((h.tree_mem v).2 hv), h.tree_mem]
  refine and_congr_right fun hc => ?_
  rw [tree_path ((h.lt_iff c).1 hc), tree_path ((h.lt_iff v).1 hv)]

theorem cen_iff (hg : IsTree g) (h : Rooted g r F) {v : Nat} (hv : v < g.size) : cen g.size (Forest.tree r F) v = true ↔ IsCentroid g v := by
  have hvm := (h.tree_mem v).2 hv
  rw [cen, light, Bool.and_eq_true, decide_eq_true_eq, decide_eq_true_eq]
  constructor
  · rintro ⟨h1, h2⟩
    refine ⟨hv, fun w hw => ?_⟩
    rcases (h.adj_iff hg hv).1 hw with h3 | h3
    · obtain ⟨h4, h5⟩ := (child_iff h hv).1 h3
      rw [h.side_child_length hg hv h4 h5]
      exact h1 w h3
    · rcases Forest.par_some h.tree_nodup (p := none) hvm with ⟨-, h4⟩ | ⟨q, h4, h5, h6⟩
      · rw [h4] at h3; cases h3
      · rw [h4] at h3
        injection h3 with h3
        subst h3
        have hq := (h.tree_mem q).1 h5
        have := h.side_parent_length hg hv hq ((child_iff h hq).1 h6).2
        omega
  · rintro ⟨-, h1⟩
    constructor
    · intro c hc
      obtain ⟨h4, h5⟩ := (child_iff h hv).1 hc
      rw [← h.side_child_length hg hv h4 h5]
      exact h1 c ((h.adj_iff hg hv).2 (Or.inl hc))
    · rcases Forest.par_some h.tree_nodup (p := none) hvm with ⟨h3, -⟩ | ⟨q, h4, h5, h6⟩
      · have : v = r := by simpa [Forest.tree, Forest.roots] using h3
        subst this
        have h7 : (Forest.tree v F).sub v = g.size := by
          rw [← h.tree_size, Forest.sub, Forest.tree, Forest.under, if_pos rfl, Forest.size_cons]; rfl
        omega
      · have hq := (h.tree_mem q).1 h5
        have := h.side_parent_length hg hv hq ((child_iff h hq).1 h6).2
        have := h1 q ((h.adj_iff hg hv).2 (Or.inr h4))
        omega

theorem sub_child_lt (h : Rooted g r F) {v c : Nat} (hv : v < g.size) (hc : c < g.size) (hcv : v ∈ rpath r F c) (hne : c ≠ v) : (Forest.tree r F).sub c < (Forest.tree r F).sub v := by
  have hvm := (h.tree_mem v).2 hv
  have hcm := (h.tree_mem c).2 hc
  have hcu : c ∈ ((Forest.tree r F).under v).pre := ((under_tree_mem h hv hc).1 hcv).resolve_left hne
  have n1 := Forest.under_nodup h.tree_nodup hcm
  have n2 := Forest.under_nodup h.tree_nodup hvm
  have hsub : (c :: ((Forest.tree r F).under c).pre) ⊆ ((Forest.tree r F).under v).pre := by
    intro x hx
    have hxs : x < g.size := by
      rcases List.mem_cons.1 hx with rfl | hx
      · exact hc
      · exact (h.tree_mem x).1 (Forest.under_sub hcm hx)
    have hxc : c ∈ rpath r F x := (under_tree_mem h hc hxs).2 (List.mem_cons.1 hx)
    have hxv := rpath_trans h.nodup hcv hxc
    refine ((under_tree_mem h hv hxs).1 hxv).resolve_left ?_
    rintro rfl
    -- then `c` is on the path to `v`
    have := depth_le h.nodup hxc
    exact hne (anc_eq h.nodup ((h.lt_iff x).1 hxs) hxc (depth_le h.nodup hcv))
  have := (List.subperm_of_subset n1 hsub).length_le
  rw [List.length_cons] at this
  show (Forest.under _ c).pre.length + 1 < (Forest.under _ v).pre.length + 1
  omega

/-- Two centroids are adjacent and halve the tree. -/
theorem cen_two (h : Rooted g r F) {u v : Nat} (hu : u < g.size) (hv : v < g.size) (huv : u ≠ v) (cu : cen g.size (Forest.tree r F) u = true) (cv : cen g.size (Forest.tree r F) v = true) :
    rpath r F v = rpath r F u ++ [v] ∨ rpath r F u = rpath r F v ++ [u] := by
  rw [cen, light, Bool.and_eq_true, decide_eq_true_eq, decide_eq_true_eq] at cu cv
  have key : ∀ u v, u < g.size → v < g.size → u ≠ v → (∀ c ∈ ((Forest.tree r F).under u).roots, 2 * (Forest.tree r F).sub c ≤ g.size) → g.size ≤ 2 * (Forest.tree r F).sub v → u ∈ rpath r F v → rpath r F v = rpath r F u ++ [v] := by
    intro u v hu hv huv h1 h2 h3
    obtain ⟨t, ht⟩ := rpath_prefix h.nodup h3
    have hlast := rpath_last (F := F) ((h.lt_iff v).1 hv)
    match t, ht with
    | [], ht =>
      rw [List.append_nil] at ht
      rw [← ht, rpath_last ((h.lt_iff u).1 hu)] at hlast
      simp at hlast
      exact absurd hlast huv
    | c :: t, ht =>
      have hcv : c ∈ rpath r F v := by rw [← ht]; simp
      have hc := h.mem_lt hcv
      have hpc := rpath_prefix h.nodup hcv
      have hcc := rpath_last (F := F) ((h.lt_iff c).1 hc)
      have hnd := (h.isPath hv).nodup
      have hrc : rpath r F c = rpath r F u ++ [c] := by
        have hd : Tree.depth r F c = Tree.depth r F u + 1 := by
          obtain ⟨a, ha, hda⟩ := exists_anc h.nodup ((h.lt_iff v).1 hv) (d := Tree.depth r F u + 1) (by
            have := congrArg List.length ht
            rw [List.length_append, rpath_length, rpath_length, List.length_cons] at this
            omega)
          have e1 : (rpath r F v)[Tree.depth r F u + 1]? = some a := by
            obtain ⟨t', ht'⟩ := rpath_prefix h.nodup ha
            rw [← ht', List.getElem?_append_left (by rw [rpath_length]; omega)]
            have := rpath_last (F := F) (rpath_sub ha)
            rw [List.getLast?_eq_getElem?, rpath_length, Nat.add_sub_cancel, hda] at this
            exact this
          have e2 : (rpath r F v)[Tree.depth r F u + 1]? = some c := by
            rw [← ht, List.getElem?_append_right (by rw [rpath_length]), rpath_length, Nat.sub_self]; rfl
          rw [e1] at e2
          injection e2 with e2
          rw [← e2, hda]
        obtain ⟨t', ht'⟩ := hpc
        rw [← ht] at ht'
        have e : rpath r F c ++ t' = (rpath r F u ++ [c]) ++ t := by rw [ht']; simp
        exact (List.append_inj e (by rw [List.length_append, rpath_length, rpath_length, hd]; rfl)).1
      by_cases hcv' : c = v
      · rw [hcv'] at hrc; exact hrc
      · have := sub_child_lt h hc hv hcv (Ne.symm hcv')
        have := h1 c ((child_iff h hu).2 ⟨hc, hrc⟩)
        omega
  by_cases h1 : u ∈ rpath r F v
  · exact Or.inl (key u v hu hv huv cu.1 cv.2 h1)
  · by_cases h2 : v ∈ rpath r F u
    · exact Or.inr (key v u hv hu huv.symm cv.1 cu.2 h2)
    · exfalso
      -- disjoint subtrees, both of at least half of the vertices, and the root
      have n1 := Forest.under_nodup h.tree_nodup ((h.tree_mem u).2 hu)
      have n2 := Forest.under_nodup h.tree_nodup ((h.tree_mem v).2 hv)
      have hb : ∀ y, y < g.size → ∀ x ∈ y :: ((Forest.tree r F).under y).pre, x < g.size ∧ y ∈ rpath r F x := by
        intro y hy x hx
        have hxs : x < g.size := by
          rcases List.mem_cons.1 hx with rfl | hx
          · exact hy
          · exact (h.tree_mem x).1 (Forest.under_sub ((h.tree_mem y).2 hy) hx)
        exact ⟨hxs, (under_tree_mem h hy hxs).2 (List.mem_cons.1 hx)⟩
      have hdis : ∀ x, ¬ (u ∈ rpath r F x ∧ v ∈ rpath r F x) := by
        rintro x ⟨h3, h4⟩
        obtain ⟨a, ha⟩ := rpath_prefix h.nodup h3
        obtain ⟨b, hb⟩ := rpath_prefix h.nodup h4
        rcases List.prefix_or_prefix_of_prefix ⟨a, ha⟩ ⟨b, hb⟩ with h5 | h5
        · exact h1 (h5.subset (rpath_self ((h.lt_iff u).1 hu)))
        · exact h2 (h5.subset (rpath_self ((h.lt_iff v).1 hv)))
      have hru : r ≠ u := by rintro rfl; exact h1 (root_mem _ _ _)
      have hrv : r ≠ v := by rintro rfl; exact h2 (root_mem _ _ _)
      have hN : (r :: (u :: ((Forest.tree r F).under u).pre ++ (v :: ((Forest.tree r F).under v).pre))).Nodup := by
        rw [List.nodup_cons, List.nodup_append, List.mem_append]
        refine ⟨?_, n1, n2, ?_⟩
        · rintro (hm | hm)
          · have := (hb u hu r hm).2
            rw [rpath_root, List.mem_singleton] at this
            exact hru this.symm
          · have := (hb v hv r hm).2
            rw [rpath_root, List.mem_singleton] at this
            exact hrv this.symm
        · rintro a ha b hb' rfl
          exact hdis a ⟨(hb u hu a ha).2, (hb v hv a hb').2⟩
      have := (List.subperm_of_subset hN (l₂ := List.range g.size) (by
        intro x hx
        rw [List.mem_range]
        rcases List.mem_cons.1 hx with rfl | hx
        · exact h.lt
        · rcases List.mem_append.1 hx with hx | hx
          · exact (hb u hu x hx).1
          · exact (hb v hv x hx).1)).length_le
      have e1 : (Forest.tree r F).sub u = ((Forest.tree r F).under u).pre.length + 1 := rfl
      have e2 : (Forest.tree r F).sub v = ((Forest.tree r F).under v).pre.length + 1 := rfl
      simp only [List.length_cons, List.length_append, List.length_range] at this
      omega

theorem exists_cen (h : Rooted g r F) : ∃ v, v < g.size ∧ cen g.size (Forest.tree r F) v = true := by
  classical
  have hex : ∃ k v, v < g.size ∧ g.size ≤ 2 * (Forest.tree r F).sub v ∧ (Forest.tree r F).sub v = k := by
    refine ⟨_, r, h.lt, ?_, rfl⟩
    have h7 : (Forest.tree r F).sub r = g.size := by
      rw [← h.tree_size, Forest.sub, Forest.tree, Forest.under, if_pos rfl, Forest.size_cons]; rfl
    omega
  obtain ⟨v, h1, h2, h3⟩ := Nat.find_spec hex
  refine ⟨v, h1, ?_⟩
  rw [cen, light, Bool.and_eq_true, decide_eq_true_eq, decide_eq_true_eq]
  refine ⟨fun c hc => ?_, h2⟩
  by_contra hcon
  obtain ⟨h4, h5⟩ := (child_iff h h1).1 hc
  have hlt := sub_child_lt h h1 h4 (by rw [h5]; exact List.mem_append_left _ (rpath_self ((h.lt_iff v).1 h1))) (by
    rintro rfl
    have := congrArg List.length h5
    simp at this)
  exact Nat.find_min hex (m := (Forest.tree r F).sub c) (by omega) ⟨c, h4, by omega, rfl⟩

theorem findCentroids_tot (hg : IsTree g) (hn : g.size < 2 ^ 30) : Tot (findCentroids g) fun res => res.Nodup ∧ (∀ v, v ∈ res ↔ IsCentroid g v) ∧ (res.length = 1 ∨ res.length = 2) ∧
    ∀ u v, u ∈ res → v ∈ res → u ≠ v → E g u v := by
  obtain ⟨F, h⟩ := exists_rooted hg hg.pos
  unfold findCentroids
  dsimp only
  refine Tot.bind (walk_tot h (post_tot hn (Forest.tree 0 F) none _ h.tree_fits h.tree_nodup (fun q hq => by cases hq) (by simp) (by simp) (by rw [h.tree_size]) (fun x hx => ?_))) fun t ht => ?_
  · have := (h.tree_mem x).1 hx
    simp [at', this]
  have hres := ht.res
  dsimp only at hres
  rw [List.nil_append] at hres
  have hmem : ∀ v, v ∈ t.res ↔ v < g.size ∧ cen g.size (Forest.tree 0 F) v = true := fun v => by
    rw [hres, List.mem_filter, (post_perm _ _).mem_iff, h.tree_mem]
  have hnd : t.res.Nodup := by
    rw [hres]
    exact (((post_perm _ _).nodup_iff).2 h.tree_nodup).filter _
  have htwo : ∀ u v, u ∈ t.res → v ∈ t.res → u ≠ v → rpath 0 F v = rpath 0 F u ++ [v] ∨ rpath 0 F u = rpath 0 F v ++ [u] := fun u v hu hv huv =>
    cen_two h ((hmem u).1 hu).1 ((hmem v).1 hv).1 huv ((hmem u).1 hu).2 ((hmem v).1 hv).2
  have hlen : t.res.length = 1 ∨ t.res.length = 2 := by
    match hr : t.res with
    | [] =>
      obtain ⟨v, h1, h2⟩ := exists_cen h
      have := (hmem v).2 ⟨h1, h2⟩
      rw [hr] at this
      simp at this
    | [a] => exact Or.inl rfl
    | [a, b] => exact Or.inr rfl
    | a :: b :: c :: l =>
      exfalso
      rw [hr] at hnd htwo
      simp only [List.nodup_cons, List.mem_cons, not_or] at hnd
      have len : ∀ x y : Nat, rpath 0 F y = rpath 0 F x ++ [y] → Tree.depth 0 F y = Tree.depth 0 F x + 1 := fun x y e => by
        have := congrArg List.length e
        rw [List.length_append, rpath_length, rpath_length] at this
        simpa using this
      have hab := htwo a b (by simp) (by simp) hnd.1.1
      have hac := htwo a c (by simp) (by simp) hnd.1.2.1
      have hbc := htwo b c (by simp) (by simp) hnd.2.1.1
      rcases hab with e1 | e1 <;> rcases hac with e2 | e2 <;> rcases hbc with e3 | e3 <;> (have := len _ _ e1; have := len _ _ e2; have := len _ _ e3; omega)
  rw [decide_eq_true hlen, check_true, ok_bind]
  refine Tot.pure ⟨hnd, fun v => ?_, hlen, fun u v hu hv huv => ?_⟩
  · rw [hmem]
    constructor
    · rintro ⟨h1, h2⟩; exact (cen_iff hg h h1).1 h2
    · intro h1; exact ⟨h1.1, (cen_iff hg h h1.1).2 h1⟩
  · rcases htwo u v hu hv huv with e | e
    · exact (h.parent_of hg ((hmem v).1 hv).1 ((hmem u).1 hu).1 e).1
    · exact hg.symm _ _ (h.parent_of hg ((hmem u).1 hu).1 ((hmem v).1 hv).1 e).1

end FindCentroids
