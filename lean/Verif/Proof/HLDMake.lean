import Verif.Proof.HLDBuild2
import Verif.Proof.EulerTour

/-! # The constructors of the heavy light decomposition -/

namespace HLD
open Cxx Graph Tree

variable {g : Array (List Nat)} {r : Nat} {F : Forest}

theorem tree_sub_eq {x : Nat} (hx : x ∈ F.pre) (hr : r ∉ F.pre) : (Forest.tree r F).sub x = F.sub x := by
  have : x ≠ r := by rintro rfl; exact hr hx
  rw [Forest.sub, Forest.tree, Forest.under, if_neg this, if_pos hx]; rfl

theorem tree_sub_root : (Forest.tree r F).sub r = F.size + 1 := by
  rw [Forest.sub, Forest.tree, Forest.under, if_pos rfl]

theorem tree_par_eq {x : Nat} (hx : x ∈ F.pre) (hr : r ∉ F.pre) : (Forest.tree r F).par none x = F.par (some r) x := by
  have : x ≠ r := by rintro rfl; exact hr hx
  rw [Forest.tree, Forest.par, if_neg this, if_pos hx]

theorem tree_par_root : (Forest.tree r F).par none r = none := by
  rw [Forest.tree, Forest.par, if_pos rfl]

/-- The parent is the last vertex but one on the path from the root. -/
theorem par_iff (h : Rooted g r F) {x q : Nat} (hx : x < g.size) : (Forest.tree r F).par none x = some q ↔ q < g.size ∧ rpath r F x = rpath r F q ++ [x] := by
  have hxm := (h.tree_mem x).2 hx
  constructor
  · intro hq
    rcases Forest.par_some h.tree_nodup (p := none) hxm with ⟨-, h1⟩ | ⟨y, h1, hy, h2⟩
    · rw [h1] at hq; cases hq
    · rw [h1] at hq; cases hq
      have hyl := (h.tree_mem q).1 hy
      have := ((Forest.mem_under_roots h.tree_nodup hy).1 h2).2
      rw [tree_path ((h.lt_iff x).1 hx), tree_path ((h.lt_iff q).1 hyl)] at this
      exact ⟨hyl, this⟩
  · rintro ⟨hq, e⟩
    rcases Forest.par_some h.tree_nodup (p := none) hxm with ⟨h1, -⟩ | ⟨y, h1, hy, h2⟩
    · have : x = r := by simpa [Forest.tree, Forest.roots] using h1
      subst this
      rw [rpath_root] at e
      have := congrArg List.length e
      rw [List.length_append, rpath_length] at this
      simp at this
    · have hyl := (h.tree_mem y).1 hy
      have e2 := ((Forest.mem_under_roots h.tree_nodup hy).1 h2).2
      rw [tree_path ((h.lt_iff x).1 hx), tree_path ((h.lt_iff y).1 hyl), e] at e2
      have e3 := (List.append_inj' e2 rfl).1
      have e4 := rpath_last ((h.lt_iff q).1 hq)
      rw [e3, rpath_last ((h.lt_iff y).1 hyl)] at e4
      cases e4
      exact h1

theorem par_none (h : Rooted g r F) {x : Nat} (hx : x < g.size) : (Forest.tree r F).par none x = none ↔ x = r := by
  constructor
  · intro hp
    rcases Forest.par_some h.tree_nodup (p := none) ((h.tree_mem x).2 hx) with ⟨h1, -⟩ | ⟨y, h1, hy, h2⟩
    · simpa [Forest.tree, Forest.roots] using h1
    · rw [h1] at hp; cases hp
  · rintro rfl; exact tree_par_root

theorem option_ext {a b : Option Nat} (h : ∀ q, a = some q ↔ b = some q) : a = b := by
  cases a with
  | none =>
    cases b with
    | none => rfl
    | some y => exact absurd ((h y).2 rfl) (by simp)
  | some x => exact ((h x).1 rfl).symm

/-- Two rooted versions of graphs with the same edges have the same paths. -/
theorem rooted_same {g' : Array (List Nat)} {F' : Forest} (hg : IsTree g) (h : Rooted g r F) (h' : Rooted g' r F') (hs : g'.size = g.size) (hp : ∀ u, (adj g' u).Perm (adj g u)) {x : Nat} (hx : x < g.size) : rpath r F' x = rpath r F x := by
  have hE : E g' = E g := by funext u v; exact propext (hp u).mem_iff
  have q := h'.isPath (x := x) (by omega)
  exact (h.path_iff hg hx).1 ⟨q.head, q.last, q.nodup, hE ▸ q.chain⟩

/-- State after the first search. -/
structure PhaseA (g : Array (List Nat)) (r : Nat) (F : Forest) (s : St) : Prop where
  v : s.visit = Array.replicate g.size 0
  l : s.leave = Array.replicate g.size 0
  h : s.head = Array.replicate g.size 0
  o : s.ord = Array.replicate g.size 0
  gsz : s.g.size = g.size
  ssz : s.siz.size = g.size
  psz : s.par.size = g.size
  dsz : s.dep.size = g.size
  par : ∀ x < g.size, at' none s.par x = (Forest.tree r F).par none x
  siz : ∀ x < g.size, at' 0 s.siz x = (Forest.tree r F).sub x
  dep : ∀ x < g.size, at' 0 s.dep x = (Tree.depth r F x : Int)
  perm : ∀ x, (adj s.g x).Perm (adj g x)
  heavy : ∀ x < g.size, ∃ mx, HF ((Forest.tree r F).sub) ((Forest.tree r F).par none x) (adj s.g x) mx

theorem root1_tot (h : Rooted g r F) (hsz : g.size ≤ 2 ^ 30) : Tot (root1 r (init g)) (PhaseA g r F) := by
  have hfs := EulerTour.rooted_size h
  have hfh := F.height_le
  have hr := h.lt
  obtain ⟨hn1, hn2⟩ := List.nodup_cons.1 h.nodup
  have hG : Glob ((Forest.tree r F).sub) ((Forest.tree r F).par none) (Tree.depth r F) r F := by
    refine ⟨fun x hx => (tree_sub_eq hx hn1).symm, fun x hx => (tree_par_eq hx hn1).symm, fun x hx => ?_⟩
    have hxr : x ≠ r := by rintro rfl; exact hn1 hx
    have e1 := rpath_length r F x
    have e2 := rpath_length r F r
    rw [rpath_ne F hxr] at e1
    rw [rpath_root] at e2
    simp at e1 e2
    omega
  have hd0 : Tree.depth r F r = 0 := by
    have e2 := rpath_length r F r
    rw [rpath_root] at e2
    simp at e2; omega
  rw [root1, dfs, enter, wr_eq (by simp [init]; omega), ok_bind, wr_eq (by simp [init]; omega), ok_bind, pure_eq, ok_bind, rd_adj (show r < (init g).g.size from hr), ok_bind, bind_assoc]
  have hk := kidsA (g0 := g) (S := (Forest.tree r F).sub) (PA := (Forest.tree r F).par none) (D := Tree.depth r F) F r none g.size 0 [] (adj g r)
    ⟨g, Array.replicate g.size 0, Array.replicate g.size 0, Array.replicate g.size 0, Array.replicate g.size 0, (Array.replicate g.size 0).setIfInBounds r 1, (Array.replicate g.size none).setIfInBounds r none, Array.replicate g.size 0⟩
    rfl (by rw [h.roots]; simp) (fun _ _ => rfl) h.fits (by omega) h.nodup hr rfl (by simp) (by simp) (by simp)
    (by dsimp only; rw [EulerTour.at_replicate, hd0]; rfl) (by omega) hG (Or.inl ⟨rfl, by simp⟩)
  refine Tot.bind hk ?_
  rintro ⟨mx, s⟩ hs
  dsimp only at hs ⊢
  have h1 := hs.gsz
  have h2 := hs.ssz
  have h3 := hs.psz
  have h4 := hs.dsz
  have h5 := hs.par
  have h6 := hs.siz
  have h7 := hs.dep
  have h8 := hs.other
  have h9 := hs.permu
  simp only [Array.size_setIfInBounds, Array.size_replicate] at h1 h2 h3 h4 h5 h6 h7 h8 h9
  have hset : at' 0 ((Array.replicate g.size 0).setIfInBounds r 1) r = 1 := by rw [at_set' 0 (by simp; omega), if_pos rfl]
  rw [rd_at 0 (by omega), ok_bind]
  refine Tot.pure ⟨hs.v, hs.l, hs.h, hs.o, h1, h2, h3, h4, fun x hx => ?_, fun x hx => ?_, fun x hx => ?_, fun x => ?_, fun x hx => ?_⟩
  · rw [h5 x]
    split
    · rfl
    · rename_i hm
      have hxr : x = r := ((h.lt_iff x).1 hx).resolve_right hm
      subst hxr
      rw [at_set' none (by simp; omega), if_pos rfl, tree_par_root]
  · rw [h6 x]
    split
    · rfl
    · rename_i hm
      have hxr : x = r := ((h.lt_iff x).1 hx).resolve_right hm
      subst hxr
      rw [if_pos rfl, hset, tree_sub_root]; omega
  · rw [h7 x]
    split
    · rfl
    · rename_i hm
      have hxr : x = r := ((h.lt_iff x).1 hx).resolve_right hm
      subst hxr
      rw [EulerTour.at_replicate, hd0]; rfl
  · by_cases hx : x < g.size
    · rcases (h.lt_iff x).1 hx with rfl | hm
      · exact h9
      · exact hs.perm x hm
    · rw [adj_ge (show s.g.size ≤ x by omega), adj_ge (by omega)]
  · rcases (h.lt_iff x).1 hx with rfl | hm
    · rw [tree_par_root]; exact hs.heavyu
    · exact hs.heavy x hm

/-- A finished object for the tree `g` with root `r`; `F` lists the reordered tree. -/
structure Built (g : Array (List Nat)) (r : Nat) (F : Forest) (t : St) : Prop where
  gsz : t.g.size = g.size
  perm : ∀ x, (adj t.g x).Perm (adj g x)
  rooted : Rooted t.g r F
  vsz : t.visit.size = g.size
  lsz : t.leave.size = g.size
  hsz : t.head.size = g.size
  osz : t.ord.size = g.size
  ssz : t.siz.size = g.size
  psz : t.par.size = g.size
  dsz : t.dep.size = g.size
  vis : ∀ x < g.size, at' 0 t.visit x = (r :: F.pre).idxOf x
  lev : ∀ x < g.size, at' 0 t.leave x = at' 0 t.visit x + (Forest.tree r F).sub x
  ord : ∀ j < g.size, (r :: F.pre)[j]? = some (at' 0 t.ord j)
  siz : ∀ x < g.size, at' 0 t.siz x = (Forest.tree r F).sub x
  par : ∀ x < g.size, at' none t.par x = (Forest.tree r F).par none x
  dep : ∀ x < g.size, at' 0 t.dep x = (Tree.depth r F x : Int)
  hdr : at' 0 t.head r = r
  hd : ∀ x < g.size, ∀ q, (Forest.tree r F).par none x = some q → at' 0 t.head x = if (adj t.g q).head? = some x then at' 0 t.head q else x
  heavy : ∀ x < g.size, ∃ mx, HF ((Forest.tree r F).sub) ((Forest.tree r F).par none x) (adj t.g x) mx

/-- The second search from the root. -/
theorem root2_tot (hg : IsTree g) {s : St} (h : Rooted g r F) (hs : PhaseA g r F s) : Tot (hld (s.g.size + 1) r none (0, s)) fun q => ∃ F', Built g r F' q.2 := by
  have hg' : IsTree s.g := hg.perm hs.gsz hs.perm
  have hr : r < s.g.size := by rw [hs.gsz]; exact h.lt
  obtain ⟨F', h'⟩ := exists_rooted hg' hr
  have hfs := EulerTour.rooted_size h'
  have hfh := F'.height_le
  have e0 := hs.gsz
  have hrr := h.lt
  obtain ⟨hn1, hn2⟩ := List.nodup_cons.1 h'.nodup
  have hpath : ∀ x < g.size, rpath r F' x = rpath r F x := fun x hx => rooted_same hg h h' hs.gsz hs.perm hx
  have hpar : ∀ x < g.size, (Forest.tree r F').par none x = (Forest.tree r F).par none x := by
    intro x hx
    refine option_ext fun q => ?_
    rw [par_iff h' (by omega), par_iff h hx, e0]
    constructor
    · rintro ⟨h1, h2⟩; rw [hpath x hx, hpath q h1] at h2; exact ⟨h1, h2⟩
    · rintro ⟨h1, h2⟩; rw [← hpath x hx, ← hpath q h1] at h2; exact ⟨h1, h2⟩
  have hsub : ∀ x < g.size, (Forest.tree r F').sub x = (Forest.tree r F).sub x := by
    intro x hx
    classical
    rw [← count_sub h' (by omega), ← count_sub h hx, e0]
    congr 1
    refine List.filter_congr fun y hy => ?_
    rw [hpath y (List.mem_range.1 hy)]
  have hdep : ∀ x < g.size, Tree.depth r F' x = Tree.depth r F x := by
    intro x hx
    have e1 := rpath_length r F' x
    rw [hpath x hx, rpath_length] at e1
    omega
  have v1 := hs.v
  have v2 := hs.l
  have v3 := hs.h
  have v4 := hs.o
  rw [hld, begin, wr_eq (by simp [v1]; omega), ok_bind, wr_eq (by simp [v4]; omega), ok_bind, headOf, pure_eq, ok_bind, wr_eq (by simp [v3]; omega), ok_bind, pure_eq, ok_bind]
  dsimp only
  rw [rd_adj hr, ok_bind]
  have hk := kidsB (g := s.g) F' r none s.g.size (adj s.g r)
    (1, ⟨s.g, s.visit.setIfInBounds r 0, s.leave, s.head.setIfInBounds r r, s.ord.setIfInBounds 0 r, s.siz, s.par, s.dep⟩) rfl (by rw [h'.roots]; simp) (fun _ h => h) h'.fits (by omega) h'.nodup hr
    (by simp [v1, e0]) (by simp [v2, e0]) (by simp [v3, e0]) (by simp [v4, e0]) (by dsimp only; omega)
  refine Tot.bind hk fun q hq => ?_
  have k1 := hq.time
  have k2 := hq.vsz
  have k3 := hq.lsz
  have k4 := hq.hsz
  have k5 := hq.osz
  have k6 := hq.vis
  have k7 := hq.lev
  have k8 := hq.ord
  have k9 := hq.hd
  have k10 := hq.hd2
  have kg := hq.g
  simp only [Array.size_setIfInBounds, Array.size_replicate, v1, v2, v3, v4] at k1 k2 k3 k4 k5 k6 k7 k8 k9 k10 kg
  have hmem : ∀ x < g.size, x ≠ r → x ∈ F'.pre := fun x hx hxr => ((h'.lt_iff x).1 (by omega)).resolve_left hxr
  have hvis : ∀ x < g.size, at' 0 q.2.visit x = (r :: F'.pre).idxOf x := by
    intro x hx
    rw [k6]
    by_cases hxr : x = r
    · subst hxr
      rw [if_neg hn1, at_set' 0 (by simp; omega), if_pos rfl]; simp
    · rw [if_pos (hmem x hx hxr), List.idxOf_cons_ne _ (Ne.symm hxr)]; omega
  rw [finish, wr_eq (by omega), ok_bind]
  have hh : Rooted q.2.g r F' := by rw [kg]; exact h'
  refine Tot.pure ⟨F', ?_, fun x => ?_, hh, by omega, by simp; omega, by omega, by omega, ?_, ?_, ?_, hvis, fun x hx => ?_, fun j hj => ?_, fun x hx => ?_, fun x hx => ?_, fun x hx => ?_, ?_, fun x hx y hy => ?_, fun x hx => ?_⟩
  · dsimp only; rw [kg, e0]
  · dsimp only; rw [kg]; exact hs.perm x
  · dsimp only; rw [hq.siz]; exact hs.ssz
  · dsimp only; rw [hq.par]; exact hs.psz
  · dsimp only; rw [hq.dep]; exact hs.dsz
  · dsimp only
    rw [at_set' 0 (by omega)]
    by_cases hxr : x = r
    · subst hxr
      rw [if_pos rfl, hvis x hx, tree_sub_root, k1]; simp; omega
    · rw [if_neg hxr, k7, if_pos (hmem x hx hxr), hvis x hx, List.idxOf_cons_ne _ (Ne.symm hxr), tree_sub_eq (hmem x hx hxr) hn1]; omega
  · dsimp only
    rw [k8]
    cases j with
    | zero => rw [if_neg (by omega), at_set' 0 (by simp; omega), if_pos rfl]; rfl
    | succ j =>
      rw [if_pos (by omega), List.getElem?_cons_succ, Nat.add_sub_cancel]
      obtain ⟨y, hy⟩ : ∃ y, F'.pre[j]? = some y := ⟨_, List.getElem?_eq_getElem (show j < F'.pre.length by change j < F'.size; omega)⟩
      rw [hy]; rfl
  · dsimp only; rw [hq.siz, hsub x hx]; exact hs.siz x hx
  · dsimp only; rw [hq.par, hpar x hx]; exact hs.par x hx
  · dsimp only; rw [hq.dep, hdep x hx]; exact hs.dep x hx
  · dsimp only; rw [k9 r hn1, at_set' 0 (by simp; omega), if_pos rfl]
  · dsimp only
    have hxr : x ≠ r := by rintro rfl; rw [tree_par_root] at hy; cases hy
    rw [tree_par_eq (hmem x hx hxr) hn1] at hy
    rw [kg]
    exact k10 x (hmem x hx hxr) y hy
  · dsimp only
    rw [kg, hpar x hx]
    obtain ⟨mx, hH⟩ := hs.heavy x hx
    refine ⟨mx, ?_⟩
    have hlt : ∀ d ∈ adj s.g x, d < g.size := fun d hd => by rw [← e0]; exact hg'.valid x d hd
    rcases hH with hH | ⟨h1, c, a', h2, h3, h4, h5⟩
    · exact Or.inl hH
    · refine Or.inr ⟨h1, c, a', h2, h3, ?_, fun d hd hdp => ?_⟩
      · rw [hsub c (hlt c (by rw [h2]; simp))]; exact h4
      · rw [hsub d (hlt d hd)]; exact h5 d hd hdp

theorem makeRoots_tot (hg : IsTree g) (hsz : g.size ≤ 2 ^ 30) (hr : r < g.size) : Tot (makeRoots g [r]) fun t => ∃ F, Built g r F t := by
  obtain ⟨F, h⟩ := exists_rooted hg hr
  rw [makeRoots]
  refine Tot.bind (P := PhaseA g r F) ?_ fun s hs => ?_
  · rw [forEach]
    refine Tot.bind (root1_tot h hsz) fun s hs => ?_
    exact Tot.pure hs
  · refine Tot.bind (P := fun q => ∃ F', Built g r F' q.2) ?_ fun q hq => Tot.pure hq
    rw [forEach]
    refine Tot.bind (root2_tot hg h hs) fun q hq => ?_
    exact Tot.pure hq

theorem make_tot (hg : IsTree g) (hsz : g.size ≤ 2 ^ 30) : Tot (make g) fun t => ∃ F, Built g 0 F t := by
  have hr := hg.pos
  obtain ⟨F, h⟩ := exists_rooted hg hr
  rw [make]
  refine Tot.bind (P := PhaseA g 0 F) ?_ fun s hs => ?_
  · rw [Rerooting.forUp_lt hr]
    refine Tot.bind (P := PhaseA g 0 F) ?_ fun s hs => ?_
    · rw [all1, rd_at none (by simp [init]; omega), ok_bind, init, EulerTour.at_replicate, if_pos rfl]
      exact root1_tot h hsz
    · refine Tot.forUp (P := fun _ s => PhaseA g 0 F s) (by omega) hs fun i s h1 h2 hs => ?_
      have := hs.psz
      rw [all1, rd_at none (by omega), ok_bind, hs.par i h2, if_neg (by rw [par_none h h2]; omega)]
      exact Tot.pure hs
  · refine Tot.bind (P := fun q => ∃ F', Built g 0 F' q.2) ?_ fun q hq => Tot.pure hq
    rw [Rerooting.forUp_lt hr]
    refine Tot.bind (P := fun q => ∃ F', Built g 0 F' q.2) ?_ fun q hq => ?_
    · have := hs.psz
      rw [all2, rd_at none (by dsimp only; omega), ok_bind]
      dsimp only
      rw [hs.par 0 hr, tree_par_root, if_pos rfl]
      exact root2_tot hg h hs
    · refine Tot.forUp (P := fun _ (q : Nat × St) => ∃ F', Built g 0 F' q.2) (by omega) hq fun i q h1 h2 hq => ?_
      obtain ⟨F', b⟩ := hq
      have := b.psz
      rw [all2, rd_at none (by omega), ok_bind, b.par i h2, if_neg (by rw [par_none b.rooted (by have := b.gsz; omega)]; omega)]
      exact Tot.pure ⟨F', b⟩

end HLD
