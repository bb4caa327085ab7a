import Verif.Proof.HLDMake

/-! # Chains of the heavy light decomposition -/

namespace HLD
open Cxx Graph Tree

variable {g : Array (List Nat)} {r : Nat} {F : Forest} {t : St}

/-- The vertices visited at the times `[l, l + k)`. -/
def times (t : St) (l k : Nat) : List Nat := (List.range' l k).map (at' 0 t.ord)

theorem times_succ (t : St) (l k : Nat) : times t l (k + 1) = times t l k ++ [at' 0 t.ord (l + k)] := by
  rw [times, List.range'_concat, List.map_append]; simp [times]

theorem times_cons (t : St) (l k : Nat) : times t l (k + 1) = at' 0 t.ord l :: times t (l + 1) k := by
  rw [times, List.range'_succ]; rfl

theorem times_length (t : St) (l k : Nat) : (times t l k).length = k := by simp [times]

namespace Built

theorem tree (b : Built g r F t) (hg : IsTree g) : IsTree t.g := hg.perm b.gsz b.perm

theorem rlt (b : Built g r F t) : r < g.size := by rw [← b.gsz]; exact b.rooted.lt

theorem mem (b : Built g r F t) (x : Nat) : x ∈ r :: F.pre ↔ x < g.size := by rw [← b.gsz, b.rooted.lt_iff, List.mem_cons]

theorem len (b : Built g r F t) : (r :: F.pre).length = g.size := by
  have := EulerTour.rooted_size b.rooted
  rw [List.length_cons, ← b.gsz]; exact this

theorem visGet (b : Built g r F t) {x : Nat} (hx : x < g.size) : (r :: F.pre)[at' 0 t.visit x]? = some x := by
  rw [b.vis x hx]; exact List.getElem?_idxOf ((b.mem x).2 hx)

theorem visLt (b : Built g r F t) {x : Nat} (hx : x < g.size) : at' 0 t.visit x < g.size := by
  have := (List.getElem?_eq_some_iff.1 (b.visGet hx)).1
  rwa [b.len] at this

theorem ordVis (b : Built g r F t) {x : Nat} (hx : x < g.size) : at' 0 t.ord (at' 0 t.visit x) = x := by
  have h1 := b.ord _ (b.visLt hx)
  rw [b.visGet hx] at h1
  exact (Option.some.inj h1).symm

theorem ordLt (b : Built g r F t) {j : Nat} (hj : j < g.size) : at' 0 t.ord j < g.size :=
  (b.mem _).1 (List.mem_of_getElem? (b.ord j hj))

theorem visOrd (b : Built g r F t) {j : Nat} (hj : j < g.size) : at' 0 t.visit (at' 0 t.ord j) = j := by
  have h1 := b.visGet (b.ordLt hj)
  rw [← b.ord j hj] at h1
  exact ((List.getElem?_inj (by rw [b.len]; exact hj) b.rooted.nodup).1 h1.symm).symm

theorem visInj (b : Built g r F t) {x y : Nat} (hx : x < g.size) (hy : y < g.size) (h : at' 0 t.visit x = at' 0 t.visit y) : x = y := by
  rw [← b.ordVis hx, h, b.ordVis hy]

/-- Position of a subtree in the order. -/
theorem split (b : Built g r F t) {a : Nat} (ha : a < g.size) : ∃ s e, r :: F.pre = s ++ (a :: ((Forest.tree r F).under a).pre) ++ e ∧ at' 0 t.visit a = s.length := by
  obtain ⟨s, e, h⟩ := Forest.under_infix (F := Forest.tree r F) (x := a) ((b.rooted.tree_mem a).2 (by rw [b.gsz]; exact ha))
  rw [tree_pre] at h
  refine ⟨s, e, h, ?_⟩
  have h1 := b.visGet ha
  have h2 : (r :: F.pre)[s.length]? = some a := by rw [h]; simp
  rw [← h2] at h1
  exact (List.getElem?_inj (by rw [b.len]; exact b.visLt ha) b.rooted.nodup).1 h1

theorem range (b : Built g r F t) {a x : Nat} (ha : a < g.size) (hx : x < g.size) : a ∈ rpath r F x ↔ at' 0 t.visit a ≤ at' 0 t.visit x ∧ at' 0 t.visit x < at' 0 t.leave a := by
  obtain ⟨s, e, h, hs⟩ := b.split ha
  have hxg := b.visGet hx
  rw [under_tree_mem b.rooted (by rw [b.gsz]; exact ha) (by rw [b.gsz]; exact hx), b.lev a ha, hs, Forest.sub, ← List.mem_cons]
  have hlen : (a :: ((Forest.tree r F).under a).pre).length = ((Forest.tree r F).under a).size + 1 := by simp [Forest.size]
  rw [h] at hxg
  constructor
  · intro hm
    obtain ⟨i, hi⟩ := List.mem_iff_getElem?.1 hm
    have hil := (List.getElem?_eq_some_iff.1 hi).1
    have h2 : (r :: F.pre)[s.length + i]? = some x := by
      rw [h, List.append_assoc, List.getElem?_append_right (by omega), Nat.add_sub_cancel_left, List.getElem?_append_left hil, hi]
    have h3 := b.visGet hx
    rw [← h2] at h3
    have := (List.getElem?_inj (by rw [b.len]; exact b.visLt hx) b.rooted.nodup).1 h3
    omega
  · rintro ⟨h1, h2⟩
    rw [List.append_assoc, List.getElem?_append_right h1, List.getElem?_append_left (by omega)] at hxg
    exact List.mem_of_getElem? hxg

theorem parE (b : Built g r F t) {x q : Nat} (hx : x < g.size) : at' none t.par x = some q ↔ q < g.size ∧ rpath r F x = rpath r F q ++ [x] := by
  rw [b.par x hx, par_iff b.rooted (by rw [b.gsz]; exact hx), b.gsz]

theorem parNone (b : Built g r F t) {x : Nat} (hx : x < g.size) : at' none t.par x = none ↔ x = r := by
  rw [b.par x hx, par_none b.rooted (by rw [b.gsz]; exact hx)]

theorem self (b : Built g r F t) {x : Nat} (hx : x < g.size) : x ∈ rpath r F x := rpath_self ((b.rooted.lt_iff x).1 (by rw [b.gsz]; exact hx))

theorem parent_depth {x q : Nat} (h : rpath r F x = rpath r F q ++ [x]) : Tree.depth r F x = Tree.depth r F q + 1 := by
  have := congrArg List.length h
  rw [List.length_append, rpath_length, rpath_length] at this
  simpa using this

/-- The front of an adjacency list is visited next. -/
theorem front (b : Built g r F t) {x q : Nat} (hx : x < g.size) (hq : q < g.size) (hp : rpath r F x = rpath r F q ++ [x]) (hf : (adj t.g q).head? = some x) :
    at' 0 t.visit x = at' 0 t.visit q + 1 := by
  obtain ⟨s, e, h, hs⟩ := b.split hq
  obtain ⟨-, h2, -⟩ := Forest.under_fits b.rooted.tree_fits ((b.rooted.tree_mem q).2 (by rw [b.gsz]; exact hq))
  obtain ⟨l, hl⟩ : ∃ l, adj t.g q = x :: l := by
    cases hh : adj t.g q with
    | nil => rw [hh] at hf; simp at hf
    | cons y l => rw [hh] at hf; simp at hf; exact ⟨l, by rw [hf]⟩
  have hne : some x ≠ (Forest.tree r F).par none q := by
    intro hc
    have h3 := (par_iff b.rooted (by rw [b.gsz]; exact hq)).1 hc.symm
    have d1 := parent_depth hp
    have d2 := parent_depth h3.2
    omega
  rw [hl, List.filter_cons_of_pos (by simpa using hne)] at h2
  obtain ⟨l', hl'⟩ : ∃ l', ((Forest.tree r F).under q).pre = x :: l' := by
    cases hu : (Forest.tree r F).under q with
    | nil => rw [hu] at h2; simp [Forest.roots] at h2
    | cons y c d => rw [hu] at h2; simp [Forest.roots] at h2; exact ⟨c.pre ++ d.pre, by rw [Forest.pre, h2.1]⟩
  have h4 : (r :: F.pre)[s.length + 1]? = some x := by rw [h, hl']; simp
  have h3 := b.visGet hx
  rw [← h4] at h3
  have := (List.getElem?_inj (by rw [b.len]; exact b.visLt hx) b.rooted.nodup).1 h3
  omega

/-- The part of a chain up to `x`. -/
theorem chain (b : Built g r F t) {x : Nat} (hx : x < g.size) : at' 0 t.head x < g.size ∧ at' 0 t.visit (at' 0 t.head x) ≤ at' 0 t.visit x ∧
    ∀ j, at' 0 t.visit (at' 0 t.head x) ≤ j → j ≤ at' 0 t.visit x → at' 0 t.head (at' 0 t.ord j) = at' 0 t.head x ∧ rpath r F x = rpath r F (at' 0 t.ord j) ++ times t (j + 1) (at' 0 t.visit x - j) := by
  obtain ⟨d, hd⟩ : ∃ d, d = Tree.depth r F x := ⟨_, rfl⟩
  induction d generalizing x with
  | zero =>
    have hxr : x = r := by
      have h1 : r ∈ rpath r F x := root_mem r F x
      exact (anc_eq b.rooted.nodup ((b.rooted.lt_iff x).1 (by rw [b.gsz]; exact hx)) h1 (by omega)).symm
    have hh : at' 0 t.head x = x := by rw [hxr]; exact b.hdr
    rw [hh]
    refine ⟨hx, Nat.le_refl _, fun j h1 h2 => ?_⟩
    obtain rfl : j = at' 0 t.visit x := by omega
    rw [b.ordVis hx, hh, Nat.sub_self]
    exact ⟨rfl, by simp [times]⟩
  | succ d ih =>
    have hxr : x ≠ r := by rintro rfl; rw [LevelAncestor.depth_root] at hd; omega
    obtain ⟨q, hq⟩ : ∃ q, at' none t.par x = some q := by
      cases hp : at' none t.par x with
      | none => exact absurd ((b.parNone hx).1 hp) hxr
      | some q => exact ⟨q, rfl⟩
    obtain ⟨hql, hqp⟩ := (b.parE hx).1 hq
    have hdq := parent_depth hqp
    have hh := b.hd x hx q (by rw [← b.par x hx]; exact hq)
    by_cases hf : (adj t.g q).head? = some x
    · rw [if_pos hf] at hh
      have hv := b.front hx hql hqp hf
      obtain ⟨i1, i2, i3⟩ := ih hql (by omega)
      rw [hh]
      refine ⟨i1, by omega, fun j h1 h2 => ?_⟩
      by_cases hj : j = at' 0 t.visit x
      · subst hj
        rw [b.ordVis hx, Nat.sub_self]
        exact ⟨hh, by simp [times]⟩
      · obtain ⟨k1, k2⟩ := i3 j h1 (by omega)
        refine ⟨k1, ?_⟩
        rw [show at' 0 t.visit x - j = (at' 0 t.visit q - j) + 1 by omega, times_succ, show j + 1 + (at' 0 t.visit q - j) = at' 0 t.visit x by omega, b.ordVis hx, hqp, k2, List.append_assoc]
    · rw [if_neg hf] at hh
      rw [hh]
      refine ⟨hx, Nat.le_refl _, fun j h1 h2 => ?_⟩
      obtain rfl : j = at' 0 t.visit x := by omega
      rw [b.ordVis hx, hh, Nat.sub_self]
      exact ⟨rfl, by simp [times]⟩

/-- The vertices from the head of the chain down to `x`. -/
theorem chain_head (b : Built g r F t) {x : Nat} (hx : x < g.size) :
    at' 0 t.head x ∈ rpath r F x ∧ at' 0 t.head (at' 0 t.head x) = at' 0 t.head x := by
  obtain ⟨h1, h2, h3⟩ := b.chain hx
  obtain ⟨k1, k2⟩ := h3 _ (Nat.le_refl _) h2
  rw [b.ordVis h1] at k1 k2
  refine ⟨?_, k1⟩
  rw [k2]
  exact List.mem_append_left _ (b.self h1)

/-- If the chain of `v` is not the chain of `u`, which is visited before `v`, then its head is no ancestor of `u`. -/
theorem head_not (b : Built g r F t) {u v : Nat} (hu : u < g.size) (hv : v < g.size) (hle : at' 0 t.visit u ≤ at' 0 t.visit v) (hne : at' 0 t.head u ≠ at' 0 t.head v) :
    at' 0 t.head v ∉ rpath r F u := by
  intro hm
  obtain ⟨h1, h2, h3⟩ := b.chain hv
  have := ((b.range h1 hu).1 hm).1
  have := (h3 _ this hle).1
  rw [b.ordVis hu] at this
  exact hne this

/-- Going up to the parent of the head. -/
theorem up_tot (b : Built g r F t) {u v : Nat} (hu : u < g.size) (hv : v < g.size) (hn : at' 0 t.head v ∉ rpath r F u) :
    Tot (up t v) fun p => p < g.size ∧ at' 0 t.visit p < at' 0 t.visit v ∧ at' none t.par (at' 0 t.head v) = some p ∧
      rpath r F v = rpath r F p ++ times t (at' 0 t.visit (at' 0 t.head v)) (at' 0 t.visit v + 1 - at' 0 t.visit (at' 0 t.head v)) := by
  obtain ⟨h1, h2, h3⟩ := b.chain hv
  have s1 := b.hsz
  have s2 := b.psz
  rw [up, rd_at 0 (by omega), ok_bind, rd_at none (by omega), ok_bind]
  have hr : at' 0 t.head v ≠ r := fun e => hn (e ▸ root_mem r F u)
  cases hp : at' none t.par (at' 0 t.head v) with
  | none => exact absurd ((b.parNone h1).1 hp) hr
  | some p =>
    obtain ⟨q1, q2⟩ := (b.parE h1).1 hp
    refine Tot.pure ⟨q1, ?_, rfl, ?_⟩
    · have q3 : p ∈ rpath r F (at' 0 t.head v) := by rw [q2]; exact List.mem_append_left _ (b.self q1)
      have := ((b.range q1 h1).1 q3).1
      have : at' 0 t.visit p ≠ at' 0 t.visit (at' 0 t.head v) := by
        intro e
        have := b.visInj q1 h1 e
        have d := parent_depth q2
        rw [this] at d; omega
      omega
    · obtain ⟨-, k2⟩ := h3 _ (Nat.le_refl _) h2
      rw [b.ordVis h1, q2, List.append_assoc] at k2
      rw [k2, show at' 0 t.visit v + 1 - at' 0 t.visit (at' 0 t.head v) = (at' 0 t.visit v - at' 0 t.visit (at' 0 t.head v)) + 1 by omega, times_cons, b.ordVis h1]
      rfl

/-- Common ancestors are preserved by going up. -/
theorem common_up (b : Built g r F t) {u v p : Nat} (hv : v < g.size) (hn : at' 0 t.head v ∉ rpath r F u) (hp : at' none t.par (at' 0 t.head v) = some p) (a : Nat) :
    a ∈ rpath r F u ∧ a ∈ rpath r F v ↔ a ∈ rpath r F u ∧ a ∈ rpath r F p := by
  have hnd := b.rooted.nodup
  obtain ⟨h1, h2, h3⟩ := b.chain hv
  obtain ⟨q1, q2⟩ := (b.parE h1).1 hp
  have hh := (b.chain_head hv).1
  constructor
  · rintro ⟨hau, hav⟩
    refine ⟨hau, ?_⟩
    obtain ⟨l, hl⟩ := rpath_prefix hnd hh
    rw [← hl, List.mem_append] at hav
    have hah : a ∈ rpath r F (at' 0 t.head v) := by
      rcases hav with hav | hal
      · exact hav
      · exfalso
        have hav : a ∈ rpath r F v := by rw [← hl]; exact List.mem_append_right _ hal
        have ha := rpath_prefix hnd hav
        have hsub := List.prefix_of_prefix_length_le (rpath_prefix hnd hh) ha
        by_cases hle : (rpath r F (at' 0 t.head v)).length ≤ (rpath r F a).length
        · exact hn (rpath_trans hnd ((hsub hle).subset (b.self h1)) hau)
        · have hs2 := List.prefix_of_prefix_length_le ha (rpath_prefix hnd hh) (by omega)
          have hvl : v = r ∨ v ∈ F.pre := (b.rooted.lt_iff v).1 (by rw [b.gsz]; exact hv)
          have hmem := hs2.subset (rpath_self (rpath_sub hav))
          have hnod := (b.rooted.isPath (x := v) (by rw [b.gsz]; exact hv)).nodup
          rw [← hl, List.nodup_append] at hnod
          exact hnod.2.2 a hmem a hal rfl
    rw [q2, List.mem_append, List.mem_singleton] at hah
    rcases hah with h | h
    · exact h
    · exact absurd (h ▸ hau) hn
  · rintro ⟨hau, hap⟩
    refine ⟨hau, rpath_trans hnd ?_ hh⟩
    rw [q2]; exact List.mem_append_left _ hap

/-- If `u` and `v` are on the same chain, the path between them is a range. -/
theorem same_chain (b : Built g r F t) {u v : Nat} (hu : u < g.size) (hv : v < g.size) (hle : at' 0 t.visit u ≤ at' 0 t.visit v) (he : at' 0 t.head u = at' 0 t.head v) :
    rpath r F v = rpath r F u ++ times t (at' 0 t.visit u + 1) (at' 0 t.visit v - at' 0 t.visit u) := by
  obtain ⟨h1, h2, h3⟩ := b.chain hv
  obtain ⟨-, h5, -⟩ := b.chain hu
  rw [he] at h5
  have := (h3 _ h5 hle).2
  rwa [b.ordVis hu] at this

end Built

end HLD
