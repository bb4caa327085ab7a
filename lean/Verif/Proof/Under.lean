import Verif.Proof.PreOrder

/-! # The forest below a vertex -/

namespace Tree
open Cxx Graph

namespace Forest

/-- The children of `x` with their subtrees. -/
def under : Forest → Nat → Forest
  | nil, _ => nil
  | cons v ch rest, x => if x = v then ch else if x ∈ ch.pre then ch.under x else rest.under x

/-- The parent, `p` being the parent of the roots. -/
def par (p : Option Nat) : Forest → Nat → Option Nat
  | nil, _ => none
  | cons v ch rest, x => if x = v then p else if x ∈ ch.pre then par (some v) ch x else par p rest x

/-- Number of vertices of the subtree of `x`. -/
def sub (F : Forest) (x : Nat) : Nat := (F.under x).size + 1

theorem under_infix {F : Forest} {x : Nat} (hx : x ∈ F.pre) : ∃ s t, F.pre = s ++ (x :: (F.under x).pre) ++ t := by
  induction F with
  | nil => simp [pre] at hx
  | cons v ch rest ih1 ih2 =>
    simp only [pre, under]
    simp only [pre, List.mem_cons, List.mem_append] at hx
    by_cases h1 : x = v
    · rw [if_pos h1, h1]; exact ⟨[], rest.pre, by simp⟩
    · rw [if_neg h1]
      by_cases h2 : x ∈ ch.pre
      · rw [if_pos h2]
        obtain ⟨s, t, e⟩ := ih1 h2
        refine ⟨v :: s, t ++ rest.pre, ?_⟩
        rw [e]; simp
      · rw [if_neg h2]
        obtain ⟨s, t, e⟩ := ih2 ((hx.resolve_left h1).resolve_left h2)
        refine ⟨v :: (ch.pre ++ s), t, ?_⟩
        rw [e]; simp

theorem under_sub {F : Forest} {x y : Nat} (hx : x ∈ F.pre) (h : y ∈ (F.under x).pre) : y ∈ F.pre := by
  obtain ⟨s, t, e⟩ := under_infix hx
  rw [e]; simp [h]

theorem under_nodup {F : Forest} (hn : F.pre.Nodup) {x : Nat} (hx : x ∈ F.pre) : (x :: (F.under x).pre).Nodup := by
  obtain ⟨s, t, e⟩ := under_infix hx
  rw [e] at hn
  exact (List.nodup_append.1 (List.nodup_append.1 hn).1).2.1

theorem mem_under {F : Forest} (hn : F.pre.Nodup) {x y : Nat} (hx : x ∈ F.pre) (hy : y ∈ F.pre) : x ∈ F.path y ↔ y = x ∨ y ∈ (F.under x).pre := by
  induction F with
  | nil => simp [pre] at hx
  | cons v ch rest ih1 ih2 =>
    rw [pre, List.nodup_cons, List.mem_append, List.nodup_append] at hn
    obtain ⟨m2, m3, m4, m5⟩ := hn
    simp only [pre, List.mem_cons, List.mem_append] at hx hy
    simp only [path, under]
    by_cases hyv : y = v
    · rw [if_pos hyv, List.mem_singleton]
      by_cases hxv : x = v
      · simp [hxv, hyv]
      · rw [if_neg hxv]
        by_cases hxc : x ∈ ch.pre
        · rw [if_pos hxc]
          refine ⟨fun h => absurd h hxv, fun h => ?_⟩
          rcases h with rfl | h
          · exact hyv
          · exact absurd (Or.inl (hyv ▸ under_sub hxc h)) m2
        · rw [if_neg hxc]
          have hxr := (hx.resolve_left hxv).resolve_left hxc
          refine ⟨fun h => absurd h hxv, fun h => ?_⟩
          rcases h with rfl | h
          · exact hyv
          · exact absurd (Or.inr (hyv ▸ under_sub hxr h)) m2
    · rw [if_neg hyv]
      by_cases hyc : y ∈ ch.pre
      · rw [if_pos hyc, List.mem_cons]
        by_cases hxv : x = v
        · simp [hxv, hyc]
        · rw [if_neg hxv]
          by_cases hxc : x ∈ ch.pre
          · rw [if_pos hxc, ← ih1 m3 hxc hyc]
            simp [hxv]
          · rw [if_neg hxc]
            have hxr := (hx.resolve_left hxv).resolve_left hxc
            refine ⟨fun h => ?_, fun h => ?_⟩
            · exact absurd (path_sub (h.resolve_left hxv)) hxc
            · rcases h with rfl | h
              · exact absurd hyc hxc
              · exact absurd rfl (m5 y hyc y (under_sub hxr h))
      · rw [if_neg hyc]
        have hyr := (hy.resolve_left hyv).resolve_left hyc
        by_cases hxv : x = v
        · rw [if_pos hxv]
          refine ⟨fun h => ?_, fun h => ?_⟩
          · exact absurd (Or.inr (hxv ▸ path_sub h)) m2
          · rcases h with rfl | h
            · exact absurd hxv hyv
            · exact absurd h hyc
        · rw [if_neg hxv]
          by_cases hxc : x ∈ ch.pre
          · rw [if_pos hxc]
            refine ⟨fun h => ?_, fun h => ?_⟩
            · exact absurd rfl (m5 x hxc x (path_sub h))
            · rcases h with rfl | h
              · exact absurd hxc hyc
              · exact absurd (under_sub hxc h) hyc
          · rw [if_neg hxc]
            exact ih2 m4 ((hx.resolve_left hxv).resolve_left hxc) hyr

theorem path_under {F : Forest} (hn : F.pre.Nodup) {x y : Nat} (hx : x ∈ F.pre) (hy : y ∈ (F.under x).pre) : F.path y = F.path x ++ (F.under x).path y := by
  induction F with
  | nil => simp [pre] at hx
  | cons v ch rest ih1 ih2 =>
    rw [pre, List.nodup_cons, List.mem_append, List.nodup_append] at hn
    obtain ⟨m2, m3, m4, m5⟩ := hn
    simp only [pre, List.mem_cons, List.mem_append] at hx
    simp only [under] at hy
    simp only [path, under]
    by_cases hxv : x = v
    · rw [if_pos hxv] at hy
      rw [if_pos hxv, if_pos hxv, if_neg (by rintro rfl; exact m2 (Or.inl hy)), if_pos hy]; rfl
    · rw [if_neg hxv] at hy
      rw [if_neg hxv, if_neg hxv]
      by_cases hxc : x ∈ ch.pre
      · rw [if_pos hxc] at hy
        have hyc := under_sub hxc hy
        rw [if_pos hxc, if_pos hxc, if_neg (by rintro rfl; exact m2 (Or.inl hyc)), if_pos hyc, ih1 m3 hxc hy]; rfl
      · rw [if_neg hxc] at hy
        have hxr := (hx.resolve_left hxv).resolve_left hxc
        have hyr := under_sub hxr hy
        rw [if_neg hxc, if_neg hxc, if_neg (by rintro rfl; exact m2 (Or.inr hyr)), if_neg (fun h => m5 y h y hyr rfl), ih2 m4 hxr hy]

theorem under_fits {g : Array (List Nat)} {F : Forest} {p : Option Nat} (hf : F.Fits g p) {x : Nat} (hx : x ∈ F.pre) :
    x < g.size ∧ (F.under x).roots = (adj g x).filter (fun w => decide (some w ≠ F.par p x)) ∧ (F.under x).Fits g (some x) := by
  induction F generalizing p with
  | nil => simp [pre] at hx
  | cons v ch rest ih1 ih2 =>
    obtain ⟨h1, h2, h3, h4⟩ := hf
    simp only [pre, List.mem_cons, List.mem_append] at hx
    by_cases hxv : x = v
    · subst hxv
      have e1 : par p (cons x ch rest) x = p := by rw [par, if_pos rfl]
      have e2 : under (cons x ch rest) x = ch := by rw [under, if_pos rfl]
      rw [e1, e2]
      exact ⟨h1, h2, h3⟩
    · by_cases hxc : x ∈ ch.pre
      · have e1 : par p (cons v ch rest) x = par (some v) ch x := by rw [par, if_neg hxv, if_pos hxc]
        have e2 : under (cons v ch rest) x = under ch x := by rw [under, if_neg hxv, if_pos hxc]
        rw [e1, e2]
        exact ih1 h3 hxc
      · have e1 : par p (cons v ch rest) x = par p rest x := by rw [par, if_neg hxv, if_neg hxc]
        have e2 : under (cons v ch rest) x = under rest x := by rw [under, if_neg hxv, if_neg hxc]
        rw [e1, e2]
        exact ih2 h4 ((hx.resolve_left hxv).resolve_left hxc)

theorem path_root {F : Forest} (hn : F.pre.Nodup) {x : Nat} (hx : x ∈ F.roots) : F.path x = [x] := by
  induction F with
  | nil => simp [roots] at hx
  | cons v ch rest ih1 ih2 =>
    rw [pre, List.nodup_cons, List.mem_append, List.nodup_append] at hn
    obtain ⟨m2, m3, m4, m5⟩ := hn
    simp only [roots, List.mem_cons] at hx
    rw [path]
    by_cases hxv : x = v
    · rw [if_pos hxv, hxv]
    · have hxr := hx.resolve_left hxv
      rw [if_neg hxv, if_neg (fun h => m5 x h x (roots_sub hxr) rfl)]
      exact ih2 m4 hxr

theorem root_of_path {F : Forest} {x : Nat} (hx : x ∈ F.pre) (h : (F.path x).length = 1) : x ∈ F.roots := by
  induction F with
  | nil => simp [pre] at hx
  | cons v ch rest ih1 ih2 =>
    simp only [pre, List.mem_cons, List.mem_append] at hx
    simp only [roots, List.mem_cons]
    rw [path] at h
    by_cases hxv : x = v
    · exact Or.inl hxv
    · rw [if_neg hxv] at h
      by_cases hxc : x ∈ ch.pre
      · rw [if_pos hxc, List.length_cons] at h
        have := List.length_pos_of_ne_nil (path_ne hxc)
        omega
      · rw [if_neg hxc] at h
        exact Or.inr (ih2 ((hx.resolve_left hxv).resolve_left hxc) h)

/-- Children are one step further from the root. -/
theorem mem_under_roots {F : Forest} (hn : F.pre.Nodup) {x c : Nat} (hx : x ∈ F.pre) : c ∈ (F.under x).roots ↔ c ∈ F.pre ∧ F.path c = F.path x ++ [c] := by
  have hnb := under_nodup hn hx
  constructor
  · intro h
    refine ⟨under_sub hx (roots_sub h), ?_⟩
    rw [path_under hn hx (roots_sub h), path_root (List.nodup_cons.1 hnb).2 h]
  · rintro ⟨h1, h2⟩
    have h3 : x ∈ F.path c := by rw [h2]; exact List.mem_append_left _ (mem_path_self hx)
    rcases (mem_under hn hx h1).1 h3 with rfl | h4
    · have := congrArg List.length h2
      simp at this
    · apply root_of_path h4
      rw [path_under hn hx h4] at h2
      rw [List.append_cancel_left h2]; rfl

/-- The parent. -/
theorem par_some {F : Forest} (hn : F.pre.Nodup) {p : Option Nat} {x : Nat} (hx : x ∈ F.pre) : (x ∈ F.roots ∧ F.par p x = p) ∨ ∃ q, F.par p x = some q ∧ q ∈ F.pre ∧ x ∈ (F.under q).roots := by
  induction F generalizing p with
  | nil => simp [pre] at hx
  | cons v ch rest ih1 ih2 =>
    rw [pre, List.nodup_cons, List.mem_append, List.nodup_append] at hn
    obtain ⟨m2, m3, m4, m5⟩ := hn
    simp only [pre, List.mem_cons, List.mem_append] at hx
    simp only [par, roots, List.mem_cons, pre, List.mem_append, under]
    by_cases hxv : x = v
    · rw [if_pos hxv]; exact Or.inl ⟨Or.inl hxv, rfl⟩
    · rw [if_neg hxv]
      by_cases hxc : x ∈ ch.pre
      · rw [if_pos hxc]
        right
        rcases ih1 m3 (p := some v) hxc with ⟨h1, h2⟩ | ⟨q, h1, h2, h3⟩
        · exact ⟨v, h2, Or.inl rfl, by rw [if_pos rfl]; exact h1⟩
        · exact ⟨q, h1, Or.inr (Or.inl h2), by rw [if_neg (by rintro rfl; exact m2 (Or.inl h2)), if_pos h2]; exact h3⟩
      · rw [if_neg hxc]
        rcases ih2 m4 (p := p) ((hx.resolve_left hxv).resolve_left hxc) with ⟨h1, h2⟩ | ⟨q, h1, h2, h3⟩
        · exact Or.inl ⟨Or.inr h1, h2⟩
        · exact Or.inr ⟨q, h1, Or.inr (Or.inr h2), by rw [if_neg (by rintro rfl; exact m2 (Or.inr h2)), if_neg (fun h => m5 q h q h2 rfl)]; exact h3⟩

end Forest

/-- A rooted tree as a forest. -/
def Forest.tree (r : Nat) (F : Forest) : Forest := .cons r F .nil

variable {g : Array (List Nat)} {r : Nat} {F : Forest}

theorem tree_pre (r : Nat) (F : Forest) : (Forest.tree r F).pre = r :: F.pre := by simp [Forest.tree, Forest.pre]

theorem tree_path {x : Nat} (hx : x = r ∨ x ∈ F.pre) : (Forest.tree r F).path x = rpath r F x := by
  rw [Forest.tree, Forest.path, rpath]
  by_cases h : x = r
  · rw [if_pos h, if_pos h]
  · rw [if_neg h, if_neg h, if_pos (hx.resolve_left h)]

theorem Rooted.tree_nodup (h : Rooted g r F) : (Forest.tree r F).pre.Nodup := by rw [tree_pre]; exact h.nodup

theorem Rooted.tree_mem (h : Rooted g r F) (x : Nat) : x ∈ (Forest.tree r F).pre ↔ x < g.size := by rw [tree_pre, List.mem_cons, h.lt_iff]

theorem Rooted.tree_fits (h : Rooted g r F) : (Forest.tree r F).Fits g none := ⟨h.lt, by rw [h.roots]; simp, h.fits, trivial⟩

theorem Rooted.tree_size (h : Rooted g r F) : (Forest.tree r F).size = g.size := by
  have := h.perm.length_eq
  rw [Forest.size, tree_pre]
  simpa using this

theorem Rooted.anc_tree (hg : IsTree g) (h : Rooted g r F) {a x : Nat} (hx : x < g.size) : Anc g r a x ↔ a ∈ (Forest.tree r F).path x := by
  rw [h.anc_iff hg hx, tree_path ((h.lt_iff x).1 hx)]

/-- Neighbours are children or the parent. -/
theorem Rooted.adj_iff (hg : IsTree g) (h : Rooted g r F) {x y : Nat} (hx : x < g.size) : E g x y ↔ y ∈ ((Forest.tree r F).under x).roots ∨ (Forest.tree r F).par none x = some y := by
  have hxm := (h.tree_mem x).2 hx
  obtain ⟨-, h2, -⟩ := Forest.under_fits h.tree_fits hxm
  rw [h2, List.mem_filter]
  constructor
  · intro hE
    by_cases hp : (Forest.tree r F).par none x = some y
    · exact Or.inr hp
    · exact Or.inl ⟨hE, by simpa using Ne.symm hp⟩
  · rintro (h3 | h3)
    · exact h3.1
    · rcases Forest.par_some h.tree_nodup (p := none) hxm with ⟨-, h4⟩ | ⟨q, h4, h5, h6⟩
      · rw [h4] at h3; cases h3
      · rw [h4] at h3
        injection h3 with h3
        subst h3
        obtain ⟨-, h8, -⟩ := Forest.under_fits h.tree_fits h5
        rw [h8, List.mem_filter] at h6
        exact hg.symm _ _ h6.1

end Tree

/-! ### Sides of an edge -/

namespace Tree
open Cxx Graph

variable {g : Array (List Nat)} {r : Nat} {F : Forest}

/-- The lowest common ancestor exists. -/
theorem Rooted.exists_lca (h : Rooted g r F) {u v : Nat} (hu : u < g.size) (hv : v < g.size) : ∃ w, w < g.size ∧ ∀ a, a ∈ rpath r F w ↔ a ∈ rpath r F u ∧ a ∈ rpath r F v := by
  obtain ⟨i, hi⟩ : ∃ i, (r :: tour F r)[i]? = some u := by
    have : u ∈ r :: tour F r := by
      clear hv
      have : ∀ (F : Forest) (r : Nat), (u = r ∨ u ∈ F.pre) → u ∈ r :: tour F r := by
        intro F
        induction F with
        | nil => intro r h; simpa [tour, Forest.pre] using h
        | cons v ch rest ih1 ih2 =>
          intro r h
          rw [tour, ← List.cons_append, List.mem_cons, List.mem_append]
          rw [Forest.pre, List.mem_cons, List.mem_append] at h
          rcases h with h | h | h | h
          · exact Or.inl h
          · exact Or.inr (Or.inl (ih1 v (Or.inl h)))
          · exact Or.inr (Or.inl (ih1 v (Or.inr h)))
          · exact Or.inr (Or.inr (ih2 r (Or.inr h)))
      exact this F r ((h.lt_iff u).1 hu)
    exact List.mem_iff_getElem?.1 this
  obtain ⟨j, hj⟩ : ∃ j, (r :: tour F r)[j]? = some v := by
    have : v ∈ r :: tour F r := by
      have : ∀ (F : Forest) (r : Nat), (v = r ∨ v ∈ F.pre) → v ∈ r :: tour F r := by
        intro F
        induction F with
        | nil => intro r h; simpa [tour, Forest.pre] using h
        | cons w ch rest ih1 ih2 =>
          intro r h
          rw [tour, ← List.cons_append, List.mem_cons, List.mem_append]
          rw [Forest.pre, List.mem_cons, List.mem_append] at h
          rcases h with h | h | h | h
          · exact Or.inl h
          · exact Or.inr (Or.inl (ih1 w (Or.inl h)))
          · exact Or.inr (Or.inl (ih1 w (Or.inr h)))
          · exact Or.inr (Or.inr (ih2 r (Or.inr h)))
      exact this F r ((h.lt_iff v).1 hv)
    exact List.mem_iff_getElem?.1 this
  rcases Nat.le_total i j with hij | hij
  · obtain ⟨w, h1, ⟨k, -, -, h2⟩, -⟩ := tour_lca F r h.nodup i j u v hij hi hj
    exact ⟨w, (h.lt_iff w).2 (tour_mem (List.mem_of_getElem? h2)), h1⟩
  · obtain ⟨w, h1, ⟨k, -, -, h2⟩, -⟩ := tour_lca F r h.nodup j i v u hij hj hi
    exact ⟨w, (h.lt_iff w).2 (tour_mem (List.mem_of_getElem? h2)), fun a => (h1 a).trans And.comm⟩

theorem Rooted.anc_path (hg : IsTree g) {u v a : Nat} (hu : u < g.size) (hv : v < g.size) {p : List Nat} (hp : IsPath g u v p) : Anc g u a v ↔ a ∈ p := by
  constructor
  · rintro ⟨q, hq, ha⟩
    rwa [(hg.path u v hu hv).unique hp hq]
  · intro ha; exact ⟨p, hp, ha⟩

/-- Cutting towards a child leaves the subtree of the child. -/
theorem Rooted.side_child (hg : IsTree g) (h : Rooted g r F) {v c x : Nat} (hv : v < g.size) (hc : c < g.size) (hx : x < g.size) (hcv : rpath r F c = rpath r F v ++ [c]) :
    Anc g v c x ↔ c ∈ rpath r F x := by
  obtain ⟨w, hw, hh⟩ := h.exists_lca hv hx
  obtain ⟨-, -, -, s, t, h1, h2, h3⟩ := h.dist_of_lca hg hv hx hh hw
  rw [anc_path hg hv hx h3, List.mem_append, List.mem_reverse, List.mem_cons]
  have hnc := (h.isPath hc).nodup
  rw [hcv, List.nodup_append] at hnc
  have hcn : c ∉ rpath r F v := fun hm => hnc.2.2 c hm c (by simp) rfl
  have hwv : w ∈ rpath r F v := ((hh w).1 (rpath_self ((h.lt_iff w).1 hw))).1
  constructor
  · rintro (h4 | h4 | h4)
    · exact absurd (by rw [h1]; simp [h4]) hcn
    · exact absurd (h4 ▸ hwv) hcn
    · rw [h2]; simp [h4]
  · intro h4
    have hcw : c ∉ rpath r F w := fun hm => hcn ((hh c).1 hm).1
    rw [h2, List.mem_append] at h4
    exact Or.inr (Or.inr (h4.resolve_left hcw))

/-- Cutting towards the parent leaves everything but the subtree. -/
theorem Rooted.side_parent (hg : IsTree g) (h : Rooted g r F) {v q x : Nat} (hv : v < g.size) (hq : q < g.size) (hx : x < g.size) (hvq : rpath r F v = rpath r F q ++ [v]) :
    Anc g v q x ↔ v ∉ rpath r F x := by
  obtain ⟨w, hw, hh⟩ := h.exists_lca hv hx
  obtain ⟨-, -, -, s, t, h1, h2, h3⟩ := h.dist_of_lca hg hv hx hh hw
  rw [anc_path hg hv hx h3, List.mem_append, List.mem_reverse, List.mem_cons]
  have hvm : v ∈ rpath r F v := rpath_self ((h.lt_iff v).1 hv)
  have hqm : q ∈ rpath r F v := by rw [hvq]; exact List.mem_append_left _ (rpath_self ((h.lt_iff q).1 hq))
  have hnx := (h.isPath hx).nodup
  rw [h2, List.nodup_append] at hnx
  constructor
  · intro h4 h5
    have hvw : v ∈ rpath r F w := (hh v).2 ⟨hvm, h5⟩
    have hqw : q ∈ rpath r F w := rpath_trans h.nodup hqm hvw
    have hs : s = [] := by
      have l1 := congrArg List.length h1
      have l2 := (rpath_prefix h.nodup hvw).length_le
      rw [List.length_append] at l1
      exact List.length_eq_zero_iff.1 (by omega)
    subst hs
    simp only [List.not_mem_nil, false_or] at h4
    rcases h4 with h4 | h4
    · subst h4
      have := congrArg List.length hvq
      rw [h1] at this
      simp at this
    · exact hnx.2.2 q hqw q h4 rfl
  · intro h4
    have hvw : v ∉ rpath r F w := fun hm => h4 ((hh v).1 hm).2
    rw [h1] at hvm
    have hvs := (List.mem_append.1 hvm).resolve_left hvw
    rcases List.eq_nil_or_concat s with rfl | ⟨s', y, rfl⟩
    · simp at hvs
    · rw [hvq, List.concat_eq_append, ← List.append_assoc] at h1
      obtain ⟨h5, h6⟩ := List.append_inj' h1 rfl
      have hqq := rpath_self (F := F) ((h.lt_iff q).1 hq)
      have hql := rpath_last (F := F) ((h.lt_iff q).1 hq)
      rw [h5, List.getLast?_append] at hql
      cases hs' : s'.getLast? with
      | none =>
        rw [hs', rpath_last ((h.lt_iff w).1 hw)] at hql
        simp at hql
        exact Or.inr (Or.inl hql.symm)
      | some z =>
        rw [hs'] at hql
        simp at hql
        subst hql
        left
        simp [List.mem_of_getLast? hs']

theorem under_tree_mem (h : Rooted g r F) {c x : Nat} (hc : c < g.size) (hx : x < g.size) : c ∈ rpath r F x ↔ x = c ∨ x ∈ ((Forest.tree r F).under c).pre := by
  rw [← tree_path ((h.lt_iff x).1 hx)]
  exact Forest.mem_under h.tree_nodup ((h.tree_mem c).2 hc) ((h.tree_mem x).2 hx)

theorem count_sub (h : Rooted g r F) {c : Nat} (hc : c < g.size) [DecidablePred fun x => c ∈ rpath r F x] : ((List.range g.size).filter fun x => decide (c ∈ rpath r F x)).length = (Forest.tree r F).sub c := by
  have hp : ((List.range g.size).filter fun x => decide (c ∈ rpath r F x)).Perm (c :: ((Forest.tree r F).under c).pre) := by
    refine (List.perm_ext_iff_of_nodup (List.nodup_range.filter _) (Forest.under_nodup h.tree_nodup ((h.tree_mem c).2 hc))).2 fun x => ?_
    rw [List.mem_filter, List.mem_range, decide_eq_true_eq, List.mem_cons]
    constructor
    · rintro ⟨h1, h2⟩
      exact (under_tree_mem h hc h1).1 h2
    · intro h1
      have hx : x < g.size := by
        rcases h1 with rfl | h1
        · exact hc
        · exact (h.tree_mem x).1 (Forest.under_sub ((h.tree_mem c).2 hc) h1)
      exact ⟨hx, (under_tree_mem h hc hx).2 h1⟩
  rw [hp.length_eq]; rfl

theorem Rooted.side_child_length (hg : IsTree g) (h : Rooted g r F) {v c : Nat} (hv : v < g.size) (hc : c < g.size) (hcv : rpath r F c = rpath r F v ++ [c]) :
    (side g v c).length = (Forest.tree r F).sub c := by
  classical
  rw [← count_sub h hc, side]
  congr 1
  refine List.filter_congr fun x hx => ?_
  rw [decide_eq_decide]
  exact h.side_child hg hv hc (List.mem_range.1 hx) hcv

theorem Rooted.side_parent_length (hg : IsTree g) (h : Rooted g r F) {v q : Nat} (hv : v < g.size) (hq : q < g.size) (hvq : rpath r F v = rpath r F q ++ [v]) :
    (side g v q).length + (Forest.tree r F).sub v = g.size := by
  classical
  rw [← count_sub h hv, side]
  have : ((List.range g.size).filter fun x => decide (Anc g v q x)) = (List.range g.size).filter fun x => !decide (v ∈ rpath r F x) := by
    refine List.filter_congr fun x hx => ?_
    rw [← decide_not, decide_eq_decide]
    exact h.side_parent hg hv hq (List.mem_range.1 hx) hvq
  rw [this, Nat.add_comm]
  have := List.length_eq_length_filter_add (l := List.range g.size) fun x => decide (v ∈ rpath r F x)
  rw [List.length_range] at this
  exact this.symm

end Tree
