import Verif.Spec.Tree
import Verif.Proof.GraphBasic
import Mathlib.Data.List.Infix
import Mathlib.Data.List.Perm.Subperm
import Mathlib.Data.List.Lattice

/-! # Rooted trees and forests as data -/

namespace Tree
open Graph

/-- A forest: the first tree has root `v` and children `ch`. -/
inductive Forest
  | nil
  | cons (v : Nat) (ch rest : Forest)

namespace Forest

/-- Vertices in preorder. -/
def pre : Forest → List Nat
  | nil => []
  | cons v ch rest => v :: (ch.pre ++ rest.pre)

/-- The roots of the trees. -/
def roots : Forest → List Nat
  | nil => []
  | cons v _ rest => v :: rest.roots

/-- The vertices from the root down to `x`. -/
def path : Forest → Nat → List Nat
  | nil, _ => []
  | cons v ch rest, x => if x = v then [v] else if x ∈ ch.pre then v :: ch.path x else rest.path x

/-- The children lists are those of the graph, `p` being the parent of the roots. -/
def Fits (g : Array (List Nat)) : Option Nat → Forest → Prop
  | _, nil => True
  | p, cons v ch rest => v < g.size ∧ ch.roots = (adj g v).filter (fun w => some w ≠ p) ∧ Fits g (some v) ch ∧ Fits g p rest

theorem roots_sub {F : Forest} {x : Nat} (h : x ∈ F.roots) : x ∈ F.pre := by
  induction F with
  | nil => simp [roots] at h
  | cons v ch rest _ ih =>
    simp only [roots, List.mem_cons] at h
    simp only [pre, List.mem_cons, List.mem_append]
    rcases h with rfl | h
    · exact Or.inl rfl
    · exact Or.inr (Or.inr (ih h))

theorem path_sub {F : Forest} {x a : Nat} (h : a ∈ F.path x) : a ∈ F.pre := by
  induction F with
  | nil => simp [path] at h
  | cons v ch rest ih1 ih2 =>
    simp only [path] at h
    simp only [pre, List.mem_cons, List.mem_append]
    split at h
    · simp at h; exact Or.inl h
    · split at h
      · rcases List.mem_cons.1 h with h | h
        · exact Or.inl h
        · exact Or.inr (Or.inl (ih1 h))
      · exact Or.inr (Or.inr (ih2 h))

theorem path_ne {F : Forest} {x : Nat} (h : x ∈ F.pre) : F.path x ≠ [] := by
  induction F with
  | nil => simp [pre] at h
  | cons v ch rest ih1 ih2 =>
    simp only [path]
    split
    · simp
    · split
      · simp
      · rename_i h1 h2
        simp only [pre, List.mem_cons, List.mem_append] at h
        exact ih2 ((h.resolve_left h1).resolve_left h2)

theorem path_nil {F : Forest} {x : Nat} (h : x ∉ F.pre) : F.path x = [] := by
  induction F with
  | nil => rfl
  | cons v ch rest ih1 ih2 =>
    simp only [pre, List.mem_cons, List.mem_append, not_or] at h
    rw [path, if_neg h.1, if_neg h.2.1]
    exact ih2 h.2.2

theorem path_last {F : Forest} {x : Nat} (h : x ∈ F.pre) : (F.path x).getLast? = some x := by
  induction F with
  | nil => simp [pre] at h
  | cons v ch rest ih1 ih2 =>
    simp only [path]
    split
    · rename_i h1; simp [h1]
    · split
      · rename_i h1 h2
        have := ih1 h2
        rw [List.getLast?_cons]
        rw [this]; rfl
      · rename_i h1 h2
        simp only [pre, List.mem_cons, List.mem_append] at h
        exact ih2 ((h.resolve_left h1).resolve_left h2)

theorem mem_path_self {F : Forest} {x : Nat} (h : x ∈ F.pre) : x ∈ F.path x := by
  have := path_last h
  exact List.mem_of_getLast? this

theorem path_nodup {F : Forest} (hn : F.pre.Nodup) (x : Nat) : (F.path x).Nodup := by
  induction F with
  | nil => simp [path]
  | cons v ch rest ih1 ih2 =>
    rw [pre, List.nodup_cons, List.mem_append, List.nodup_append] at hn
    obtain ⟨h1, h2, h3, h4⟩ := hn
    simp only [path]
    split
    · simp
    · split
      · rw [List.nodup_cons]
        exact ⟨fun hm => h1 (Or.inl (path_sub hm)), ih1 h2⟩
      · exact ih2 h3

/-- The path of an ancestor is a prefix. -/
theorem path_prefix {F : Forest} (hn : F.pre.Nodup) {x a : Nat} (h : a ∈ F.path x) : F.path a <+: F.path x := by
  induction F with
  | nil => simp [path] at h
  | cons v ch rest ih1 ih2 =>
    rw [pre, List.nodup_cons, List.mem_append, List.nodup_append] at hn
    obtain ⟨h1, h2, h3, h4⟩ := hn
    simp only [path] at h ⊢
    by_cases hx : x = v
    · subst hx
      simp at h
      subst h
      exact List.prefix_rfl
    · rw [if_neg hx] at h ⊢
      by_cases hxc : x ∈ ch.pre
      · rw [if_pos hxc] at h ⊢
        rcases List.mem_cons.1 h with rfl | h
        · rw [if_pos rfl]
          exact ⟨_, rfl⟩
        · have hac := path_sub h
          have hav : a ≠ v := fun e => h1 (Or.inl (e ▸ hac))
          rw [if_neg hav, if_pos hac]
          exact List.cons_prefix_cons.2 ⟨rfl, ih1 h2 h⟩
      · rw [if_neg hxc] at h ⊢
        have har := path_sub h
        have hav : a ≠ v := fun e => h1 (Or.inr (e ▸ har))
        have hac : a ∉ ch.pre := fun hm => h4 a hm a har rfl
        rw [if_neg hav, if_neg hac]
        exact ih2 h3 h

/-- Paths are walks in the graph starting at a root. -/
theorem path_chain {g : Array (List Nat)} {p : Option Nat} {F : Forest} (hf : Fits g p F) (x : Nat) (hx : x ∈ F.pre) :
    (F.path x).IsChain (E g) ∧ ∃ r ∈ F.roots, (F.path x).head? = some r := by
  induction F generalizing p with
  | nil => simp [pre] at hx
  | cons v ch rest ih1 ih2 =>
    obtain ⟨-, f1, f2, f3⟩ := hf
    simp only [path]
    split
    · exact ⟨by simp, v, by simp [roots], rfl⟩
    · split
      · rename_i h1 h2
        obtain ⟨c1, r, c2, c3⟩ := ih1 f2 h2
        refine ⟨?_, v, by simp [roots], rfl⟩
        rw [List.isChain_cons]
        refine ⟨fun y hy => ?_, c1⟩
        rw [c3] at hy
        simp only [Option.mem_def, Option.some.injEq] at hy
        subst hy
        rw [f1, List.mem_filter] at c2
        exact c2.1
      · rename_i h1 h2
        simp only [pre, List.mem_cons, List.mem_append] at hx
        obtain ⟨c1, r, c2, c3⟩ := ih2 f3 ((hx.resolve_left h1).resolve_left h2)
        exact ⟨c1, r, by simp [roots, c2], c3⟩

end Forest

/-! ### Existence -/

/-- The forest of the children `l` of a vertex whose parent path is known, `fuel` levels deep. -/
def grow (g : Array (List Nat)) : Nat → Option Nat → List Nat → Forest
  | 0, _, _ => .nil
  | _, _, [] => .nil
  | f + 1, p, v :: l => .cons v (grow g f (some v) ((adj g v).filter fun w => some w ≠ p)) (grow g (f + 1) p l)

/-- Appending a neighbour other than the parent to a simple path gives a simple path. -/
theorem path_extend {g : Array (List Nat)} (hg : IsTree g) {r v c : Nat} {π : List Nat} (hπ : IsPath g r v π) (hc : E g v c) (hp : ∀ q, π.dropLast.getLast? = some q → q ≠ c) :
    IsPath g r c (π ++ [c]) := by
  have hne : π ≠ [] := by rintro rfl; simpa using hπ.head
  have hcm : c ∉ π := by
    intro hm
    obtain ⟨s, t, e⟩ := List.append_of_mem hm
    have hvl := hπ.last
    rw [e] at hvl
    cases t with
    | nil =>
      simp at hvl
      subst hvl
      exact hg.irrefl _ hc
    | cons y t =>
      have hch : (c :: y :: t).IsChain (E g) := by
        have := hπ.chain
        rw [e, List.isChain_append] at this
        exact this.2.1
      have hnd : (c :: y :: t).Nodup := by
        have := hπ.nodup
        rw [e, List.nodup_append] at this
        exact this.2.1
      have hlast : (c :: y :: t).getLast? = some v := by
        rw [List.getLast?_append] at hvl
        simpa using hvl
      have hvc : v ≠ c := by rintro rfl; exact hg.irrefl _ hc
      have h1 : IsPath g c v (c :: y :: t) := ⟨rfl, hlast, hnd, hch⟩
      have h2 : IsPath g c v [c, v] := ⟨rfl, rfl, by simp [Ne.symm hvc], by simp [hg.symm _ _ hc]⟩
      have hlt1 := hg.valid _ _ hc
      have hlt2 : v < g.size := hc.lt
      have heq := (hg.path c v hlt1 hlt2).unique h1 h2
      simp only [List.cons.injEq, true_and] at heq
      obtain ⟨rfl, rfl⟩ := heq
      refine hp c ?_ rfl
      rw [e]
      simp
  refine ⟨?_, by simp, ?_, ?_⟩
  · rw [List.head?_append, hπ.head]; rfl
  · rw [List.nodup_append]
    exact ⟨hπ.nodup, by simp, fun a ha b hb e => by simp at hb; subst hb; subst e; exact hcm ha⟩
  · rw [List.isChain_append]
    refine ⟨hπ.chain, by simp, fun a ha b hb => ?_⟩
    rw [hπ.last] at ha
    simp at ha hb
    subst ha; subst hb
    exact hc

theorem path_mem_lt {g : Array (List Nat)} (hg : IsTree g) {r v : Nat} (hr : r < g.size) {π : List Nat} (hπ : IsPath g r v π) : ∀ x ∈ π, x < g.size := by
  intro x hx
  obtain ⟨s, t, e⟩ := List.append_of_mem hx
  rcases List.eq_nil_or_concat s with rfl | ⟨s, y, rfl⟩
  · have := hπ.head
    rw [e] at this
    simp at this
    omega
  · have := hπ.chain
    rw [e, List.isChain_append] at this
    exact hg.valid y x (this.2.2 y (by simp) x (by simp))

theorem path_end_lt {g : Array (List Nat)} (hg : IsTree g) {r v : Nat} (hr : r < g.size) {π : List Nat} (hπ : IsPath g r v π) : v < g.size :=
  path_mem_lt hg hr hπ v (List.mem_of_getLast? hπ.last)

theorem path_length_le {g : Array (List Nat)} (hg : IsTree g) {r v : Nat} (hr : r < g.size) {π : List Nat} (hπ : IsPath g r v π) : π.length ≤ g.size := by
  have hsub : π ⊆ List.range g.size := fun x hx => List.mem_range.2 (path_mem_lt hg hr hπ x hx)
  have := (List.subperm_of_subset hπ.nodup hsub).length_le
  simpa using this

/-- What `grow` returns below a path `π` ending in `u`: `l` are some neighbours of `u` other than its parent. -/
theorem grow_ok {g : Array (List Nat)} (hg : IsTree g) {r : Nat} (hr : r < g.size) (f : Nat) : ∀ (u : Nat) (π : List Nat) (l : List Nat), IsPath g r u π → g.size < f + π.length →
    (∀ c ∈ l, E g u c) → l.Nodup → (∀ c ∈ l, ∀ q, π.dropLast.getLast? = some q → q ≠ c) →
    (grow g f (some u) l).Fits g (some u) ∧ (grow g f (some u) l).roots = l ∧ (grow g f (some u) l).pre.Nodup ∧
      ∀ x, x ∈ (grow g f (some u) l).pre ↔ ∃ p c, c ∈ l ∧ IsPath g r x p ∧ π ++ [c] <+: p := by
  induction f with
  | zero =>
    intro u π l hπ hf
    have := path_length_le hg hr hπ
    omega
  | succ f ih =>
    intro u π l hπ hf hl hnd hq
    induction l with
    | nil => simp [grow, Forest.Fits, Forest.roots, Forest.pre]
    | cons c l ihl =>
      obtain ⟨i1, i2, i3, i4⟩ := ihl (fun c hc => hl c (by simp [hc])) (List.nodup_cons.1 hnd).2 (fun c hc => hq c (by simp [hc]))
      have huc : E g u c := hl c (by simp)
      have hcπ := path_extend hg hπ huc (hq c (by simp))
      have hclt := hg.valid _ _ huc
      obtain ⟨k, hk⟩ : ∃ k, k = (adj g c).filter fun w => some w ≠ some u := ⟨_, rfl⟩
      obtain ⟨j1, j2, j3, j4⟩ := ih c (π ++ [c]) k hcπ (by simp; omega) (fun d hd => by rw [hk] at hd; exact (List.mem_filter.1 hd).1)
        (by rw [hk]; exact (hg.simple c).filter _) (fun d hd q hqq => by
          rw [List.dropLast_concat, hπ.last] at hqq
          rw [hk, List.mem_filter] at hd
          simp at hqq hd
          subst hqq
          exact Ne.symm hd.2)
      have hmem : ∀ x, x ∈ c :: (grow g f (some c) k).pre ↔ ∃ p, IsPath g r x p ∧ π ++ [c] <+: p := by
        intro x
        rw [List.mem_cons, j4]
        constructor
        · rintro (rfl | ⟨p, d, hd, hp, h⟩)
          · exact ⟨_, hcπ, List.prefix_rfl⟩
          · exact ⟨p, hp, (List.prefix_append _ _).trans h⟩
        · rintro ⟨p, hp, t, e⟩
          cases t with
          | nil =>
            have := hp.last
            rw [← e] at this
            simp at this
            exact Or.inl this.symm
          | cons d t =>
            right
            refine ⟨p, d, ?_, hp, t, by rw [← e]; simp⟩
            have hch := hp.chain
            rw [← e, List.isChain_append] at hch
            have hcd : E g c d := hch.2.2 c (by simp) d (by simp)
            rw [hk, List.mem_filter]
            refine ⟨hcd, ?_⟩
            have hnd' := hp.nodup
            rw [← e, List.nodup_append] at hnd'
            have hum : u ∈ π := List.mem_of_getLast? hπ.last
            simpa using fun e' => hnd'.2.2 u (by simp [hum]) d (by simp) (e'.symm)
      have e : grow g (f + 1) (some u) (c :: l) = .cons c (grow g f (some c) k) (grow g (f + 1) (some u) l) := by rw [hk, grow]
      rw [e]
      refine ⟨⟨hclt, by rw [j2, hk], j1, i1⟩, by rw [Forest.roots, i2], ?_, ?_⟩
      · rw [Forest.pre, ← List.cons_append, List.nodup_append]
        refine ⟨?_, i3, ?_⟩
        · rw [List.nodup_cons]
          refine ⟨fun hm => ?_, j3⟩
          obtain ⟨p, d, hd, hp, h⟩ := (j4 c).1 hm
          have heq := (hg.path r c hr hclt).unique hp hcπ
          rw [heq] at h
          have := h.length_le
          simp at this
        · rintro a ha b hb rfl
          obtain ⟨p, hp, h⟩ := (hmem a).1 ha
          obtain ⟨p', d, hd, hp', h'⟩ := (i4 a).1 hb
          have halt : a < g.size := path_end_lt hg hr hp
          have heq := (hg.path r a hr halt).unique hp hp'
          subst heq
          obtain ⟨t1, e1⟩ := h
          obtain ⟨t2, e2⟩ := h'
          rw [← e1] at e2
          simp only [List.append_assoc, List.append_cancel_left_eq, List.cons_append, List.cons.injEq] at e2
          rw [e2.1] at hd
          exact (List.nodup_cons.1 hnd).1 hd
      · intro x
        rw [Forest.pre, ← List.cons_append, List.mem_append, hmem, i4]
        constructor
        · rintro (⟨p, hp, h⟩ | ⟨p, d, hd, hp, h⟩)
          · exact ⟨p, c, by simp, hp, h⟩
          · exact ⟨p, d, by simp [hd], hp, h⟩
        · rintro ⟨p, d, hd, hp, h⟩
          rcases List.mem_cons.1 hd with rfl | hd
          · exact Or.inl ⟨p, hp, h⟩
          · exact Or.inr ⟨p, d, hd, hp, h⟩

/-- The tree seen from its root: children of the root. -/
structure Rooted (g : Array (List Nat)) (r : Nat) (F : Forest) : Prop where
  lt : r < g.size
  roots : F.roots = adj g r
  fits : F.Fits g (some r)
  nodup : (r :: F.pre).Nodup
  perm : (r :: F.pre).Perm (List.range g.size)

theorem exists_rooted {g : Array (List Nat)} (hg : IsTree g) {r : Nat} (hr : r < g.size) : ∃ F, Rooted g r F := by
  have hπ : IsPath g r r [r] := ⟨rfl, rfl, by simp, by simp⟩
  obtain ⟨h1, h2, h3, h4⟩ := grow_ok hg hr g.size r [r] (adj g r) hπ (by simp) (fun c hc => hc) (hg.simple r) (by simp)
  have hnd : (r :: (grow g g.size (some r) (adj g r)).pre).Nodup := by
    rw [List.nodup_cons]
    refine ⟨fun hm => ?_, h3⟩
    obtain ⟨p, d, hd, hp, h⟩ := (h4 r).1 hm
    have := (hg.path r r hr hr).unique hp hπ
    rw [this] at h
    simpa using h.length_le
  refine ⟨_, hr, h2, h1, hnd, ?_⟩
  rw [List.perm_ext_iff_of_nodup hnd List.nodup_range]
  intro x
  rw [List.mem_range, List.mem_cons, h4]
  constructor
  · rintro (rfl | ⟨p, d, hd, hp, h⟩)
    · exact hr
    · exact path_end_lt hg hr hp
  · intro hx
    obtain ⟨p, hp, -⟩ := hg.path r x hr hx
    cases p with
    | nil => simpa using hp.head
    | cons a p =>
      have := hp.head
      simp at this
      subst this
      cases p with
      | nil =>
        have := hp.last
        simp at this
        exact Or.inl this.symm
      | cons d p =>
        right
        have := hp.chain
        rw [List.isChain_cons] at this
        exact ⟨_, d, this.1 d (by simp), hp, by simp⟩

/-- The path from the root. -/
def rpath (r : Nat) (F : Forest) (x : Nat) : List Nat := if x = r then [r] else r :: F.path x

theorem Rooted.lt_iff {g : Array (List Nat)} {r : Nat} {F : Forest} (h : Rooted g r F) (x : Nat) : x < g.size ↔ x = r ∨ x ∈ F.pre := by
  rw [← List.mem_range, ← h.perm.mem_iff, List.mem_cons]

theorem Rooted.isPath {g : Array (List Nat)} {r : Nat} {F : Forest} (h : Rooted g r F) {x : Nat} (hx : x < g.size) : IsPath g r x (rpath r F x) := by
  unfold rpath
  by_cases hxr : x = r
  · subst hxr
    rw [if_pos rfl]
    exact ⟨rfl, rfl, by simp, by simp⟩
  · rw [if_neg hxr]
    have hx' : x ∈ F.pre := ((h.lt_iff x).1 hx).resolve_left hxr
    obtain ⟨c1, c, c2, c3⟩ := Forest.path_chain h.fits x hx'
    have hnd := List.nodup_cons.1 h.nodup
    refine ⟨rfl, ?_, ?_, ?_⟩
    · rw [List.getLast?_cons, Forest.path_last hx']; rfl
    · rw [List.nodup_cons]
      exact ⟨fun hm => hnd.1 (Forest.path_sub hm), Forest.path_nodup hnd.2 x⟩
    · rw [List.isChain_cons]
      refine ⟨fun y hy => ?_, c1⟩
      rw [c3] at hy
      simp at hy
      subst hy
      rw [h.roots] at c2
      exact c2

theorem Rooted.path_iff {g : Array (List Nat)} (hg : IsTree g) {r : Nat} {F : Forest} (h : Rooted g r F) {x : Nat} (hx : x < g.size) {p : List Nat} :
    IsPath g r x p ↔ p = rpath r F x :=
  ⟨fun hp => (hg.path r x h.lt hx).unique hp (h.isPath hx), fun e => e ▸ h.isPath hx⟩

end Tree
