import Verif.Spec.TreeIso
import Verif.Proof.Under
import Mathlib.Data.List.Sort

/-! # Isomorphisms of forests and canonical codes -/

namespace Tree
open Cxx Graph

/-- The sorted list. -/
def srt (l : List Nat) : List Nat := l.insertionSort (· ≤ ·)

theorem srt_eq {l m : List Nat} : srt l = srt m ↔ l.Perm m := by
  constructor
  · intro h
    exact (List.perm_insertionSort (· ≤ ·) l).symm.trans ((show l.insertionSort (· ≤ ·) = m.insertionSort (· ≤ ·) from h) ▸ List.perm_insertionSort (· ≤ ·) m)
  · intro h
    exact ((List.perm_insertionSort (· ≤ ·) l).trans (h.trans (List.perm_insertionSort (· ≤ ·) m).symm)).eq_of_pairwise
      (fun a b _ _ => Nat.le_antisymm) (List.pairwise_insertionSort (· ≤ ·) l) (List.pairwise_insertionSort (· ≤ ·) m)

theorem srt_length (l : List Nat) : (srt l).length = l.length := (List.perm_insertionSort (· ≤ ·) l).length_eq

/-- The codes of the trees of a forest with respect to `H`, which maps sorted lists of codes of children to codes. -/
inductive FCode (H : List Nat → Option Nat) : Forest → List Nat → Prop
  | nil : FCode H .nil []
  | cons {v : Nat} {ch rest : Forest} {ks l : List Nat} {i : Nat} : FCode H ch ks → H (srt ks) = some i → FCode H rest l → FCode H (.cons v ch rest) (i :: l)

theorem FCode.mono {H H' : List Nat → Option Nat} (hH : ∀ k i, H k = some i → H' k = some i) {F : Forest} {l : List Nat} (h : FCode H F l) : FCode H' F l := by
  induction h with
  | nil => exact .nil
  | cons _ h1 _ ih1 ih2 => exact .cons ih1 (hH _ _ h1) ih2

theorem FCode.unique {H : List Nat → Option Nat} {F : Forest} {l : List Nat} (h : FCode H F l) : ∀ {m}, FCode H F m → l = m := by
  induction h with
  | nil => intro m hm; cases hm; rfl
  | cons _ h1 _ ih1 ih2 =>
    intro m hm
    cases hm with
    | cons c1 c2 c3 =>
      rw [← ih1 c1, h1] at c2
      injection c2 with c2
      rw [c2, ih2 c3]

theorem FCode.length {H : List Nat → Option Nat} {F : Forest} {l : List Nat} (h : FCode H F l) : l.length = F.roots.length := by
  induction h with
  | nil => rfl
  | cons _ _ _ _ ih2 => simp [Forest.roots, ih2]

/-- An isomorphism of forests. -/
structure FIso (F G : Forest) (f : Nat → Nat) : Prop where
  maps : ∀ x ∈ F.pre, f x ∈ G.pre
  inj : ∀ x ∈ F.pre, ∀ y ∈ F.pre, f x = f y → x = y
  surj : ∀ y ∈ G.pre, ∃ x ∈ F.pre, f x = y
  path : ∀ x ∈ F.pre, G.path (f x) = (F.path x).map f

/-- `G` consists of the tree with root `w` and children `ch`, and of `R`. -/
structure Pick (G : Forest) (w : Nat) (ch R : Forest) : Prop where
  pre : G.pre.Perm (w :: (ch.pre ++ R.pre))
  path : ∀ x, G.path x = if x = w then [w] else if x ∈ ch.pre then w :: ch.path x else R.path x

theorem Pick.here (v : Nat) (ch rest : Forest) : Pick (.cons v ch rest) v ch rest := ⟨List.Perm.refl _, fun _ => rfl⟩

theorem Pick.there {v : Nat} {c rest : Forest} (hn : (Forest.cons v c rest).pre.Nodup) {w : Nat} {ch R : Forest} (h : Pick rest w ch R) : Pick (.cons v c rest) w ch (.cons v c R) := by
  have hn' := hn
  rw [Forest.pre, List.nodup_cons, List.mem_append, List.nodup_append] at hn'
  obtain ⟨m2, m3, m4, m5⟩ := hn'
  have hw : w ∈ rest.pre := h.pre.mem_iff.2 (by simp)
  have hch : ∀ x ∈ ch.pre, x ∈ rest.pre := fun x hx => h.pre.mem_iff.2 (by simp [hx])
  refine ⟨?_, fun x => ?_⟩
  · simp only [Forest.pre]
    have h1 := h.pre
    calc (v :: (c.pre ++ rest.pre)).Perm (v :: (c.pre ++ (w :: (ch.pre ++ R.pre)))) := (List.Perm.append_left _ h1).cons _
      _ |>.Perm (w :: (ch.pre ++ v :: (c.pre ++ R.pre))) := by
        rw [List.perm_iff_count]
        intro a
        simp only [List.count_cons, List.count_append]
        omega
  · rw [Forest.path, Forest.path, h.path]
    by_cases h1 : x = v
    · rw [if_pos h1, if_pos h1, if_neg (by rintro rfl; subst h1; exact m2 (Or.inr hw)), if_neg (by subst h1; exact fun h => m2 (Or.inr (hch _ h)))]
    · rw [if_neg h1, if_neg h1]
      by_cases h2 : x ∈ c.pre
      · rw [if_pos h2, if_pos h2, if_neg (by rintro rfl; exact m5 x h2 x hw rfl), if_neg (fun h => m5 x h2 x (hch x h) rfl)]
      · rw [if_neg h2, if_neg h2]

theorem pick_code {H : List Nat → Option Nat} {G : Forest} {b : List Nat} (h : FCode H G b) : ∀ (_ : G.pre.Nodup) {i : Nat}, i ∈ b →
    ∃ w ch R ks l', Pick G w ch R ∧ FCode H ch ks ∧ H (srt ks) = some i ∧ FCode H R l' ∧ b.Perm (i :: l') := by
  induction h with
  | nil => intro _ i hi; cases hi
  | @cons v ch rest ks l j c1 c2 c3 _ ih =>
    intro hn i hi
    rcases List.mem_cons.1 hi with rfl | hi
    · exact ⟨v, ch, rest, ks, l, .here v ch rest, c1, c2, c3, List.Perm.refl _⟩
    · have hn' := hn
      rw [Forest.pre, List.nodup_cons, List.nodup_append] at hn'
      obtain ⟨w, ch', R, ks', l', h1, h2, h3, h4, h5⟩ := ih hn'.2.2.1 hi
      exact ⟨w, ch', .cons v ch R, ks', j :: l', h1.there hn, h2, h3, .cons c1 c2 h4, (h5.cons j).trans (List.Perm.swap _ _ _)⟩

theorem pick_root {H : List Nat → Option Nat} {G : Forest} {b : List Nat} (h : FCode H G b) : ∀ (_ : G.pre.Nodup) {w : Nat}, w ∈ G.roots →
    ∃ ch R ks l' i, Pick G w ch R ∧ FCode H ch ks ∧ H (srt ks) = some i ∧ FCode H R l' ∧ b.Perm (i :: l') := by
  induction h with
  | nil => intro _ i hi; cases hi
  | @cons v ch rest ks l j c1 c2 c3 _ ih =>
    intro hn w hw
    rcases List.mem_cons.1 hw with rfl | hw
    · exact ⟨ch, rest, ks, l, j, .here w ch rest, c1, c2, c3, List.Perm.refl _⟩
    · have hn' := hn
      rw [Forest.pre, List.nodup_cons, List.nodup_append] at hn'
      obtain ⟨ch', R, ks', l', i, h1, h2, h3, h4, h5⟩ := ih hn'.2.2.1 hw
      exact ⟨ch', .cons v ch R, ks', j :: l', i, h1.there hn, h2, h3, .cons c1 c2 h4, (h5.cons j).trans (List.Perm.swap _ _ _)⟩

theorem Pick.nodup {G : Forest} {w : Nat} {ch R : Forest} (h : Pick G w ch R) (hn : G.pre.Nodup) : w ∉ ch.pre ∧ w ∉ R.pre ∧ ch.pre.Nodup ∧ R.pre.Nodup ∧ ∀ x ∈ ch.pre, x ∉ R.pre := by
  have := h.pre.nodup_iff.1 hn
  rw [List.nodup_cons, List.mem_append, List.nodup_append] at this
  obtain ⟨m2, m3, m4, m5⟩ := this
  exact ⟨fun h => m2 (Or.inl h), fun h => m2 (Or.inr h), m3, m4, fun x h1 h2 => m5 x h1 x h2 rfl⟩

theorem Pick.mem {G : Forest} {w : Nat} {ch R : Forest} (h : Pick G w ch R) {x : Nat} : x ∈ G.pre ↔ x = w ∨ x ∈ ch.pre ∨ x ∈ R.pre := by
  rw [h.pre.mem_iff, List.mem_cons, List.mem_append]

/-- Equal codes give isomorphic forests. -/
theorem iso_of_code {H : List Nat → Option Nat} (hH : ∀ k k' i, H k = some i → H k' = some i → k = k') {F : Forest} {a : List Nat} (h : FCode H F a) :
    ∀ {G : Forest} {b : List Nat}, F.pre.Nodup → G.pre.Nodup → FCode H G b → a.Perm b → ∃ f, FIso F G f := by
  induction h with
  | nil =>
    intro G b _ _ h2 hp
    cases h2 with
    | nil => exact ⟨id, by simp [Forest.pre], by simp [Forest.pre], by simp [Forest.pre], by simp [Forest.pre]⟩
    | cons _ _ _ => have := hp.length_eq; simp at this
  | @cons v ch rest ks l i c1 c2 c3 ih1 ih2 =>
    intro G b hn hm h2 hp
    have hn' := hn
    rw [Forest.pre, List.nodup_cons, List.mem_append, List.nodup_append] at hn'
    obtain ⟨n2, n3, n4, n5⟩ := hn'
    obtain ⟨w, ch', R, ks', l', p1, p2, p3, p4, p5⟩ := pick_code h2 hm (hp.subset (by simp) : i ∈ b)
    obtain ⟨m1, m2, m3, m4, m5⟩ := p1.nodup hm
    have hks : ks.Perm ks' := srt_eq.1 (hH _ _ _ c2 p3)
    obtain ⟨f1, hf1⟩ := ih1 n3 m3 p2 hks
    obtain ⟨f2, hf2⟩ := ih2 n4 m4 p4 ((hp.trans p5).cons_inv)
    obtain ⟨f, hf⟩ : ∃ f : Nat → Nat, f = fun x => if x = v then w else if x ∈ ch.pre then f1 x else f2 x := ⟨_, rfl⟩
    have fv : f v = w := by rw [hf]; simp
    have fc : ∀ x ∈ ch.pre, f x = f1 x := fun x hx => by
      rw [hf]; show (if x = v then _ else _) = _
      rw [if_neg (by rintro rfl; exact n2 (Or.inl hx)), if_pos hx]
    have fr : ∀ x ∈ rest.pre, f x = f2 x := fun x hx => by
      rw [hf]; show (if x = v then _ else _) = _
      rw [if_neg (by rintro rfl; exact n2 (Or.inr hx)), if_neg (fun h => n5 x h x hx rfl)]
    have hcases : ∀ x ∈ (Forest.cons v ch rest).pre, x = v ∨ x ∈ ch.pre ∨ x ∈ rest.pre := fun x hx => by simpa [Forest.pre] using hx
    refine ⟨f, fun x hx => ?_, fun x hx y hy e => ?_, fun y hy => ?_, fun x hx => ?_⟩
    · rw [p1.mem]
      rcases hcases x hx with rfl | h | h
      · exact Or.inl fv
      · rw [fc x h]; exact Or.inr (Or.inl (hf1.maps x h))
      · rw [fr x h]; exact Or.inr (Or.inr (hf2.maps x h))
    · rcases hcases x hx with rfl | h | h <;> rcases hcases y hy with rfl | h' | h'
      · rfl
      · rw [fv, fc y h'] at e; exact absurd (e ▸ hf1.maps y h') m1
      · rw [fv, fr y h'] at e; exact absurd (e ▸ hf2.maps y h') m2
      · rw [fv, fc x h] at e; exact absurd (e ▸ hf1.maps x h) m1
      · rw [fc x h, fc y h'] at e; exact hf1.inj x h y h' e
      · rw [fc x h, fr y h'] at e; exact absurd (e ▸ hf2.maps y h') (m5 _ (hf1.maps x h))
      · rw [fv, fr x h] at e; exact absurd (e ▸ hf2.maps x h) m2
      · rw [fr x h, fc y h'] at e; exact absurd (hf2.maps x h) (m5 _ (e ▸ hf1.maps y h'))
      · rw [fr x h, fr y h'] at e; exact hf2.inj x h y h' e
    · rcases p1.mem.1 hy with rfl | h | h
      · exact ⟨v, by simp [Forest.pre], fv⟩
      · obtain ⟨x, hx, e⟩ := hf1.surj y h
        exact ⟨x, by simp [Forest.pre, hx], by rw [fc x hx, e]⟩
      · obtain ⟨x, hx, e⟩ := hf2.surj y h
        exact ⟨x, by simp [Forest.pre, hx], by rw [fr x hx, e]⟩
    · rw [p1.path, Forest.path]
      rcases hcases x hx with rfl | h | h
      · rw [fv, if_pos rfl, if_pos rfl, List.map_singleton, fv]
      · have hxv : x ≠ v := by rintro rfl; exact n2 (Or.inl h)
        rw [if_neg hxv, if_pos h, fc x h, if_neg (by rintro e; exact m1 (e ▸ hf1.maps x h)), if_pos (hf1.maps x h), hf1.path x h, List.map_cons, fv]
        congr 1
        exact List.map_congr_left fun a ha => (fc a (Forest.path_sub ha)).symm
      · have hxv : x ≠ v := by rintro rfl; exact n2 (Or.inr h)
        rw [if_neg hxv, if_neg (fun h' => n5 x h' x h rfl), fr x h, if_neg (by rintro e; exact m2 (e ▸ hf2.maps x h)), if_neg (fun h' => m5 _ h' (hf2.maps x h)), hf2.path x h]
        exact List.map_congr_left fun a ha => (fr a (Forest.path_sub ha)).symm

/-- Isomorphic forests have equal codes. -/
theorem code_of_iso {H : List Nat → Option Nat} {F : Forest} {a : List Nat} (h : FCode H F a) :
    ∀ {G : Forest} {b : List Nat} {f : Nat → Nat}, F.pre.Nodup → G.pre.Nodup → FCode H G b → FIso F G f → a.Perm b := by
  induction h with
  | nil =>
    intro G b f _ _ h2 hf
    cases h2 with
    | nil => exact List.Perm.refl _
    | @cons w _ _ _ _ _ _ _ _ =>
      obtain ⟨x, hx, -⟩ := hf.surj w (by simp [Forest.pre])
      simp [Forest.pre] at hx
  | @cons v ch rest ks l i c1 c2 c3 ih1 ih2 =>
    intro G b f hn hm h2 hf
    have hn' := hn
    rw [Forest.pre, List.nodup_cons, List.mem_append, List.nodup_append] at hn'
    obtain ⟨n2, n3, n4, n5⟩ := hn'
    have hcases : ∀ x, x ∈ (Forest.cons v ch rest).pre ↔ x = v ∨ x ∈ ch.pre ∨ x ∈ rest.pre := fun x => by simp [Forest.pre]
    have hv := (hcases v).2 (Or.inl rfl)
    have hw : f v ∈ G.roots := Forest.root_of_path (hf.maps v hv) (by rw [hf.path v hv, List.length_map, Forest.path, if_pos rfl]; rfl)
    obtain ⟨ch', R, ks', l', j, p1, p2, p3, p4, p5⟩ := pick_root h2 hm hw
    obtain ⟨m1, m2, m3, m4, m5⟩ := p1.nodup hm
    have hne : ∀ x ∈ (Forest.cons v ch rest).pre, x ≠ v → f x ≠ f v := fun x hx h e => h (hf.inj x hx v hv e)
    have k1 : ∀ x ∈ ch.pre, f x ∈ ch'.pre ∧ ch'.path (f x) = (ch.path x).map f := fun x hx => by
      have hxv : x ≠ v := by rintro rfl; exact n2 (Or.inl hx)
      have hxF := (hcases x).2 (Or.inr (Or.inl hx))
      have e := hf.path x hxF
      rw [Forest.path, if_neg hxv, if_pos hx, p1.path, if_neg (hne x hxF hxv), List.map_cons] at e
      by_cases h' : f x ∈ ch'.pre
      · rw [if_pos h'] at e
        injection e with _ e
        exact ⟨h', e⟩
      · rw [if_neg h'] at e
        have : f v ∈ R.path (f x) := by rw [e]; simp
        exact absurd (Forest.path_sub this) m2
    have k2 : ∀ x ∈ rest.pre, f x ∈ R.pre ∧ R.path (f x) = (rest.path x).map f := fun x hx => by
      have hxv : x ≠ v := by rintro rfl; exact n2 (Or.inr hx)
      have hxF := (hcases x).2 (Or.inr (Or.inr hx))
      have e := hf.path x hxF
      rw [Forest.path, if_neg hxv, if_neg (fun h' => n5 x h' x hx rfl), p1.path, if_neg (hne x hxF hxv)] at e
      by_cases h' : f x ∈ ch'.pre
      · rw [if_pos h'] at e
        exfalso
        match hp : rest.path x, e with
        | [], e => simp at e
        | y :: t, e =>
          rw [List.map_cons] at e
          injection e with e _
          have hy : y ∈ rest.pre := Forest.path_sub (show y ∈ rest.path x by rw [hp]; simp)
          have := hf.inj v hv y ((hcases y).2 (Or.inr (Or.inr hy))) e
          exact n2 (Or.inr (this ▸ hy))
      · rw [if_neg h'] at e
        exact ⟨((p1.mem.1 (hf.maps x hxF)).resolve_left (hne x hxF hxv)).resolve_left h', e⟩
    have i1 : FIso ch ch' f := by
      refine ⟨fun x hx => (k1 x hx).1, fun x hx y hy => hf.inj x ((hcases x).2 (Or.inr (Or.inl hx))) y ((hcases y).2 (Or.inr (Or.inl hy))), fun y hy => ?_, fun x hx => (k1 x hx).2⟩
      obtain ⟨x, hx, e⟩ := hf.surj y (p1.mem.2 (Or.inr (Or.inl hy)))
      rcases (hcases x).1 hx with rfl | h | h
      · exact absurd (e ▸ hy) m1
      · exact ⟨x, h, e⟩
      · exact absurd (e ▸ (k2 x h).1) (m5 y hy)
    have i2 : FIso rest R f := by
      refine ⟨fun x hx => (k2 x hx).1, fun x hx y hy => hf.inj x ((hcases x).2 (Or.inr (Or.inr hx))) y ((hcases y).2 (Or.inr (Or.inr hy))), fun y hy => ?_, fun x hx => (k2 x hx).2⟩
      obtain ⟨x, hx, e⟩ := hf.surj y (p1.mem.2 (Or.inr (Or.inr hy)))
      rcases (hcases x).1 hx with rfl | h | h
      · exact absurd (e ▸ hy) m2
      · exact absurd hy (m5 y (e ▸ (k1 x h).1))
      · exact ⟨x, h, e⟩
    have e1 := ih1 n3 m3 p2 i1
    have e2 := ih2 n4 m4 p4 i2
    rw [srt_eq.2 e1, p3] at c2
    injection c2 with c2
    subst c2
    exact (e2.cons _).trans p5.symm

/-! ### Subtrees of a graph -/

variable {g : Array (List Nat)} {r : Nat} {F : Forest}

/-- The subtree of `u`. -/
def subtree (r : Nat) (F : Forest) (u : Nat) : Forest := Forest.tree u ((Forest.tree r F).under u)

theorem subtree_mem (hg : IsTree g) (h : Rooted g r F) {u x : Nat} (hu : u < g.size) : x ∈ (subtree r F u).pre ↔ Anc g r u x := by
  rw [subtree, tree_pre, List.mem_cons]
  constructor
  · intro hx
    have hxs : x < g.size := by
      rcases hx with rfl | hx
      · exact hu
      · exact (h.tree_mem x).1 (Forest.under_sub ((h.tree_mem u).2 hu) hx)
    exact (h.anc_iff hg hxs).2 ((under_tree_mem h hu hxs).2 hx)
  · rintro ⟨p, hp, hup⟩
    have hxs := path_end_lt hg h.lt hp
    rw [(h.path_iff hg hxs).1 hp] at hup
    exact (under_tree_mem h hu hxs).1 hup

theorem subtree_nodup (h : Rooted g r F) {u : Nat} (hu : u < g.size) : (subtree r F u).pre.Nodup := by
  rw [subtree, tree_pre]
  exact Forest.under_nodup h.tree_nodup ((h.tree_mem u).2 hu)

theorem subtree_isPath (h : Rooted g r F) {u x : Nat} (hu : u < g.size) (hx : x ∈ (subtree r F u).pre) : IsPath g u x ((subtree r F u).path x) := by
  have hf := Forest.under_fits h.tree_fits ((h.tree_mem u).2 hu)
  obtain ⟨c1, q, c2, c3⟩ := Forest.path_chain (F := subtree r F u) (p := (Forest.tree r F).par none u) ⟨hu, hf.2.1, hf.2.2, trivial⟩ x hx
  have : q = u := by simpa [subtree, Forest.tree, Forest.roots] using c2
  subst this
  exact ⟨c3, Forest.path_last hx, Forest.path_nodup (subtree_nodup h hu) x, c1⟩

/-- Adjacency is comparison of paths. -/
theorem adj_path (hg : IsTree g) {u x y : Nat} (hu : u < g.size) {p q : List Nat} (hp : IsPath g u x p) (hq : IsPath g u y q) : E g x y ↔ q = p ++ [y] ∨ p = q ++ [x] := by
  have key : ∀ {x y : Nat} {p q : List Nat}, IsPath g u x p → IsPath g u y q → q = p ++ [y] → E g x y := by
    intro x y p q hp hq e
    have := hq.chain
    rw [e, List.isChain_append] at this
    exact this.2.2 x hp.last y (by simp)
  constructor
  · intro he
    by_cases hc : ∀ z, p.dropLast.getLast? = some z → z ≠ y
    · have := path_extend hg hp he hc
      exact Or.inl ((hg.path u y hu (path_end_lt hg hu hq)).unique hq this)
    · push Not at hc
      obtain ⟨z, h1, rfl⟩ := hc
      right
      have hne : p ≠ [] := by rintro rfl; simpa using hp.head
      have hpx : p = p.dropLast ++ [x] := by
        have h2 := List.dropLast_append_getLast hne
        have h3 := hp.last
        rw [List.getLast?_eq_getLast_of_ne_nil hne] at h3
        injection h3 with h3
        rw [h3] at h2
        exact h2.symm
      have hd : IsPath g u z p.dropLast := by
        have hne' : p.dropLast ≠ [] := by intro e; rw [e] at h1; simp at h1
        refine ⟨?_, h1, hp.nodup.sublist (List.dropLast_sublist p), ?_⟩
        · have := hp.head
          rw [hpx, List.head?_append_of_ne_nil _ hne'] at this
          exact this
        · have := hp.chain
          rw [hpx, List.isChain_append] at this
          exact this.1
      rw [(hg.path u z hu (path_end_lt hg hu hq)).unique hq hd]
      exact hpx
  · rintro (e | e)
    · exact key hp hq e
    · exact hg.symm _ _ (key hq hp e)

theorem map_eq_iff {A : List Nat} {f : Nat → Nat} (hf : ∀ x ∈ A, ∀ y ∈ A, f x = f y → x = y) : ∀ {l m : List Nat}, (∀ x ∈ l, x ∈ A) → (∀ x ∈ m, x ∈ A) → l.map f = m.map f → l = m := by
  intro l
  induction l with
  | nil => intro m _ _ h; cases m with
    | nil => rfl
    | cons _ _ => simp at h
  | cons a l ih =>
    intro m h1 h2 h
    cases m with
    | nil => simp at h
    | cons b m =>
      rw [List.map_cons, List.map_cons] at h
      injection h with h3 h4
      rw [hf a (h1 a (by simp)) b (h2 b (by simp)) h3, ih (fun x hx => h1 x (by simp [hx])) (fun x hx => h2 x (by simp [hx])) h4]

/-- Isomorphisms of subtrees are isomorphisms of the forests. -/
theorem subtree_iso {h : Array (List Nat)} {s : Nat} {G : Forest} (hg : IsTree g) (hh : IsTree h) (hF : Rooted g r F) (hG : Rooted h s G) {u v : Nat} (hu : u < g.size) (hv : v < h.size) (f : Nat → Nat) :
    FIso (subtree r F u) (subtree s G v) f ↔ IsSubtreeIso g r u h s v f := by
  have huA : u ∈ (subtree r F u).pre := by rw [subtree, tree_pre]; simp
  have hpu : (subtree r F u).path u = [u] := by rw [subtree, Forest.tree, Forest.path, if_pos rfl]
  constructor
  · intro hf
    have hfu : f u = v := by
      have e := hf.path u huA
      rw [hpu] at e
      have := (subtree_isPath hG hv (hf.maps u huA)).head
      rw [e] at this
      simpa using this
    refine ⟨fun x hx => ?_, fun x y hx hy => ?_, fun y hy => ?_, hfu, fun x y hx hy => ?_⟩
    · exact (subtree_mem hh hG hv).1 (hf.maps x ((subtree_mem hg hF hu).2 hx))
    · exact hf.inj x ((subtree_mem hg hF hu).2 hx) y ((subtree_mem hg hF hu).2 hy)
    · obtain ⟨x, h1, h2⟩ := hf.surj y ((subtree_mem hh hG hv).2 hy)
      exact ⟨x, (subtree_mem hg hF hu).1 h1, h2⟩
    · rw [← subtree_mem hg hF hu] at hx hy
      rw [adj_path hg hu (subtree_isPath hF hu hx) (subtree_isPath hF hu hy), adj_path hh hv (subtree_isPath hG hv (hf.maps x hx)) (subtree_isPath hG hv (hf.maps y hy)), hf.path x hx, hf.path y hy]
      have key : ∀ x y, x ∈ (subtree r F u).pre → y ∈ (subtree r F u).pre → ((subtree r F u).path y = (subtree r F u).path x ++ [y] ↔ ((subtree r F u).path y).map f = ((subtree r F u).path x).map f ++ [f y]) := by
        intro x y hx hy
        constructor
        · intro e; rw [e]; simp
        · intro e
          refine map_eq_iff hf.inj (fun a ha => Forest.path_sub ha) (fun a ha => ?_) (by rw [e]; simp)
          rcases List.mem_append.1 ha with ha | ha
          · exact Forest.path_sub ha
          · rw [List.mem_singleton] at ha; rw [ha]; exact hy
      rw [key x y hx hy, key y x hy hx]
  · intro hf
    have mem : ∀ x, x ∈ (subtree r F u).pre → f x ∈ (subtree s G v).pre := fun x hx => (subtree_mem hh hG hv).2 (hf.maps x ((subtree_mem hg hF hu).1 hx))
    refine ⟨mem, fun x hx y hy => hf.inj x y ((subtree_mem hg hF hu).1 hx) ((subtree_mem hg hF hu).1 hy), fun y hy => ?_, fun x hx => ?_⟩
    · obtain ⟨x, h1, h2⟩ := hf.surj y ((subtree_mem hh hG hv).1 hy)
      exact ⟨x, (subtree_mem hg hF hu).2 h1, h2⟩
    · have hp := subtree_isPath hF hu hx
      have hq := subtree_isPath hG hv (mem x hx)
      refine (hh.path v (f x) hv (path_end_lt hh hv hq)).unique hq ⟨?_, ?_, ?_, ?_⟩
      · rw [List.head?_map, hp.head]; simp [hf.root]
      · rw [List.getLast?_map, hp.last]; rfl
      · rw [List.nodup_map_iff_inj_on hp.nodup]
        exact fun a ha b hb => hf.inj a b ((subtree_mem hg hF hu).1 (Forest.path_sub ha)) ((subtree_mem hg hF hu).1 (Forest.path_sub hb))
      · rw [List.isChain_map]
        refine hp.chain.imp_of_mem_imp fun a b ha hb he => ?_
        exact (hf.edge a b ((subtree_mem hg hF hu).1 (Forest.path_sub ha)) ((subtree_mem hg hF hu).1 (Forest.path_sub hb))).1 he

end Tree
