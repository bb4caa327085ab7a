import Verif.Proof.MergeHistorySim
import Mathlib.Data.List.Perm.Basic
import Mathlib.Data.List.Perm.Lattice

namespace MergeHistory
open Cxx
open UnionFind (Connected)

theorem climb_tot {o : Obj} (w : WF o) {i t : Nat} (hi : i < o.n) :
    Tot (loop (climbStep o t) o.g.size i) (fun x => Anc o i x ∧ cr o x ≤ t ∧ ∀ p, par o x = some p → t < cr o p) := by
  have nm := w.nm
  refine Tot.loop (P := fun x => Anc o i x ∧ cr o x ≤ t) (fun x => o.g.size - x) ?_ ⟨.refl, by rw [w.leaf i hi]; omega⟩ (by omega)
  rintro x ⟨h1, h2⟩
  have hx : x < o.g.size := h1.lt w (by omega)
  unfold climbStep
  rw [rd_at none (by rw [w.psz]; exact hx), ok_bind]
  have hpar : at' none o.parent x = par o x := rfl
  rw [hpar]
  cases hp : par o x with
  | none =>
    unfold climbTo
    rw [pure_eq]
    refine tot_ok.mpr ⟨h1, h2, ?_⟩
    intro p h
    cases h
  | some p =>
    have hw := w.par x p hp
    unfold climbTo
    dsimp only
    rw [rd_at 0 (by rw [w.csz]; exact hw.2.1), ok_bind, pure_eq]
    have hcr : at' 0 o.created p = cr o p := rfl
    rw [hcr]
    by_cases hc : cr o p ≤ t
    · rw [if_pos hc]
      exact tot_ok.mpr ⟨⟨h1.tail hp, hc⟩, by omega⟩
    · rw [if_neg hc]
      refine tot_ok.mpr ⟨h1, h2, ?_⟩
      intro q h
      obtain rfl := Option.some.inj h
      omega

theorem leaves_tot {o : Obj} (w : WF o) : ∀ k (vs res : List Nat), (∀ v ∈ vs, v < k ∧ v < o.g.size) → vs.Nodup →
    (∀ v ∈ vs, ∀ v' ∈ vs, ∀ j, Anc o j v → Anc o j v' → v = v') →
    Tot (leaves o k vs res) (fun r => ∃ ls, r = res ++ ls ∧ ls.Nodup ∧ ∀ j, j ∈ ls ↔ j < o.n ∧ ∃ v ∈ vs, Anc o j v) := by
  have leafpar : ∀ j v, v < o.n → Anc o j v → j = v := by
    intro j v hv h
    rcases Relation.ReflTransGen.cases_tail h with e | ⟨b, -, hb⟩
    · exact e.symm
    · have := w.par b v hb
      omega
  intro k
  induction k with
  | zero =>
    intro vs res hlt _ _
    cases vs with
    | nil =>
      unfold leaves
      rw [pure_eq]
      exact tot_ok.mpr ⟨[], by simp, by simp, by simp⟩
    | cons v vs =>
      have := (hlt v (by simp)).1
      omega
  | succ k ihk =>
    intro vs
    induction vs with
    | nil =>
      intro res _ _ _
      unfold leaves
      rw [pure_eq]
      exact tot_ok.mpr ⟨[], by simp, by simp, by simp⟩
    | cons v vs ihv =>
      intro res hlt hnd hdis
      have hv := hlt v (by simp)
      rw [List.nodup_cons] at hnd
      have rest : ∀ res', Tot (leaves o (k + 1) vs res') (fun r => ∃ ls, r = res' ++ ls ∧ ls.Nodup ∧ ∀ j, j ∈ ls ↔ j < o.n ∧ ∃ v ∈ vs, Anc o j v) :=
        fun res' => ihv res' (fun x hx => hlt x (by simp [hx])) hnd.2 fun x hx y hy => hdis x (by simp [hx]) y (by simp [hy])
      -- putting the two parts together
      have glue : ∀ (a b : List Nat), a.Nodup → b.Nodup → (∀ j, j ∈ a ↔ j < o.n ∧ Anc o j v) → (∀ j, j ∈ b ↔ j < o.n ∧ ∃ v ∈ vs, Anc o j v) →
          (a ++ b).Nodup ∧ ∀ j, j ∈ a ++ b ↔ j < o.n ∧ ∃ x ∈ v :: vs, Anc o j x := by
        intro a b na nb ha hb
        constructor
        · rw [List.nodup_append]
          refine ⟨na, nb, ?_⟩
          intro x hx y hy e
          subst e
          obtain ⟨-, z, hz, hz2⟩ := (hb x).mp hy
          have := hdis v (by simp) z (by simp [hz]) x ((ha x).mp hx).2 hz2
          subst this
          exact hnd.1 hz
        · intro j
          rw [List.mem_append, ha, hb]
          constructor
          · rintro (⟨h1, h2⟩ | ⟨h1, z, h2, h3⟩)
            · exact ⟨h1, v, by simp, h2⟩
            · exact ⟨h1, z, by simp [h2], h3⟩
          · rintro ⟨h1, z, h2, h3⟩
            rcases List.mem_cons.mp h2 with rfl | h2
            · exact .inl ⟨h1, h3⟩
            · exact .inr ⟨h1, z, h2, h3⟩
      unfold leaves
      by_cases hl : v < o.n
      · rw [if_pos hl]
        refine (rest _).mono ?_
        rintro r ⟨ls, rfl, h1, h2⟩
        obtain ⟨g1, g2⟩ := glue [v] ls (by simp) h1 (fun j => by
          rw [List.mem_singleton]
          constructor
          · rintro rfl
            exact ⟨hl, .refl⟩
          · rintro ⟨-, h⟩
            exact leafpar j v hl h) h2
        exact ⟨[v] ++ ls, by simp, g1, g2⟩
      · rw [if_neg hl, rd_at [] hv.2, ok_bind]
        obtain ⟨k1, k2⟩ := w.kids v (by omega) hv.2
        refine (ihk (at' [] o.g v) res ?_ k1 ?_).bind ?_
        · intro c hc
          have := w.par c v ((k2 c).mp hc)
          omega
        · intro c hc c' hc' j h1 h2
          have p1 := (k2 c).mp hc
          have p2 := (k2 c').mp hc'
          have key : ∀ c c', par o c = some v → par o c' = some v → Anc o c c' → c = c' := by
            intro c c' p1 p2 h
            by_contra hne
            obtain ⟨p, q1, q2⟩ := h.step hne
            rw [p1] at q1
            obtain rfl := Option.some.inj q1
            have := (q2.le w).1
            have := w.par c' v p2
            omega
          rcases h1.chain h2 with h | h
          · exact key c c' p1 p2 h
          · exact (key c' c p2 p1 h).symm
        · rintro r ⟨la, rfl, a1, a2⟩
          refine (rest _).mono ?_
          rintro r ⟨lb, rfl, b1, b2⟩
          obtain ⟨g1, g2⟩ := glue la lb a1 b1 (fun j => by
            rw [a2]
            constructor
            · rintro ⟨h1, c, h2, h3⟩
              exact ⟨h1, h3.tail ((k2 c).mp h2)⟩
            · rintro ⟨h1, h2⟩
              refine ⟨h1, ?_⟩
              rcases Relation.ReflTransGen.cases_tail h2 with e | ⟨b, hb, hbv⟩
              · omega
              · exact ⟨b, (k2 b).mpr hbv, hb⟩) b2
          exact ⟨la ++ lb, by simp, g1, g2⟩

/-- `group(i, t)` is the list of the vertices connected to `i` by the first `t` calls. -/
theorem group_tot {o : Obj} {hist : List (List (Nat × Nat))} (inv : Inv o hist) {i t : Nat} (hi : i < o.n) :
    Tot (group o i t) (fun l => l.Nodup ∧ ∀ j, j ∈ l ↔ j < o.n ∧ Connected (edgesUpTo hist t) i j) := by
  have w := inv.wf
  have nm := w.nm
  unfold group
  refine (climb_tot w (t := t) hi).bind ?_
  rintro x ⟨h1, h2, h3⟩
  have hx := h1.lt w (by omega)
  refine (leaves_tot w (o.g.size + 1) [x] [] (by simp; omega) (by simp) (by simp)).mono ?_
  rintro r ⟨ls, rfl, k1, k2⟩
  refine ⟨k1, ?_⟩
  intro j
  rw [k2]
  constructor
  · rintro ⟨hj, v, hv, hjv⟩
    rw [List.mem_singleton] at hv
    subst hv
    exact ⟨hj, (inv.conn t i j hi hj).mpr (.inr ⟨v, h1, hjv, h2⟩)⟩
  · rintro ⟨hj, hc⟩
    refine ⟨hj, x, by simp, ?_⟩
    rcases (inv.conn t i j hi hj).mp hc with rfl | ⟨p, p1, p2, p3⟩
    · exact h1
    · rcases h1.chain p1 with h | h
      · by_cases e : x = p
        · rw [e]
          exact p2
        · obtain ⟨q, q1, q2⟩ := h.step e
          have := h3 q q1
          have := (q2.le w).2
          omega
      · exact p2.trans h

theorem mark_tot {n : Nat} (l : List Nat) (s : Array Bool) (hs : s.size = n) (hl : ∀ v ∈ l, v < n) :
    Tot (forEach l s (fun s v => wr s v true)) (fun s' => s'.size = n ∧ ∀ j, at' false s' j = true ↔ at' false s j = true ∨ j ∈ l) := by
  refine (Tot.forEach (s := s) (P := fun pre (s' : Array Bool) => s'.size = n ∧ ∀ j, at' false s' j = true ↔ at' false s j = true ∨ j ∈ pre) ⟨hs, by simp⟩ ?_).mono ?_
  · rintro pre v post s' hx ⟨h1, h2⟩
    have hv := hl v (by rw [hx]; simp)
    rw [wr_eq (by omega)]
    refine tot_ok.mpr ⟨by simpa using h1, ?_⟩
    intro j
    rw [at_set false (by omega)]
    by_cases e : v = j
    · subst e
      simp
    · rw [if_neg e, h2]
      have : j ≠ v := Ne.symm e
      simp [this]
  · intro s' h
    exact h

/-- `groups(t)` is the list of the classes. -/
theorem groups_tot {o : Obj} {hist : List (List (Nat × Nat))} (inv : Inv o hist) {t : Nat} :
    Tot (groups o t) (fun gs => (∀ l ∈ gs, l ≠ []) ∧ gs.flatten.Perm (List.range o.n) ∧
      ∀ l ∈ gs, ∀ i ∈ l, ∀ j, j < o.n → (j ∈ l ↔ Connected (edgesUpTo hist t) i j)) := by
  unfold groups
  refine (Tot.forUp (lo := 0) (hi := o.n) (P := fun i (st : List (List Nat) × Array Bool) => st.2.size = o.n ∧ (∀ j, at' false st.2 j = true ↔ j ∈ st.1.flatten) ∧
    (∀ j, j < i → j ∈ st.1.flatten) ∧ st.1.flatten.Nodup ∧ (∀ l ∈ st.1, l ≠ []) ∧ (∀ j ∈ st.1.flatten, j < o.n) ∧
    ∀ l ∈ st.1, ∀ i ∈ l, ∀ j, j < o.n → (j ∈ l ↔ Connected (edgesUpTo hist t) i j)) (by omega) ?_ ?_).bind ?_
  · refine ⟨by simp, ?_, by simp, by simp, by simp, by simp, by simp⟩
    intro j
    unfold at'
    simp only [Array.getElem?_replicate]
    split_ifs <;> simp
  · rintro i ⟨gs, s⟩ - hi ⟨h1, h2, h3, h4, h5, h6, h7⟩
    dsimp only at h1 h2 h3 h4 h5 h6 h7
    unfold groupsStep
    dsimp only
    rw [rd_at false (by omega), ok_bind]
    by_cases hb : at' false s i = true
    · rw [hb, if_pos rfl, pure_eq]
      refine tot_ok.mpr ⟨h1, h2, ?_, h4, h5, h6, h7⟩
      intro j hj
      rcases Nat.lt_succ_iff_lt_or_eq.mp hj with h | rfl
      · exact h3 j h
      · exact (h2 _).mp hb
    · rw [if_neg hb]
      refine (group_tot inv (t := t) hi).bind ?_
      rintro l ⟨l1, l2⟩
      refine (mark_tot l s h1 fun v hv => ((l2 v).mp hv).1).bind ?_
      rintro s' ⟨m1, m2⟩
      rw [pure_eq]
      have hil : i ∈ l := (l2 i).mpr ⟨hi, .refl _⟩
      have hflat : ∀ j, j ∈ (gs ++ [l]).flatten ↔ j ∈ gs.flatten ∨ j ∈ l := by
        intro j
        rw [List.flatten_append, List.mem_append]
        simp
      refine tot_ok.mpr ⟨m1, ?_, ?_, ?_, ?_, ?_, ?_⟩
      · intro j
        rw [m2, h2, hflat]
      · intro j hj
        rw [hflat]
        rcases Nat.lt_succ_iff_lt_or_eq.mp hj with h | rfl
        · exact .inl (h3 j h)
        · exact .inr hil
      · rw [List.flatten_append, List.nodup_append]
        refine ⟨h4, by simpa using l1, ?_⟩
        intro x hx y hy e
        subst e
        obtain ⟨l', hl', hxl⟩ := List.mem_flatten.mp hx
        have hxm : x ∈ l := by simpa using hy
        have hc := ((l2 x).mp hxm).2
        have : i ∈ l' := (h7 l' hl' x hxl i hi).mpr hc.symm
        exact hb ((h2 i).mpr (List.mem_flatten.mpr ⟨l', hl', this⟩))
      · intro l' hl'
        rcases List.mem_append.mp hl' with h | h
        · exact h5 l' h
        · rw [List.mem_singleton.mp h]
          exact List.ne_nil_of_mem hil
      · intro j hj
        rcases (hflat j).mp hj with h | h
        · exact h6 j h
        · exact ((l2 j).mp h).1
      · intro l' hl'
        rcases List.mem_append.mp hl' with h | h
        · exact h7 l' h
        · rw [List.mem_singleton.mp h]
          intro x hx j hj
          have hxc := ((l2 x).mp hx).2
          rw [l2]
          constructor
          · rintro ⟨-, h⟩
            exact .trans _ _ _ hxc.symm h
          · intro h
            exact ⟨hj, .trans _ _ _ hxc h⟩
  · rintro ⟨gs, s⟩ ⟨h1, h2, h3, h4, h5, h6, h7⟩
    dsimp only at h1 h2 h3 h4 h5 h6 h7
    rw [pure_eq]
    refine tot_ok.mpr ⟨h5, ?_, h7⟩
    rw [List.perm_ext_iff_of_nodup h4 List.nodup_range]
    intro j
    rw [List.mem_range]
    exact ⟨h6 j, h3 j⟩

/-- `same(u, v, t, get_lca)`, if `a` is the lowest common ancestor whenever there is one. -/
theorem same_tot {o : Obj} {hist : List (List (Nat × Nat))} (inv : Inv o hist) {u v t a : Nat} (hu : u < o.n) (hv : v < o.n)
    (ha : Connected (edgesUpTo hist hist.length) u v → Anc o u a ∧ Anc o v a ∧ ∀ b, Anc o u b → Anc o v b → Anc o a b) :
    Tot (same o u v t a) (fun b => b = true ↔ Connected (edgesUpTo hist t) u v) := by
  have w := inv.wf
  have nm := w.nm
  unfold same
  rw [leader_ok w.lsz hu, ok_bind, leader_ok w.lsz hv, ok_bind]
  by_cases e : lb o u = lb o v
  · rw [if_neg (not_not.mpr e)]
    obtain ⟨a1, a2, a3⟩ := ha ((inv.lab u v hu hv).mpr e)
    rw [rd_at 0 (by rw [w.csz]; exact a1.lt w (by omega)), ok_bind, pure_eq]
    refine tot_ok.mpr ?_
    rw [decide_eq_true_iff, inv.conn t u v hu hv]
    constructor
    · intro h
      exact .inr ⟨a, a1, a2, h⟩
    · rintro (rfl | ⟨p, p1, p2, p3⟩)
      · have : cr o a ≤ cr o u := ((a3 u .refl .refl).le w).2
        rw [w.leaf u hu] at this
        show cr o a ≤ t
        omega
      · have : cr o a ≤ cr o p := ((a3 p p1 p2).le w).2
        show cr o a ≤ t
        omega
  · rw [if_pos e, pure_eq]
    refine tot_ok.mpr ?_
    constructor
    · intro h
      cases h
    · intro h
      exfalso
      apply e
      rcases (inv.conn t u v hu hv).mp h with rfl | ⟨p, p1, p2, -⟩
      · rfl
      · exact inv.below u v p hu hv p1 p2

end MergeHistory
