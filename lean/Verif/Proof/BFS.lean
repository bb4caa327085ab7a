import Verif.Proof.GraphBasic
import Mathlib.Data.List.Perm.Subperm

/-! # Proofs about `library/graph/bfs.hpp` -/

namespace BFS
open Cxx Graph

/-- Distance stored for a vertex. -/
abbrev d (dist : Array Int) (v : Nat) : Int := at' (-1) dist v

/-- The number of vertices not reached yet. -/
def unv (dist : Array Int) : Nat := ((Finset.range dist.size).filter fun v => d dist v = -1).card

theorem unv_set {dist : Array Int} {v : Nat} (hv : v < dist.size) (h : d dist v = -1) {x : Int} (hx : x ≠ -1) : unv (dist.setIfInBounds v x) + 1 = unv dist := by
  have hm : v ∈ (Finset.range dist.size).filter fun v => d dist v = -1 := by simp [hv, h]
  unfold unv
  rw [← Finset.card_erase_add_one hm]
  congr 2
  ext w
  simp only [Finset.mem_filter, Finset.mem_range, Finset.mem_erase, Array.size_setIfInBounds, d, at_set' (-1) hv]
  by_cases hw : w = v
  · subst hw
    simp [hx]
  · rw [if_neg hw]
    simp [hw]

/-- Everything stored is the length of a walk from a source. -/
def Sound (g : Array (List Nat)) (src : List Nat) (dist : Array Int) : Prop :=
  ∀ v, d dist v = -1 ∨ ∃ k : Nat, d dist v = k ∧ ∃ s ∈ src, Walk g k s v

/-- Invariant of the main loop. -/
structure Inv (g : Array (List Nat)) (src : List Nat) (s : Array Int × List Nat) : Prop where
  size : s.1.size = g.size
  sound : Sound g src s.1
  src : ∀ v ∈ src, d s.1 v = 0
  vis : ∀ v ∈ s.2, d s.1 v ≠ -1
  lt : ∀ v ∈ s.2, v < g.size
  closed : ∀ u, d s.1 u ≠ -1 → u ∉ s.2 → ∀ v, E g u v → d s.1 v ≠ -1 ∧ d s.1 v ≤ d s.1 u + 1
  sorted : s.2.Pairwise fun a b => d s.1 a ≤ d s.1 b
  head : ∀ u q, s.2 = u :: q → ∀ v, d s.1 v ≤ d s.1 u + 1

/-- Invariant of the loop over the neighbours of `u`. -/
structure InvN (g : Array (List Nat)) (src : List Nat) (u : Nat) (pre : List Nat) (s : Array Int × List Nat) : Prop where
  size : s.1.size = g.size
  sound : Sound g src s.1
  src : ∀ v ∈ src, d s.1 v = 0
  vis : ∀ v ∈ s.2, d s.1 v ≠ -1
  lt : ∀ v ∈ s.2, v < g.size
  ge : ∀ v ∈ s.2, d s.1 u ≤ d s.1 v
  visu : d s.1 u ≠ -1
  closed : ∀ w, d s.1 w ≠ -1 → w ∉ s.2 → w ≠ u → ∀ v, E g w v → d s.1 v ≠ -1 ∧ d s.1 v ≤ d s.1 w + 1
  closedu : ∀ v ∈ pre, d s.1 v ≠ -1
  sorted : s.2.Pairwise fun a b => d s.1 a ≤ d s.1 b
  head : ∀ v, d s.1 v ≤ d s.1 u + 1

theorem visit_tot {g : Array (List Nat)} (hg : Valid g) {src : List Nat} {u v : Nat} (he : E g u v) {pre : List Nat} {s : Array Int × List Nat}
    (h : InvN g src u pre s) : Tot (visit u s v) fun t => InvN g src u (pre ++ [v]) t ∧ t.2.length + unv t.1 = s.2.length + unv s.1 := by
  obtain ⟨a, q⟩ := s
  have hv := hg _ _ he
  have hu := he.lt
  have hsz := h.size
  dsimp only at hsz
  rw [visit]
  dsimp only
  rw [rd_at (-1) (by omega), ok_bind]
  by_cases hx : at' (-1) a v = -1
  · rw [if_pos hx, rd_at (-1) (by omega), ok_bind, wr_eq (by omega), ok_bind]
    have huv : u ≠ v := fun e => h.visu (by rw [e]; exact hx)
    obtain ⟨k, hk, s, hs, hw⟩ := (h.sound u).resolve_left h.visu
    dsimp only at hk
    obtain ⟨y, hy⟩ : ∃ y, y = at' (-1) a u + 1 := ⟨_, rfl⟩
    have hyk : y = (k + 1 : Nat) := by rw [hy]; push_cast; rw [← hk]
    have hset : ∀ w, d (a.setIfInBounds v y) w = if w = v then y else d a w := fun w => at_set' (-1) (show v < a.size by omega) y w
    rw [← hy]
    have hvq : v ∉ q := fun hm => h.vis v hm hx
    have hdu : d (a.setIfInBounds v y) u = k := by rw [hset, if_neg huv]; exact hk
    refine Tot.pure ⟨⟨by simpa using hsz, ?_, ?_, ?_, ?_, ?_, ?_, ?_, ?_, ?_, ?_⟩, ?_⟩
    · intro w
      dsimp only
      rw [hset]
      split
      · rename_i e
        subst e
        exact Or.inr ⟨k + 1, hyk, s, hs, u, hw, he⟩
      · exact h.sound w
    · intro w hw
      dsimp only
      rw [hset]
      split
      · rename_i e
        subst e
        have := h.src w hw
        dsimp only [d] at this
        omega
      · exact h.src w hw
    · intro w hw
      dsimp only
      rw [hset]
      split
      · omega
      · rename_i hne
        simp only [List.mem_append, List.mem_singleton, hne, or_false] at hw
        exact h.vis w hw
    · intro w hw
      simp only [List.mem_append, List.mem_singleton] at hw
      rcases hw with hw | rfl
      · exact h.lt w hw
      · exact hv
    · intro w hw
      dsimp only
      rw [hdu, hset]
      split
      · omega
      · rename_i hne
        simp only [List.mem_append, List.mem_singleton, hne, or_false] at hw
        have := h.ge w hw
        dsimp only at this
        omega
    · dsimp only
      rw [hdu]
      omega
    · intro w hw hwq hwu x hwx
      simp only [List.mem_append, List.mem_singleton, not_or] at hwq
      dsimp only at hw ⊢
      rw [hset, if_neg hwq.2] at hw
      rw [hset, hset, if_neg hwq.2]
      have := h.closed w hw hwq.1 hwu x hwx
      dsimp only at this
      split
      · rename_i e
        subst e
        exact absurd hx this.1
      · exact this
    · intro w hw
      dsimp only
      rw [hset]
      split
      · omega
      · rename_i hne
        simp only [List.mem_append, List.mem_singleton, hne, or_false] at hw
        exact h.closedu w hw
    · dsimp only
      rw [List.pairwise_append]
      refine ⟨h.sorted.imp_of_mem ?_, by simp, ?_⟩
      · intro x y' hx' hy' hxy
        have hxv : x ≠ v := fun e => hvq (e ▸ hx')
        have hyv : y' ≠ v := fun e => hvq (e ▸ hy')
        rw [hset, hset, if_neg hxv, if_neg hyv]
        exact hxy
      · intro x hx' y' hy'
        simp only [List.mem_singleton] at hy'
        subst hy'
        have hxv : x ≠ y' := fun e => hvq (e ▸ hx')
        rw [hset, hset, if_pos rfl, if_neg hxv, hy]
        exact h.head x
    · intro w
      dsimp only
      rw [hdu, hset]
      split
      · omega
      · have := h.head w
        dsimp only at this
        omega
    · have := unv_set (dist := a) (v := v) (by omega) hx (x := y) (by omega)
      dsimp only
      rw [List.length_append, List.length_singleton]
      omega
  · rw [if_neg hx]
    refine Tot.pure ⟨⟨h.size, h.sound, h.src, h.vis, h.lt, h.ge, h.visu, h.closed, ?_, h.sorted, h.head⟩, rfl⟩
    intro w hw
    simp only [List.mem_append, List.mem_singleton] at hw
    rcases hw with hw | rfl
    · exact h.closedu w hw
    · exact hx

theorem init_tot (g : Array (List Nat)) (src : List Nat) (hs : ∀ s ∈ src, s < g.size) :
    Tot (forEach src (Array.replicate g.size (-1 : Int)) fun d v => wr d v 0) fun a => a.size = g.size ∧ ∀ v, d a v = if v ∈ src then 0 else -1 := by
  refine Tot.forEach (P := fun pre (a : Array Int) => a.size = g.size ∧ ∀ v, d a v = if v ∈ pre then 0 else -1) ⟨by simp, fun v => ?_⟩ ?_
  · by_cases h : v < g.size <;> simp [at', h]
  · rintro pre v post a he ⟨h1, h2⟩
    have hv := hs v (by simp [he])
    rw [wr_eq (by omega)]
    refine Tot.pure ⟨by simpa using h1, fun w => ?_⟩
    rw [d, at_set' (-1) (by omega)]
    have := h2 w
    by_cases hw : w = v
    · simp [hw]
    · rw [if_neg hw]
      simpa [hw] using this

/-- Distances are right. -/
def Correct (g : Array (List Nat)) (src : List Nat) (dist : Array Int) : Prop :=
  dist.size = g.size ∧ ∀ v < g.size, (dist[v]? = some (-1) ∧ ∀ s ∈ src, ¬ Reach g s v) ∨
    ∃ k : Nat, dist[v]? = some (k : Int) ∧ IsLeast {k | ∃ s ∈ src, Walk g k s v} k

theorem inv_pop {g : Array (List Nat)} {src : List Nat} {a : Array Int} {u : Nat} {dq : List Nat} (h : Inv g src (a, u :: dq)) : InvN g src u [] (a, dq) := by
  have hsort := h.sorted
  dsimp only at hsort
  rw [List.pairwise_cons] at hsort
  refine ⟨h.size, h.sound, h.src, fun v hv => h.vis v (by simp [hv]), fun v hv => h.lt v (by simp [hv]), fun v hv => ?_, h.vis u (by simp), ?_, by simp, ?_, ?_⟩
  · exact hsort.1 v hv
  · intro w h1 h2 h3
    exact h.closed w h1 (by simp [h2, h3])
  · exact hsort.2
  · exact h.head u dq rfl

theorem inv_push {g : Array (List Nat)} {src : List Nat} {u : Nat} {pre : List Nat} {t : Array Int × List Nat} (ht : InvN g src u pre t) (hpre : ∀ v, E g u v → d t.1 v ≠ -1) : Inv g src t := by
  refine ⟨ht.size, ht.sound, ht.src, ht.vis, ht.lt, ?_, ht.sorted, ?_⟩
  · intro w h1 h2 v hv
    by_cases hw : w = u
    · subst hw
      exact ⟨hpre v hv, ht.head v⟩
    · exact ht.closed w h1 h2 hw v hv
  · intro u' q e v
    have h1 := ht.head v
    have h2 := ht.ge u' (by rw [e]; simp)
    omega

theorem inv_init {g : Array (List Nat)} {src : List Nat} (hs : ∀ s ∈ src, s < g.size) {a : Array Int} (h1 : a.size = g.size) (h2 : ∀ v, d a v = if v ∈ src then 0 else -1) : Inv g src (a, src) := by
  refine ⟨h1, fun v => ?_, fun v hv => ?_, fun v hv => ?_, hs, fun u h3 h4 => ?_, ?_, ?_⟩
  · dsimp only
    rw [h2]
    split
    · rename_i hv
      exact Or.inr ⟨0, rfl, v, hv, rfl⟩
    · exact Or.inl rfl
  · dsimp only
    rw [h2, if_pos hv]
  · dsimp only at hv ⊢
    rw [h2, if_pos hv]
    omega
  · dsimp only at h3 h4
    rw [h2, if_neg h4] at h3
    exact absurd rfl h3
  · refine List.Pairwise.imp_of_mem ?_ (List.pairwise_of_forall (R := fun _ _ => True) (fun _ _ => trivial))
    intro x y hx hy _
    dsimp only at hx hy ⊢
    rw [h2, h2, if_pos hx, if_pos hy]
  · intro u q e v
    dsimp only at e ⊢
    rw [h2, h2, if_pos (by rw [e]; simp : u ∈ src)]
    split <;> omega

theorem unv_le {a : Array Int} : unv a ≤ a.size := by
  unfold unv
  refine le_trans (Finset.card_filter_le _ _) ?_
  simp

theorem correct_of_inv {g : Array (List Nat)} {src : List Nat} {a : Array Int} (h : Inv g src (a, [])) : Correct g src a := by
  have hle : ∀ k v s, s ∈ src → Walk g k s v → d a v ≠ -1 ∧ d a v ≤ k := by
    intro k
    induction k with
    | zero =>
      rintro v s hs rfl
      have := h.src s hs
      dsimp only at this
      omega
    | succ k ih =>
      rintro v s hs ⟨w, h1, h2⟩
      obtain ⟨g1, g2⟩ := ih w s hs h1
      obtain ⟨g3, g4⟩ := h.closed w g1 (by simp) v h2
      dsimp only at g3 g4
      exact ⟨g3, by omega⟩
  have hsz := h.size
  refine ⟨hsz, fun v hv => ?_⟩
  dsimp only at hsz ⊢
  have hget : a[v]? = some (d a v) := by
    rw [d, at', Array.getElem?_eq_getElem (by omega)]
    rfl
  rcases h.sound v with h0 | ⟨k, hk, hw⟩
  · left
    refine ⟨by rw [hget, h0], fun s hs hr => ?_⟩
    obtain ⟨k, hk⟩ := reach_walk hr
    exact (hle k v s hs hk).1 h0
  · right
    refine ⟨k, by rw [hget, hk], hw, ?_⟩
    rintro k' ⟨s, hs, hw'⟩
    have := (hle k' v s hs hw').2
    dsimp only at hk
    omega

theorem distance_tot (g : Array (List Nat)) (hg : Valid g) (src : List Nat) (hs : ∀ s ∈ src, s < g.size) : Tot (distance g src) (Correct g src) := by
  rw [distance]
  refine Tot.bind (init_tot g src hs) fun a ⟨h1, h2⟩ => ?_
  refine Tot.bind (P := fun (r : Array Int × List Nat) => Inv g src r ∧ r.2 = []) ?_ fun r hr => Tot.pure ?_
  · refine Tot.loop (P := Inv g src) (fun s => s.2.length + unv s.1) ?_ (inv_init hs h1 h2) ?_
    · rintro ⟨a, dq⟩ h
      rw [step]
      cases dq with
      | nil => exact Tot.pure ⟨h, rfl⟩
      | cons u dq =>
        dsimp only
        have hu := h.lt u (by simp)
        rw [rd_some (adj_eq hu), ok_bind]
        refine Tot.bind (P := fun (t : Array Int × List Nat) => InvN g src u (adj g u) t ∧ t.2.length + unv t.1 = dq.length + unv a) ?_ ?_
        · refine Tot.forEach (P := fun pre (t : Array Int × List Nat) => InvN g src u pre t ∧ t.2.length + unv t.1 = dq.length + unv a) ⟨inv_pop h, rfl⟩ ?_
          rintro pre v post t he ⟨h1, h2⟩
          refine (visit_tot hg (by rw [E, he]; simp) h1).mono ?_
          rintro t' ⟨g1, g2⟩
          exact ⟨g1, by omega⟩
        · rintro t ⟨ht, hl⟩
          refine Tot.pure ⟨inv_push ht fun v hv => ht.closedu v hv, ?_⟩
          simp only [List.length_cons]
          omega
    · dsimp only
      have : unv a ≤ a.size := unv_le
      omega
  · obtain ⟨h, hq⟩ := hr
    obtain ⟨a, q⟩ := r
    dsimp only at hq
    subst hq
    exact correct_of_inv h

/-! ### Connected components -/

theorem Reach.symm {g : Array (List Nat)} (hsym : ∀ u v, E g u v → E g v u) {u v : Nat} (h : Reach g u v) : Reach g v u := by
  induction h with
  | refl => exact .refl
  | tail _ h ih => exact Relation.ReflTransGen.head (hsym _ _ h) ih

/-- The components found so far. -/
structure Comps (g : Array (List Nat)) (vis : Array Bool) (res : List (List Nat)) : Prop where
  size : vis.size = g.size
  vis : ∀ v, at' false vis v = true ↔ v ∈ res.flatten
  nodup : res.flatten.Nodup
  comp : ∀ c ∈ res, ∀ u ∈ c, ∀ v, v ∈ c ↔ Reach g u v
  ne : ∀ c ∈ res, c ≠ []

/-- While a component is explored. -/
structure InvC (g : Array (List Nat)) (F : List Nat) (i : Nat) (vis : Array Bool) (dq cmp : List Nat) : Prop where
  size : vis.size = g.size
  vis : ∀ v, at' false vis v = true ↔ v ∈ F ++ cmp ++ dq
  nodup : (F ++ cmp ++ dq).Nodup
  reach : ∀ v ∈ cmp ++ dq, Reach g i v
  start : i ∈ cmp ++ dq

theorem mark_tot {g : Array (List Nat)} (hg : Valid g) {F cmp : List Nat} {i u : Nat} (hsym : ∀ v, E g u v → v ∉ F) (hu : u ∈ cmp)
    {vis : Array Bool} {dq : List Nat} (h : InvC g F i vis dq cmp) :
    Tot (forEach (adj g u) (vis, dq) mark) fun t => InvC g F i t.1 t.2 cmp ∧ (∀ v ∈ dq, v ∈ t.2) ∧ ∀ v, E g u v → v ∈ cmp ++ t.2 := by
  refine Tot.forEach (P := fun pre (t : Array Bool × List Nat) => InvC g F i t.1 t.2 cmp ∧ (∀ v ∈ dq, v ∈ t.2) ∧ ∀ v ∈ pre, v ∈ cmp ++ t.2) ⟨h, fun v hv => hv, by simp⟩ ?_
  rintro pre v post ⟨b, q⟩ he ⟨h1, h2, h3⟩
  have hev : E g u v := by rw [E, he]; simp
  have hv := hg _ _ hev
  have hsz := h1.size
  dsimp only at hsz h1 h2 h3
  rw [mark]
  dsimp only
  rw [rd_at false (by omega), ok_bind, wr_eq (by omega), ok_bind]
  by_cases hb : at' false b v = true
  · have hmem := (h1.vis v).1 hb
    rw [hb]
    refine Tot.pure ⟨⟨by simpa using hsz, fun w => ?_, h1.nodup, h1.reach, h1.start⟩, h2, ?_⟩
    · rw [at_set' false (by omega)]
      split
      · rename_i e
        subst e
        simpa using hmem
      · exact h1.vis w
    · intro w hw
      simp only [List.mem_append, List.mem_singleton] at hw
      rcases hw with hw | rfl
      · exact h3 w hw
      · simp only [List.mem_append] at hmem ⊢
        rcases hmem with (hF | hc) | hq
        · exact absurd hF (hsym w hev)
        · exact Or.inl hc
        · exact Or.inr hq
  · have hnm : v ∉ F ++ cmp ++ q := fun hm => hb ((h1.vis v).2 hm)
    rw [Bool.not_eq_true] at hb
    rw [hb]
    refine Tot.pure ⟨⟨by simpa using hsz, fun w => ?_, ?_, ?_, ?_⟩, ?_, ?_⟩
    · dsimp only
      rw [at_set' false (by omega)]
      split
      · rename_i e
        subst e
        simp
      · rename_i hne
        rw [h1.vis w]
        simp [hne]
    · dsimp only
      rw [show F ++ cmp ++ (if false = true then q else q ++ [v]) = F ++ cmp ++ q ++ [v] by simp, List.nodup_append]
      exact ⟨h1.nodup, by simp, fun x hx y hy e => by simp at hy; subst hy; subst e; exact hnm hx⟩
    · intro w hw
      simp only [Bool.false_eq_true, if_false, List.mem_append, List.mem_singleton] at hw
      rcases hw with hw | hw | rfl
      · exact h1.reach w (by simp [hw])
      · exact h1.reach w (by simp [hw])
      · exact (h1.reach u (by simp [hu])).tail hev
    · have := h1.start
      simp only [Bool.false_eq_true, if_false, List.mem_append, List.mem_singleton] at this ⊢
      tauto
    · intro w hw
      simp [h2 w hw]
    · intro w hw
      simp only [Bool.false_eq_true, if_false, List.mem_append, List.mem_singleton] at hw ⊢
      rcases hw with hw | rfl
      · have := h3 w hw
        simp only [List.mem_append] at this
        tauto
      · simp

theorem component_tot {g : Array (List Nat)} (hg : Valid g) (hsym : ∀ u v, E g u v → E g v u) {vis : Array Bool} {res : List (List Nat)} (h : Comps g vis res)
    {i : Nat} (hi : i < g.size) (hvi : at' false vis i = false) :
    Tot (component g i (vis, res)) fun t => Comps g t.1 t.2 ∧ at' false t.1 i = true ∧ ∀ v, at' false vis v = true → at' false t.1 v = true := by
  have hsz := h.size
  have hiF : i ∉ res.flatten := fun hm => by rw [(h.vis i).2 hm] at hvi; cases hvi
  rw [component]
  dsimp only
  rw [wr_eq (by omega), ok_bind]
  have hclosed : ∀ u v, u ∉ res.flatten → E g u v → v ∉ res.flatten := by
    intro u v hu huv hv
    obtain ⟨c, hc, hvc⟩ := List.mem_flatten.1 hv
    exact hu (List.mem_flatten.2 ⟨c, hc, (h.comp c hc v hvc u).2 (.single (hsym _ _ huv))⟩)
  have hcard : ∀ vis dq cmp, InvC g res.flatten i vis dq cmp → (res.flatten ++ cmp ++ dq).length ≤ g.size := by
    intro vis dq cmp hI
    have hsub : res.flatten ++ cmp ++ dq ⊆ List.range g.size := by
      intro v hv
      have := (hI.vis v).2 hv
      rw [List.mem_range]
      by_contra hn
      rw [at_ge false (by rw [hI.size]; omega)] at this
      cases this
    have := (List.subperm_of_subset hI.nodup hsub).length_le
    simpa using this
  refine Tot.bind (P := fun (r : (Array Bool × List Nat) × List Nat) => InvC g res.flatten i r.1.1 [] r.2 ∧ ∀ u ∈ r.2, ∀ v, E g u v → v ∈ r.2) ?_ fun r hr => Tot.pure ?_
  · refine Tot.loop (P := fun (r : (Array Bool × List Nat) × List Nat) => InvC g res.flatten i r.1.1 r.1.2 r.2 ∧ ∀ u ∈ r.2, ∀ v, E g u v → v ∈ r.2 ++ r.1.2)
      (fun r => g.size - r.2.length) ?_ ⟨⟨by simpa using hsz, fun v => ?_, ?_, ?_, ?_⟩, ?_⟩ (by simp)
    · rintro ⟨⟨b, dq⟩, cmp⟩ ⟨h1, h2⟩
      rw [compStep]
      cases dq with
      | nil => exact Tot.pure ⟨h1, by simpa using h2⟩
      | cons u dq =>
        dsimp only at h1 h2 ⊢
        have huv : at' false b u = true := (h1.vis u).2 (by simp)
        have hu : u < g.size := by
          by_contra hn
          rw [at_ge false (by rw [h1.size]; omega)] at huv
          cases huv
        have huF : u ∉ res.flatten := by
          intro hm
          have := h1.nodup
          rw [List.append_assoc, List.nodup_append] at this
          exact this.2.2 u hm u (by simp) rfl
        have h1' : InvC g res.flatten i b dq (cmp ++ [u]) := by
          refine ⟨h1.size, fun v => ?_, ?_, ?_, ?_⟩
          · rw [h1.vis v]; simp
          · simpa using h1.nodup
          · intro v hv
            exact h1.reach v (by simpa using hv)
          · simpa using h1.start
        rw [rd_some (adj_eq hu), ok_bind]
        refine Tot.bind (mark_tot hg (fun v hv => hclosed u v huF hv) (by simp) h1') ?_
        rintro ⟨b', q'⟩ ⟨g1, g2, g3⟩
        refine Tot.pure ⟨⟨g1, ?_⟩, ?_⟩
        · intro w hw v hv
          simp only [List.mem_append, List.mem_singleton] at hw
          rcases hw with hw | rfl
          · have := h2 w hw v hv
            simp only [List.mem_append, List.mem_cons, List.mem_singleton] at this ⊢
            rcases this with h | h | h
            · exact Or.inl (Or.inl h)
            · exact Or.inl (Or.inr (Or.inl h))
            · exact Or.inr (g2 v h)
          · exact g3 v hv
        · have := hcard _ _ _ h1
          simp at this ⊢
          omega
    · dsimp only
      rw [at_set' false (by omega)]
      split
      · rename_i e
        subst e
        simp
      · rename_i hne
        rw [h.vis v]
        simp [hne]
    · dsimp only
      rw [List.append_nil, List.nodup_append]
      exact ⟨h.nodup, by simp, fun x hx y hy e => by simp at hy; subst hy; subst e; exact hiF hx⟩
    · intro v hv
      simp at hv
      subst hv
      exact .refl
    · simp
    · simp
  · obtain ⟨⟨b, q⟩, cmp⟩ := r
    obtain ⟨h1, h2⟩ := hr
    dsimp only at h1 h2 ⊢
    have hic : i ∈ cmp := by simpa using h1.start
    have hcr : ∀ v, v ∈ cmp ↔ Reach g i v := by
      intro v
      refine ⟨fun hv => h1.reach v (by simpa using hv), fun hv => ?_⟩
      induction hv with
      | refl => exact hic
      | tail _ he ih => exact h2 _ ih _ he
    refine ⟨⟨h1.size, fun v => ?_, ?_, ?_, ?_⟩, ?_, ?_⟩
    · rw [h1.vis v]; simp
    · simpa using h1.nodup
    · intro c hc u hu v
      simp only [List.mem_append, List.mem_singleton] at hc
      rcases hc with hc | rfl
      · exact h.comp c hc u hu v
      · rw [hcr]
        have := (hcr u).1 hu
        exact ⟨fun h => (Reach.symm hsym this).trans h, fun h => this.trans h⟩
    · intro c hc
      simp only [List.mem_append, List.mem_singleton] at hc
      rcases hc with hc | rfl
      · exact h.ne c hc
      · intro e
        rw [e] at hic
        simp at hic
    · exact (h1.vis i).2 (by simp [hic])
    · intro v hv
      have := (h.vis v).1 hv
      exact (h1.vis v).2 (by simp only [List.mem_append]; exact Or.inl (Or.inl this))

theorem components_tot (g : Array (List Nat)) (hg : Valid g) (hsym : ∀ u v, E g u v → E g v u) :
    Tot (components g) fun res => res.flatten.Perm (List.range g.size) ∧ (∀ c ∈ res, c ≠ []) ∧ ∀ c ∈ res, ∀ u ∈ c, ∀ v, v ∈ c ↔ Reach g u v := by
  rw [components]
  refine Tot.bind (P := fun (t : Array Bool × List (List Nat)) => Comps g t.1 t.2 ∧ ∀ j < g.size, at' false t.1 j = true) ?_ fun t ht => Tot.pure ?_
  · refine Tot.forUp (P := fun i (t : Array Bool × List (List Nat)) => Comps g t.1 t.2 ∧ ∀ j < i, at' false t.1 j = true) (Nat.zero_le _) ⟨⟨by simp, fun v => ?_, by simp, by simp, by simp⟩, by simp⟩ ?_
    · by_cases h : v < g.size <;> simp [at', h]
    · rintro i ⟨vis, res⟩ - hi ⟨h1, h2⟩
      have hsz := h1.size
      dsimp only at hsz h1 h2
      rw [outer]
      dsimp only
      rw [rd_at false (by omega), ok_bind]
      cases hb : at' false vis i with
      | true =>
        rw [if_pos rfl]
        refine Tot.pure ⟨h1, fun j hj => ?_⟩
        by_cases hji : j = i
        · subst hji; exact hb
        · exact h2 j (by omega)
      | false =>
        rw [if_neg (by simp)]
        refine (component_tot hg hsym h1 hi hb).mono ?_
        rintro t ⟨g1, g2, g3⟩
        refine ⟨g1, fun j hj => ?_⟩
        by_cases hji : j = i
        · subst hji; exact g2
        · exact g3 j (h2 j (by omega))
  · obtain ⟨h1, h2⟩ := ht
    refine ⟨?_, h1.ne, h1.comp⟩
    rw [List.perm_ext_iff_of_nodup h1.nodup List.nodup_range]
    intro v
    rw [← h1.vis, List.mem_range]
    constructor
    · intro hv
      by_contra hn
      rw [at_ge false (by rw [h1.size]; omega)] at hv
      cases hv
    · exact h2 v

/-- Adding edges makes a symmetric graph with exactly the given edges. -/
theorem make_tot (n : Nat) (edges : List (Nat × Nat)) (h : ∀ e ∈ edges, e.1 < n ∧ e.2 < n) :
    Tot (make n edges) fun g => g.size = n ∧ Valid g ∧ ∀ u v, E g u v ↔ (u, v) ∈ edges ∨ (v, u) ∈ edges := by
  rw [make]
  refine (Tot.forEach (P := fun pre (g : Array (List Nat)) => g.size = n ∧ ∀ u v, E g u v ↔ (u, v) ∈ pre ∨ (v, u) ∈ pre) ⟨by simp, fun u v => ?_⟩ ?_).mono ?_
  · by_cases h : u < n <;> simp [E, adj, h]
  · rintro pre ⟨x, y⟩ post g he ⟨h1, h2⟩
    obtain ⟨hx, hy⟩ := h (x, y) (by simp [he])
    dsimp only at hx hy
    rw [addEdge]
    dsimp only
    rw [rd_some (adj_eq (by omega)), ok_bind, wr_eq (by omega), ok_bind, rd_some (adj_eq (by simpa using by omega)), ok_bind, wr_eq (by simpa using by omega)]
    refine Tot.pure ⟨by simpa using h1, fun u v => ?_⟩
    have h3 := h2 u v
    rw [E] at h3 ⊢
    simp only [adj, Array.getElem?_setIfInBounds, Array.size_setIfInBounds, h1, hx, hy, if_true] at h3 ⊢
    simp only [List.mem_append, List.mem_singleton, Prod.mk.injEq]
    by_cases hyu : y = u
    · subst hyu
      by_cases hxy : x = y
      · subst hxy
        simp [h3]
        tauto
      · have hxy' : ¬ y = x := fun e => hxy e.symm
        simp [h3, hxy, hxy']
        tauto
    · have hyu' : ¬ u = y := fun e => hyu e.symm
      by_cases hxu : x = u
      · subst hxu
        simp [h3, hyu, hyu']
        tauto
      · have hxu' : ¬ u = x := fun e => hxu e.symm
        simp [h3, hyu, hyu', hxu, hxu']
  · rintro g ⟨h1, h2⟩
    refine ⟨h1, fun u v he => ?_, h2⟩
    rcases (h2 u v).1 he with hm | hm
    · rw [h1]; exact (h _ hm).2
    · rw [h1]; exact (h _ hm).1

end BFS
