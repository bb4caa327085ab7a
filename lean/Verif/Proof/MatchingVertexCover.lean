import Verif.Proof.MatchingCover

namespace BipartiteMatching
open Cxx Finset

theorem at_false (k x : Nat) : at' false (Array.replicate k false) x = false := by
  unfold at'
  rw [Array.getElem?_replicate]
  split_ifs <;> rfl

/-! ## The oriented graph -/

/-- The graph built from the edges in `D`. -/
structure OInv (o : Obj) (D : Nat → Nat → Prop) (s : Array (Array Nat) × Array Bool) : Prop where
  gsz : s.1.size = o.n + o.m
  csz : s.2.size = o.n
  l : ∀ u, u < o.n → ∀ x, x ∈ nb s.1 u ↔ ∃ w, D u w ∧ at' none o.toR u ≠ some w ∧ x = w + o.n
  r : ∀ r, r < o.m → ∀ x, x ∈ nb s.1 (o.n + r) ↔ D x r ∧ at' none o.toR x = some r
  c : ∀ u, u < o.n → (at' false s.2 u = true ↔ ¬ ∃ w, D u w ∧ at' none o.toR u = some w)

theorem OInv.congr {o : Obj} {D D' : Nat → Nat → Prop} {s : Array (Array Nat) × Array Bool} (h : OInv o D s) (e : ∀ u w, D' u w ↔ D u w) : OInv o D' s := by
  have : D' = D := by
    funext u w
    exact propext (e u w)
  rw [this]
  exact h

theorem orient_step {o : Obj} (ho : OK o) {D : Nat → Nat → Prop} {s : Array (Array Nat) × Array Bool} (h : OInv o D s) {u v : Nat} (hu : u < o.n) (hv : v < o.m) :
    Tot (o.orient u s v) (OInv o fun a b => D a b ∨ (a = u ∧ b = v)) := by
  unfold Obj.orient
  rw [rd_at none (by rw [ho.val.rsz]; exact hu), ok_bind]
  split_ifs with hm
  · refine (pushRow_tot u (by rw [h.gsz]; omega)).bind ?_
    rintro g' ⟨g1, g2⟩
    rw [wr_eq (by rw [h.csz]; exact hu), ok_bind]
    refine tot_ok.mpr ⟨g1.trans h.gsz, by simp [h.csz], ?_, ?_, ?_⟩
    · intro a ha x
      dsimp only
      rw [g2, if_neg (by omega), h.l a ha]
      constructor
      · rintro ⟨w, h1, h2, h3⟩
        exact ⟨w, Or.inl h1, h2, h3⟩
      · rintro ⟨w, h1 | ⟨rfl, rfl⟩, h2, h3⟩
        · exact ⟨w, h1, h2, h3⟩
        · exact absurd hm h2
    · intro r hr x
      dsimp only
      rw [g2]
      split_ifs with hrv
      · have hrv' : r = v := by omega
        rw [List.mem_append, h.r r hr, List.mem_singleton]
        constructor
        · rintro (⟨h1, h2⟩ | rfl)
          · exact ⟨Or.inl h1, h2⟩
          · exact ⟨Or.inr ⟨rfl, hrv'⟩, by rw [hrv']; exact hm⟩
        · rintro ⟨h1 | ⟨h1, -⟩, h2⟩
          · exact Or.inl ⟨h1, h2⟩
          · exact Or.inr h1
      · rw [h.r r hr]
        constructor
        · rintro ⟨h1, h2⟩
          exact ⟨Or.inl h1, h2⟩
        · rintro ⟨h1 | ⟨-, h1⟩, h2⟩
          · exact ⟨h1, h2⟩
          · omega
    · intro a ha
      dsimp only
      rw [at_set false (by rw [h.csz]; exact hu)]
      split_ifs with hau
      · constructor
        · intro e
          cases e
        · intro e
          exact absurd ⟨v, Or.inr ⟨hau.symm, rfl⟩, by rw [← hau]; exact hm⟩ e
      · rw [h.c a ha, not_iff_not]
        constructor
        · rintro ⟨w, h1, h2⟩
          exact ⟨w, Or.inl h1, h2⟩
        · rintro ⟨w, h1 | ⟨h1, -⟩, h2⟩
          · exact ⟨w, h1, h2⟩
          · exact absurd h1.symm hau
  · refine (pushRow_tot (v + o.n) (by rw [h.gsz]; omega)).bind ?_
    rintro g' ⟨g1, g2⟩
    refine tot_ok.mpr ⟨g1.trans h.gsz, h.csz, ?_, ?_, ?_⟩
    · intro a ha x
      dsimp only
      rw [g2]
      split_ifs with hau
      · rw [List.mem_append, h.l a ha, List.mem_singleton]
        constructor
        · rintro (⟨w, h1, h2, h3⟩ | rfl)
          · exact ⟨w, Or.inl h1, h2, h3⟩
          · exact ⟨v, Or.inr ⟨hau.symm, rfl⟩, by rw [← hau]; exact hm, rfl⟩
        · rintro ⟨w, h1 | ⟨-, rfl⟩, h2, h3⟩
          · exact Or.inl ⟨w, h1, h2, h3⟩
          · exact Or.inr h3
      · rw [h.l a ha]
        constructor
        · rintro ⟨w, h1, h2, h3⟩
          exact ⟨w, Or.inl h1, h2, h3⟩
        · rintro ⟨w, h1 | ⟨h1, -⟩, h2, h3⟩
          · exact ⟨w, h1, h2, h3⟩
          · exact absurd h1.symm hau
    · intro r hr x
      dsimp only
      rw [g2, if_neg (by omega), h.r r hr]
      constructor
      · rintro ⟨h1, h2⟩
        exact ⟨Or.inl h1, h2⟩
      · rintro ⟨h1 | ⟨rfl, rfl⟩, h2⟩
        · exact ⟨h1, h2⟩
        · exact absurd h2 hm
    · intro a ha
      dsimp only
      rw [h.c a ha, not_iff_not]
      constructor
      · rintro ⟨w, h1, h2⟩
        exact ⟨w, Or.inl h1, h2⟩
      · rintro ⟨w, h1 | ⟨rfl, rfl⟩, h2⟩
        · exact ⟨w, h1, h2⟩
        · exact absurd h2 hm

theorem orient_tot {o : Obj} (ho : OK o) :
    Tot (forUp 0 o.n (Array.replicate (o.n + o.m) #[], Array.replicate o.n true) fun u s => do
      let row ← rd o.g u
      forEach row.toList s (o.orient u)) (OInv o fun a b => a < o.n ∧ b ∈ nb o.g a) := by
  refine Tot.forUp (lo := 0) (hi := o.n) (P := fun k (s : Array (Array Nat) × Array Bool) => OInv o (fun a b => a < k ∧ b ∈ nb o.g a) s) (by omega) ?_ ?_
  · have hz : ∀ x, nb (Array.replicate (o.n + o.m) #[]) x = [] := by
      intro x
      unfold nb at'
      rw [Array.getElem?_replicate]
      split_ifs <;> rfl
    refine ⟨by simp, by simp, ?_, ?_, ?_⟩
    · intro u _ x
      dsimp only
      rw [hz]
      simp
    · intro u _ x
      dsimp only
      rw [hz]
      simp
    · intro u hu
      dsimp only
      unfold at'
      rw [Array.getElem?_replicate, if_pos hu]
      simp
  · intro i s _ hi hs
    rw [rd_at #[] (by rw [ho.gsz]; omega), ok_bind]
    refine (Tot.forEach (P := fun pre (s : Array (Array Nat) × Array Bool) => OInv o (fun a b => (a < i ∧ b ∈ nb o.g a) ∨ (a = i ∧ b ∈ pre)) s) (hs.congr fun u w => by simp) ?_).mono ?_
    · intro pre v post s' hpp hs'
      have hv : v < o.m := ho.nbr i hi v (by unfold nb; rw [hpp]; simp)
      refine (orient_step ho hs' hi hv).mono ?_
      intro s'' h
      refine h.congr fun a b => ?_
      rw [List.mem_append, List.mem_singleton]
      tauto
    · intro s' h
      refine h.congr fun a b => ?_
      change _ ↔ _ ∨ (a = i ∧ b ∈ nb o.g i)
      constructor
      · rintro ⟨h1, h2⟩
        by_cases hai : a = i
        · right
          rw [hai] at h2
          exact ⟨hai, h2⟩
        · exact Or.inl ⟨by omega, h2⟩
      · rintro (⟨h1, h2⟩ | ⟨rfl, h2⟩)
        · exact ⟨by omega, h2⟩
        · exact ⟨by omega, h2⟩

/-! ## The search -/

/-- The number of vertices that have not been visited. -/
def unv (N : Nat) (vis : Array Bool) : Nat := ((range N).filter fun x => at' false vis x = false).card

/-- The search so far from the vertices with `st`; `cur` is the vertex whose neighbours are scanned, `pre` those already scanned. -/
structure SInv (n m : Nat) (G : Array (Array Nat)) (st : Nat → Prop) (cur : Nat) (pre : List Nat) (t : VSt) : Prop where
  lsz : t.cl.size = n
  rsz : t.cr.size = m
  vsz : t.vis.size = n + m
  cl : ∀ x, x < n → at' false t.cl x = at' false t.vis x
  cr : ∀ x, x < m → at' false t.cr x = at' false t.vis (n + x)
  dq : ∀ x ∈ t.dq, x < n + m ∧ at' false t.vis x = true
  start : ∀ x, x < n + m → st x → at' false t.vis x = true
  closed : ∀ u, u < n + m → u ≠ cur → at' false t.vis u = true → u ∉ t.dq → ∀ v ∈ nb G u, at' false t.vis v = true
  scan : ∀ v ∈ pre, at' false t.vis v = true
  least : ∀ S : Nat → Prop, (∀ x, st x → S x) → (∀ u v, u < n + m → S u → v ∈ nb G u → S v) → ∀ x, x < n + m → at' false t.vis x = true → S x

theorem visit_tot {n m : Nat} {G : Array (Array Nat)} {st : Nat → Prop} {cur v : Nat} {pre : List Nat} {t : VSt} (h : SInv n m G st cur pre t) (hc : cur < n + m) (hcv : at' false t.vis cur = true)
    (hv : v ∈ nb G cur) (hvn : v < n + m) :
    Tot (visit n t v) (fun t' => SInv n m G st cur (pre ++ [v]) t' ∧ at' false t'.vis cur = true ∧ t'.dq.length + unv (n + m) t'.vis = t.dq.length + unv (n + m) t.vis) := by
  unfold visit
  rw [rd_at false (by rw [h.vsz]; exact hvn), ok_bind]
  cases hb : at' false t.vis v with
  | true =>
    rw [if_pos rfl]
    refine tot_ok.mpr ⟨⟨h.lsz, h.rsz, h.vsz, h.cl, h.cr, h.dq, h.start, h.closed, ?_, h.least⟩, hcv, rfl⟩
    intro w hw
    rcases List.mem_append.mp hw with hw | hw
    · exact h.scan w hw
    · rw [List.mem_singleton.mp hw]
      exact hb
  | false =>
    rw [if_neg (by simp), wr_eq (by rw [h.vsz]; exact hvn), ok_bind]
    have hs : ∀ x, at' false (t.vis.setIfInBounds v true) x = if v = x then true else at' false t.vis x := fun x => at_set false (by rw [h.vsz]; exact hvn) _ x
    have hmono : ∀ x, at' false t.vis x = true → at' false (t.vis.setIfInBounds v true) x = true := by
      intro x hx
      rw [hs]
      split_ifs
      · rfl
      · exact hx
    have hun : (t.dq ++ [v]).length + unv (n + m) (t.vis.setIfInBounds v true) = t.dq.length + unv (n + m) t.vis := by
      have : (range (n + m)).filter (fun x => at' false t.vis x = false) = insert v ((range (n + m)).filter fun x => at' false (t.vis.setIfInBounds v true) x = false) := by
        ext x
        rw [mem_insert, mem_filter, mem_filter, mem_range, hs]
        by_cases hxv : v = x
        · rw [if_pos hxv, ← hxv]
          exact ⟨fun _ => Or.inl rfl, fun _ => ⟨hvn, hb⟩⟩
        · rw [if_neg hxv]
          exact ⟨fun e => Or.inr e, fun e => e.resolve_left (Ne.symm hxv)⟩
      unfold unv
      rw [this, card_insert_of_notMem, List.length_append, List.length_singleton]
      · omega
      · rw [mem_filter, hs, if_pos rfl]
        rintro ⟨-, e⟩
        cases e
    have key : ∀ cl cr : Array Bool, cl.size = n → cr.size = m → (∀ x, x < n → at' false cl x = at' false (t.vis.setIfInBounds v true) x) →
        (∀ x, x < m → at' false cr x = at' false (t.vis.setIfInBounds v true) (n + x)) → SInv n m G st cur (pre ++ [v]) ⟨cl, cr, t.vis.setIfInBounds v true, t.dq ++ [v]⟩ := by
      intro cl cr h1 h2 h3 h4
      refine ⟨h1, h2, by simp [h.vsz], h3, h4, ?_, fun x hx hst => hmono x (h.start x hx hst), ?_, ?_, ?_⟩
      · intro x hx
        rcases List.mem_append.mp hx with hx | hx
        · exact ⟨(h.dq x hx).1, hmono x (h.dq x hx).2⟩
        · rw [List.mem_singleton.mp hx]
          exact ⟨hvn, by dsimp only; rw [hs, if_pos rfl]⟩
      · intro u hu hne hvis hnd w hw
        dsimp only at hvis hnd ⊢
        rw [List.mem_append, not_or, List.mem_singleton] at hnd
        rw [hs, if_neg (Ne.symm hnd.2)] at hvis
        exact hmono w (h.closed u hu hne hvis hnd.1 w hw)
      · intro w hw
        dsimp only
        rcases List.mem_append.mp hw with hw | hw
        · exact hmono w (h.scan w hw)
        · rw [List.mem_singleton.mp hw, hs, if_pos rfl]
      · intro S hS hcl x hx hvis
        dsimp only at hvis
        rw [hs] at hvis
        split_ifs at hvis with hvx
        · rw [← hvx]
          exact hcl cur v hc (h.least S hS hcl cur hc hcv) hv
        · exact h.least S hS hcl x hx hvis
    split_ifs with hvl
    · rw [wr_eq (by rw [h.lsz]; exact hvl), ok_bind]
      refine tot_ok.mpr ⟨key _ _ (by simp [h.lsz]) h.rsz ?_ ?_, hmono _ hcv, hun⟩
      · intro x hx
        rw [at_set false (by rw [h.lsz]; exact hvl), hs]
        split_ifs
        · rfl
        · exact h.cl x hx
      · intro x hx
        rw [hs, if_neg (by omega)]
        exact h.cr x hx
    · rw [wr_eq (by rw [h.rsz]; omega), ok_bind]
      refine tot_ok.mpr ⟨key _ _ h.lsz (by simp [h.rsz]) ?_ ?_, hmono _ hcv, hun⟩
      · intro x hx
        rw [hs, if_neg (by omega)]
        exact h.cl x hx
      · intro x hx
        rw [at_set false (by rw [h.rsz]; omega), hs]
        by_cases e : v - n = x
        · rw [if_pos e, if_pos (by omega)]
        · rw [if_neg e, if_neg (by omega)]
          exact h.cr x hx

theorem search_tot {n m : Nat} {G : Array (Array Nat)} {st : Nat → Prop} (hG : G.size = n + m) (hlt : ∀ u, u < n + m → ∀ v ∈ nb G u, v < n + m) {t : VSt}
    (h : SInv n m G st (n + m) [] t) (hm : t.dq.length + unv (n + m) t.vis ≤ n + m) :
    Tot (loop (visitStep n G) (n + m) t) (fun t' => SInv n m G st (n + m) [] t' ∧ t'.dq = []) := by
  refine Tot.loop (P := fun t => SInv n m G st (n + m) [] t) (Q := fun t => SInv n m G st (n + m) [] t ∧ t.dq = []) (μ := fun t => t.dq.length + unv (n + m) t.vis) ?_ (s := t) h hm
  rintro ⟨cl, cr, vis, dq⟩ h
  unfold visitStep
  cases dq with
  | nil =>
    refine tot_ok.mpr ⟨h, rfl⟩
  | cons u dq =>
    dsimp only
    obtain ⟨hu, huv⟩ := h.dq u List.mem_cons_self
    dsimp only at huv
    rw [rd_at #[] (by rw [hG]; exact hu), ok_bind]
    refine (Tot.forEach (P := fun pre (t' : VSt) => SInv n m G st u pre t' ∧ at' false t'.vis u = true ∧ t'.dq.length + unv (n + m) t'.vis = dq.length + unv (n + m) vis) ⟨?_, huv, rfl⟩ ?_).bind ?_
    · refine ⟨h.lsz, h.rsz, h.vsz, h.cl, h.cr, fun x hx => h.dq x (List.mem_cons_of_mem _ hx), h.start, ?_, fun v hv => (by cases hv), h.least⟩
      intro x hx hne hvis hnd
      refine h.closed x hx (by omega) hvis ?_
      intro hm
      rcases List.mem_cons.mp hm with hm | hm
      · exact hne hm
      · exact hnd hm
    · rintro pre v post t' hpp ⟨h1, h2, h3⟩
      have hv : v ∈ nb G u := by unfold nb; rw [hpp]; simp
      refine (visit_tot h1 hu h2 hv (hlt u hu v hv)).mono ?_
      rintro t'' ⟨k1, k2, k3⟩
      exact ⟨k1, k2, k3.trans h3⟩
    · rintro t' ⟨h1, h2, h3⟩
      refine tot_ok.mpr ?_
      dsimp only
      refine ⟨⟨h1.lsz, h1.rsz, h1.vsz, h1.cl, h1.cr, h1.dq, h1.start, ?_, fun v hv => (by cases hv), h1.least⟩, ?_⟩
      · intro x hx _ hvis hnd
        by_cases hxu : x = u
        · rw [hxu]
          exact h1.scan
        · exact h1.closed x hx hxu hvis hnd
      · rw [List.length_cons]
        omega

/-! ## `min_vertex_cover` and `max_independent_set` -/

theorem minVertexCover_tot {o : Obj} {E : List (Nat × Nat)} (ho : Good o E) :
    Tot o.minVertexCover (fun r => Good r.1 E ∧ r.1.n = o.n ∧ r.1.m = o.m ∧ VertexCover o.n E r.2 ∧ r.2.Nodup ∧ (∀ v ∈ r.2, v < o.n + o.m) ∧ ∃ M, Matching E M ∧ r.2.length ≤ M.length) := by
  unfold Obj.minVertexCover
  refine (ensure_tot ho).bind ?_
  rintro o' ⟨h1, h2, h3, h4⟩
  have ok := h1.ok
  refine (orient_tot ok).bind ?_
  rintro ⟨G, c⟩ hO
  dsimp only
  have hGl := hO.l
  have hGr := hO.r
  have hGc := hO.c
  have hGs := hO.gsz
  have hcs := hO.csz
  dsimp only at hGl hGr hGc hGs hcs
  have hfree : ∀ u, u < o'.n → (at' false c u = true ↔ at' none o'.toR u = none) := by
    intro u hu
    rw [hGc u hu]
    constructor
    · intro h
      by_contra hn
      obtain ⟨r, hr⟩ := Option.ne_none_iff_exists'.mp hn
      exact h ⟨r, ⟨hu, ok.edge u r hr⟩, hr⟩
    · rintro h ⟨r, -, hr⟩
      rw [h] at hr
      cases hr
  have hGlt : ∀ u, u < o'.n + o'.m → ∀ v ∈ nb G u, v < o'.n + o'.m := by
    intro u hu v hv
    by_cases hun : u < o'.n
    · obtain ⟨w, ⟨-, hw⟩, -, rfl⟩ := (hGl u hun v).mp hv
      have := ok.nbr u hun w hw
      omega
    · have e : u = o'.n + (u - o'.n) := by omega
      rw [e] at hv
      obtain ⟨⟨h, -⟩, -⟩ := (hGr _ (by omega) v).mp hv
      omega
  -- the first vertices
  refine (Tot.forUp (lo := 0) (hi := o'.n) (P := fun k (t : VSt) => t.cl = c ∧ t.cr = Array.replicate o'.m false ∧ t.vis.size = o'.n + o'.m ∧
    (∀ x, at' false t.vis x = true ↔ x < k ∧ at' false c x = true) ∧ (∀ x, x ∈ t.dq ↔ x < k ∧ at' false c x = true) ∧ t.dq.length + unv (o'.n + o'.m) t.vis = o'.n + o'.m) (by omega) ?_ ?_).bind ?_
  · refine ⟨rfl, rfl, by simp, ?_, ?_, ?_⟩
    · intro x
      dsimp only
      rw [at_false]
      simp
    · intro x
      simp
    · dsimp only
      unfold unv
      rw [filter_true_of_mem (fun x _ => at_false _ _), card_range, List.length_nil, Nat.zero_add]
  · rintro i ⟨cl, cr, vis, dq⟩ _ hi ⟨k1, k2, k3, k4, k5, k6⟩
    dsimp only at k1 k2 k3 k4 k5 k6 ⊢
    rw [k1, rd_at false (by rw [hcs]; exact hi), ok_bind]
    cases hci : at' false c i with
    | true =>
      rw [if_pos rfl, wr_eq (by rw [k3]; omega), ok_bind]
      have hs : ∀ x, at' false (vis.setIfInBounds i true) x = if i = x then true else at' false vis x := fun x => at_set false (by rw [k3]; omega) _ x
      refine tot_ok.mpr ⟨rfl, k2, by simp [k3], ?_, ?_, ?_⟩
      · intro x
        dsimp only
        rw [hs]
        split_ifs with e
        · rw [← e]
          exact ⟨fun _ => ⟨by omega, hci⟩, fun _ => rfl⟩
        · rw [k4]
          constructor
          · rintro ⟨a, b⟩
            exact ⟨by omega, b⟩
          · rintro ⟨a, b⟩
            exact ⟨by omega, b⟩
      · intro x
        dsimp only
        rw [List.mem_append, List.mem_singleton, k5]
        constructor
        · rintro (⟨a, b⟩ | rfl)
          · exact ⟨by omega, b⟩
          · exact ⟨by omega, hci⟩
        · rintro ⟨a, b⟩
          by_cases e : x = i
          · exact Or.inr e
          · exact Or.inl ⟨by omega, b⟩
      · dsimp only
        have hb : at' false vis i = false := by
          cases hb : at' false vis i with
          | false => rfl
          | true =>
            have := ((k4 i).mp hb).1
            omega
        have : (range (o'.n + o'.m)).filter (fun x => at' false vis x = false) = insert i ((range (o'.n + o'.m)).filter fun x => at' false (vis.setIfInBounds i true) x = false) := by
          ext x
          rw [mem_insert, mem_filter, mem_filter, mem_range, hs]
          by_cases hxv : i = x
          · rw [if_pos hxv, ← hxv]
            exact ⟨fun _ => Or.inl rfl, fun _ => ⟨by omega, hb⟩⟩
          · rw [if_neg hxv]
            exact ⟨fun e => Or.inr e, fun e => e.resolve_left (Ne.symm hxv)⟩
        unfold unv at k6 ⊢
        rw [this, card_insert_of_notMem] at k6
        · rw [List.length_append, List.length_singleton]
          omega
        · rw [mem_filter, hs, if_pos rfl]
          rintro ⟨-, e⟩
          cases e
    | false =>
      rw [if_neg (by simp)]
      refine tot_ok.mpr ⟨rfl, k2, k3, ?_, ?_, k6⟩
      · intro x
        dsimp only
        rw [k4]
        constructor
        · rintro ⟨a, b⟩
          exact ⟨by omega, b⟩
        · rintro ⟨a, b⟩
          by_cases e : x = i
          · rw [e, hci] at b
            cases b
          · exact ⟨by omega, b⟩
      · intro x
        dsimp only
        rw [k5]
        constructor
        · rintro ⟨a, b⟩
          exact ⟨by omega, b⟩
        · rintro ⟨a, b⟩
          by_cases e : x = i
          · rw [e, hci] at b
            cases b
          · exact ⟨by omega, b⟩
  rintro ⟨cl0, cr0, vis0, dq0⟩ ⟨k1, k2, k3, k4, k5, k6⟩
  dsimp only at k1 k2 k3 k4 k5 k6
  have hinit : SInv o'.n o'.m G (fun x => x < o'.n ∧ at' none o'.toR x = none) (o'.n + o'.m) [] ⟨cl0, cr0, vis0, dq0⟩ := by
    refine ⟨by rw [k1]; exact hcs, by rw [k2]; simp, k3, ?_, ?_, ?_, ?_, ?_, fun v hv => (by cases hv), ?_⟩
    · intro x hx
      dsimp only
      rw [k1, Bool.eq_iff_iff, k4]
      exact ⟨fun h => ⟨hx, h⟩, fun h => h.2⟩
    · intro x hx
      dsimp only
      rw [k2, at_false]
      symm
      rw [Bool.eq_false_iff]
      intro h
      have := ((k4 _).mp h).1
      omega
    · intro x hx
      have := (k5 x).mp hx
      exact ⟨by omega, (k4 x).mpr this⟩
    · rintro x hx ⟨a, b⟩
      exact (k4 x).mpr ⟨a, (hfree x a).mpr b⟩
    · intro u hu _ hvis hnd
      exact absurd ((k5 u).mpr ((k4 u).mp hvis)) hnd
    · intro S hS _ x hx hvis
      obtain ⟨a, b⟩ := (k4 x).mp hvis
      exact hS x ⟨a, (hfree x a).mp b⟩
  refine (search_tot hGs hGlt hinit (le_of_eq k6)).bind ?_
  rintro t ⟨ht, htd⟩
  have hclosed : ∀ u, u < o'.n + o'.m → at' false t.vis u = true → ∀ v ∈ nb G u, at' false t.vis v = true := by
    intro u hu hvis
    exact ht.closed u hu (by omega) hvis (by rw [htd]; simp)
  refine (Tot.forUp (lo := 0) (hi := o'.n) (P := fun k (res : List Nat) => res = (List.range k).filter fun i => !at' false t.cl i) (by omega) rfl ?_).bind ?_
  · rintro i res _ hi rfl
    rw [rd_at false (by rw [ht.lsz]; exact hi), ok_bind, List.range_succ, List.filter_append]
    cases hc : at' false t.cl i with
    | true =>
      refine tot_ok.mpr ?_
      simp [hc]
    | false =>
      refine tot_ok.mpr ?_
      simp [hc]
  rintro res1 rfl
  refine (Tot.forUp (lo := 0) (hi := o'.m) (P := fun k (res : List Nat) => res = coverList o'.n k (fun i => !at' false t.cl i) (fun i => at' false t.cr i)) (by omega) (by unfold coverList; simp) ?_).bind ?_
  · rintro i res _ hi rfl
    rw [rd_at false (by rw [ht.rsz]; exact hi), ok_bind]
    unfold coverList
    rw [List.range_succ (n := i), List.filter_append, List.map_append, ← List.append_assoc]
    cases hc : at' false t.cr i with
    | true =>
      refine tot_ok.mpr ?_
      simp [hc]
    | false =>
      refine tot_ok.mpr ?_
      simp [hc]
  rintro C rfl
  obtain ⟨lev, hl, hn⟩ := h2
  -- visited vertices are labelled
  have hlab : ∀ x, x < o'.n + o'.m → at' false t.vis x = true → 0 ≤ at' (-1) lev x := by
    refine ht.least (fun x => 0 ≤ at' (-1) lev x) ?_ ?_
    · rintro x ⟨a, b⟩
      rw [hl.free x a b]
    · intro u v hu hS hv
      by_cases hun : u < o'.n
      · obtain ⟨w, ⟨-, hw⟩, hne, rfl⟩ := (hGl u hun v).mp hv
        rw [Nat.add_comm]
        exact hl.done u hun hS w hw hne
      · have e : u = o'.n + (u - o'.n) := by omega
        rw [e] at hv hS
        obtain ⟨-, hm⟩ := (hGr _ (by omega) v).mp hv
        exact hl.mate _ (by omega) hS v (ok.val.rl _ _ hm)
  -- a visited left vertex was reached through its partner
  have hback : ∀ x, x < o'.n + o'.m → at' false t.vis x = true → at' false t.vis x = true ∧ ∀ r, x < o'.n → at' none o'.toR x = some r → at' false t.vis (o'.n + r) = true := by
    refine ht.least (fun x => at' false t.vis x = true ∧ ∀ r, x < o'.n → at' none o'.toR x = some r → at' false t.vis (o'.n + r) = true) ?_ ?_
    · rintro x ⟨a, b⟩
      refine ⟨ht.start x (by omega) ⟨a, b⟩, ?_⟩
      intro r _ hr
      rw [b] at hr
      cases hr
    · rintro u v hu ⟨hS, -⟩ hv
      refine ⟨hclosed u hu hS v hv, ?_⟩
      intro r hvn hr
      by_cases hun : u < o'.n
      · obtain ⟨w, -, -, rfl⟩ := (hGl u hun v).mp hv
        omega
      · have e : u = o'.n + (u - o'.n) := by omega
        rw [e] at hv
        obtain ⟨-, hm⟩ := (hGr _ (by omega) v).mp hv
        rw [hm] at hr
        rw [← Option.some.inj hr, ← e]
        exact hS
  refine tot_ok.mpr ⟨h1, h3, h4, ?_, coverList_nodup _ _ _ _, ?_, pairs o', pairs_matching ok h1.graph, cover_le ok (coverList_nodup _ _ _ _) ?_ ?_⟩
  · rintro ⟨l, r⟩ he
    obtain ⟨a, b⟩ := (h1.graph l r).mp he
    dsimp only
    rw [← h3, mem_coverList, mem_coverList, Nat.add_sub_cancel_left]
    cases hc : at' false t.cl l with
    | false => exact Or.inl (Or.inl ⟨a, rfl⟩)
    | true =>
      right
      right
      have hr := ok.nbr l a r b
      refine ⟨by omega, hr, ?_⟩
      rw [ht.cl l a] at hc
      rw [ht.cr r hr]
      by_cases hm : at' none o'.toR l = some r
      · exact (hback l (by omega) hc).2 r a hm
      · rw [Nat.add_comm]
        exact hclosed l (by omega) hc _ ((hGl l a _).mpr ⟨r, ⟨a, b⟩, hm, rfl⟩)
  · intro v hv
    dsimp only at hv
    rw [mem_coverList] at hv
    omega
  · intro x hx hxn e
    dsimp only at hx
    rw [mem_coverList] at hx
    rcases hx with ⟨-, hx⟩ | ⟨hx, -⟩
    · rw [ht.cl x hxn, ht.start x (by omega) ⟨hxn, e⟩] at hx
      cases hx
    · omega
  · intro x hx hxn
    dsimp only at hx
    rw [mem_coverList] at hx
    rcases hx with ⟨hx, -⟩ | ⟨-, hm, hx⟩
    · omega
    · rw [ht.cr _ hm] at hx
      have hlx := hlab (o'.n + (x - o'.n)) (by omega) hx
      obtain ⟨l, hl'⟩ := Option.ne_none_iff_exists'.mp (hn (x - o'.n) hm hlx)
      refine ⟨l, hl', ?_⟩
      have hlr := ok.val.lr _ _ hl'
      have hln := (ok.val.ltL hlr).1
      have hlv : at' false t.vis l = true := hclosed _ (by omega) hx l ((hGr _ hm l).mpr ⟨⟨hln, ok.edge _ _ hlr⟩, hlr⟩)
      dsimp only
      rw [mem_coverList]
      rintro (⟨-, h⟩ | ⟨h, -⟩)
      · rw [ht.cl l hln, hlv] at h
        cases h
      · omega

theorem maxIndependentSet_tot {o : Obj} {E : List (Nat × Nat)} (ho : Good o E) :
    Tot o.maxIndependentSet (fun r => Good r.1 E ∧ r.1.n = o.n ∧ r.1.m = o.m ∧ Independent o.n o.m E r.2 ∧ ∀ I, Independent o.n o.m E I → I.length ≤ r.2.length) := by
  unfold Obj.maxIndependentSet
  refine (minVertexCover_tot ho).bind ?_
  rintro ⟨o', C⟩ ⟨h1, h2, h3, h4, h5, h6, M, h7, h8⟩
  dsimp only at h1 h2 h3 h4 h5 h6 h8 ⊢
  refine (Tot.forEach (P := fun pre (a : Array Bool) => a.size = o.n + o.m ∧ ∀ x, x < o.n + o.m → (at' false a x = true ↔ x ∉ pre)) ⟨by simp, ?_⟩ ?_).bind ?_
  · intro x hx
    unfold at'
    rw [Array.getElem?_replicate, if_pos hx]
    simp
  · rintro pre v post a hpp ⟨k1, k2⟩
    have hv : v < o.n + o.m := h6 v (by rw [hpp]; simp)
    rw [wr_eq (by rw [k1]; exact hv)]
    refine tot_ok.mpr ⟨by simp [k1], ?_⟩
    intro x hx
    rw [at_set false (by rw [k1]; exact hv), List.mem_append, List.mem_singleton]
    split_ifs with e
    · simp [e]
    · rw [k2 x hx, not_or]
      exact ⟨fun h => ⟨h, Ne.symm e⟩, fun h => h.1⟩
  rintro use ⟨k1, k2⟩
  refine (Tot.forUp (lo := 0) (hi := o.n + o.m) (P := fun k (res : List Nat) => res = (List.range k).filter fun i => at' false use i) (by omega) rfl ?_).bind ?_
  · rintro i res _ hi rfl
    rw [rd_at false (by rw [k1]; exact hi), ok_bind, List.range_succ, List.filter_append]
    cases hc : at' false use i with
    | true =>
      refine tot_ok.mpr ?_
      simp [hc]
    | false =>
      refine tot_ok.mpr ?_
      simp [hc]
  rintro res rfl
  have hmem : ∀ x, x ∈ ((List.range (o.n + o.m)).filter fun i => at' false use i) ↔ x < o.n + o.m ∧ x ∉ C := by
    intro x
    rw [List.mem_filter, List.mem_range]
    constructor
    · rintro ⟨a, b⟩
      exact ⟨a, (k2 x a).mp b⟩
    · rintro ⟨a, b⟩
      exact ⟨a, (k2 x a).mpr b⟩
  have hnd : ((List.range (o.n + o.m)).filter fun i => at' false use i).Nodup := List.nodup_range.filter _
  refine tot_ok.mpr ⟨h1, h2, h3, ⟨hnd, fun v hv => ((hmem v).mp hv).1, ?_⟩, ?_⟩
  · rintro e he ⟨a, b⟩
    rcases h4 e he with h | h
    · exact ((hmem _).mp a).2 h
    · exact ((hmem _).mp b).2 h
  · rintro I ⟨i1, i2, i3⟩
    dsimp only
    -- the vertices outside `I` are a cover
    have hcov : VertexCover o.n E ((List.range (o.n + o.m)).filter fun x => decide (x ∉ I)) := by
      rintro ⟨l, r⟩ he
      obtain ⟨a, b⟩ := (h1.graph l r).mp he
      have hr := h1.ok.nbr l a r b
      rw [h2] at a
      rw [h3] at hr
      rw [List.mem_filter, List.mem_filter, List.mem_range, List.mem_range]
      by_cases hl : l ∈ I
      · right
        exact ⟨by dsimp only; omega, decide_eq_true fun h => i3 _ he ⟨hl, h⟩⟩
      · left
        exact ⟨by dsimp only; omega, decide_eq_true hl⟩
    have hle := matching_le_cover (n := o.n) (fun e he => by
      have := ((h1.graph e.1 e.2).mp he).1
      omega) h7 hcov
    -- counting
    have c1 : ((List.range (o.n + o.m)).filter fun x => decide (x ∉ I)).length + I.length ≤ o.n + o.m := by
      have hnd' : (((List.range (o.n + o.m)).filter fun x => decide (x ∉ I)) ++ I).Nodup := by
        rw [List.nodup_append]
        refine ⟨List.nodup_range.filter _, i1, ?_⟩
        rintro a ha b hb rfl
        exact of_decide_eq_true (List.mem_filter.mp ha).2 hb
      have hsub : (((List.range (o.n + o.m)).filter fun x => decide (x ∉ I)) ++ I) ⊆ List.range (o.n + o.m) := by
        intro x hx
        rcases List.mem_append.mp hx with hx | hx
        · exact (List.mem_filter.mp hx).1
        · exact List.mem_range.mpr (i2 x hx)
      have := (List.subperm_of_subset hnd' hsub).length_le
      rwa [List.length_append, List.length_range] at this
    have c2 : o.n + o.m ≤ C.length + ((List.range (o.n + o.m)).filter fun i => at' false use i).length := by
      have hsub : List.range (o.n + o.m) ⊆ C ++ ((List.range (o.n + o.m)).filter fun i => at' false use i) := by
        intro x hx
        rw [List.mem_append]
        by_cases hc : x ∈ C
        · exact Or.inl hc
        · exact Or.inr ((hmem x).mpr ⟨List.mem_range.mp hx, hc⟩)
      have := (List.subperm_of_subset List.nodup_range hsub).length_le
      rwa [List.length_append, List.length_range] at this
    omega

end BipartiteMatching
