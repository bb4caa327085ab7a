import Verif.Proof.TreeIsoHandler
import Verif.Proof.FindCentroids

/-! # Proofs about `library/tree/tree_isomorphism_classification.hpp` -/

namespace TreeIso
open Cxx Graph Tree IterDFS

variable {g : Array (List Nat)} {r : Nat} {F : Forest}

/-- The neighbours of `v` other than `p`. -/
def nb (g : Array (List Nat)) (p : Option Nat) (v : Nat) : List Nat := (adj g v).filter fun w => some w ≠ p

theorem collect_tot (hg : Valid g) {ids : Array Nat} (hs : ids.size = g.size) {v : Nat} (hv : v < g.size) (p : Option Nat) : collect g ids v p = .ok ((nb g p v).map (at' 0 ids)) := by
  unfold collect
  rw [rd_at [] hv, ok_bind, show at' [] g v = adj g v from rfl]
  rw [← tot_eq]
  refine (Tot.forEach (P := fun pre (k : List Nat) => k = (pre.filter fun w => some w ≠ p).map (at' 0 ids)) rfl ?_).mono fun k hk => hk
  rintro pre w post k he rfl
  have hw : w < g.size := hg v w (by show w ∈ adj g v; rw [he]; simp)
  unfold collectStep
  split
  · rename_i h1
    refine Tot.pure ?_
    rw [List.filter_append, List.filter_singleton]
    simp [h1]
  · rename_i h1
    rw [rd_at 0 (by omega), ok_bind]
    refine Tot.pure ?_
    rw [List.filter_append, List.filter_singleton, addChild]
    simp [h1]

/-- All identifiers of the forest are those given by `H`. -/
def Done (H : List Nat → Option Nat) (ids : Array Nat) : Forest → Prop
  | .nil => True
  | .cons v ch rest => H (srt (ch.roots.map (at' 0 ids))) = some (at' 0 ids v) ∧ Done H ids ch ∧ Done H ids rest

theorem Done.mono {H H' : List Nat → Option Nat} (hH : ∀ k i, H k = some i → H' k = some i) {ids ids' : Array Nat} : ∀ {F : Forest}, (∀ x ∈ F.pre, at' 0 ids' x = at' 0 ids x) → Done H ids F → Done H' ids' F
  | .nil, _, _ => trivial
  | .cons v ch rest, hi, ⟨h1, h2, h3⟩ => by
    have hc : ∀ x ∈ ch.pre, at' 0 ids' x = at' 0 ids x := fun x hx => hi x (by simp [Forest.pre, hx])
    refine ⟨?_, Done.mono hH hc h2, Done.mono hH (fun x hx => hi x (by simp [Forest.pre, hx])) h3⟩
    rw [List.map_congr_left (g := at' 0 ids) fun x hx => hc x (Forest.roots_sub hx), hi v (by simp [Forest.pre])]
    exact hH _ _ h1

theorem Done.code {H : List Nat → Option Nat} {ids : Array Nat} : ∀ {F : Forest}, Done H ids F → FCode H F (F.roots.map (at' 0 ids))
  | .nil, _ => .nil
  | .cons _ _ _, ⟨h1, h2, h3⟩ => .cons h2.code h1 h3.code

theorem Done.under {H : List Nat → Option Nat} {ids : Array Nat} : ∀ {F : Forest}, Done H ids F → ∀ {x : Nat}, x ∈ F.pre →
    Done H ids (F.under x) ∧ H (srt ((F.under x).roots.map (at' 0 ids))) = some (at' 0 ids x)
  | .nil, _, x, hx => by simp [Forest.pre] at hx
  | .cons v ch rest, ⟨h1, h2, h3⟩, x, hx => by
    simp only [Forest.pre, List.mem_cons, List.mem_append] at hx
    rw [Forest.under]
    by_cases hv : x = v
    · rw [if_pos hv, hv]; exact ⟨h2, h1⟩
    · rw [if_neg hv]
      by_cases hc : x ∈ ch.pre
      · rw [if_pos hc]; exact h2.under hc
      · rw [if_neg hc]; exact h3.under ((hx.resolve_left hv).resolve_left hc)

/-- The state after finishing the vertices of `F`. -/
def Post (g : Array (List Nat)) (H : List Nat → Option Nat) (F : Forest) (s t : Handler × Array Nat) : Prop :=
  ∃ H', Abs t.1 H' ∧ (∀ k j, H k = some j → H' k = some j) ∧ t.2.size = g.size ∧ (∀ x, x ∉ F.pre → at' 0 t.2 x = at' 0 s.2 x) ∧ Done H' t.2 F

theorem post_tot (hg : Valid g) (F : Forest) : ∀ (p : Option Nat) (s : Handler × Array Nat) (H : List Nat → Option Nat), F.Fits g p → F.pre.Nodup → s.2.size = g.size → Abs s.1 H →
    Tot (forEach (post p F) s fun t x => fin g x.1 x.2 t) (Post g H F s) := by
  induction F with
  | nil =>
    intro p s H _ _ hs hA
    exact Tot.pure ⟨H, hA, fun _ _ h => h, hs, fun _ _ => rfl, trivial⟩
  | cons v ch rest ih1 ih2 =>
    intro p s H hf hn hs hA
    obtain ⟨hv, f1, f2, f3⟩ := hf
    have hn' := hn
    rw [Forest.pre, List.nodup_cons, List.mem_append, List.nodup_append] at hn'
    obtain ⟨n2, n3, n4, n5⟩ := hn'
    have happ : ∀ (l m : List (Nat × Option Nat)) (s : Handler × Array Nat), forEach (l ++ m) s (fun t x => fin g x.1 x.2 t) = forEach l s (fun t x => fin g x.1 x.2 t) >>= fun s => forEach m s (fun t x => fin g x.1 x.2 t) := by
      intro l m
      induction l with
      | nil => intro s; rfl
      | cons x l ih =>
        intro s
        rw [List.cons_append, forEach, forEach]
        cases fin g x.1 x.2 s with
        | error e => rfl
        | ok t => rw [ok_bind, ok_bind, ih]
    rw [post, happ]
    refine Tot.bind (ih1 (some v) s H f2 n3 hs hA) ?_
    rintro ⟨h1, ids1⟩ ⟨H1, a1, a2, a3, a4, a5⟩
    dsimp only at a1 a3 a4 a5
    rw [forEach]
    have hstep : Tot (fin g v p (h1, ids1)) (fun t => ∃ H2, Abs t.1 H2 ∧ (∀ k j, H k = some j → H2 k = some j) ∧ t.2.size = g.size ∧ (∀ x, x ∉ v :: ch.pre → at' 0 t.2 x = at' 0 s.2 x) ∧
        H2 (srt (ch.roots.map (at' 0 t.2))) = some (at' 0 t.2 v) ∧ Done H2 t.2 ch) := by
      unfold fin
      dsimp only
      rw [collect_tot hg a3 hv, ok_bind]
      refine Tot.bind (getId_tot a1 _) ?_
      rintro ⟨h2, i⟩ ⟨H2, b1, b2, b3⟩
      dsimp only at b1 b2 ⊢
      rw [wr_eq (by omega), ok_bind]
      have hvc : ∀ x ∈ ch.pre, at' 0 (ids1.setIfInBounds v i) x = at' 0 ids1 x := fun x hx => by
        rw [at_set' 0 (by omega), if_neg (by rintro rfl; exact n2 (Or.inl hx))]
      refine Tot.pure ⟨H2, b1, fun k j hk => b3 k j (a2 k j hk), by simpa using a3, fun x hx => ?_, ?_, a5.mono b3 hvc⟩
      · rw [List.mem_cons, not_or] at hx
        dsimp only
        rw [at_set' 0 (by omega), if_neg hx.1]
        exact a4 x hx.2
      · dsimp only
        rw [List.map_congr_left (g := at' 0 ids1) fun x hx => hvc x (Forest.roots_sub hx), at_set' 0 (by omega), if_pos rfl, f1]
        exact b2
    refine Tot.bind hstep ?_
    rintro t ⟨H2, b1, b2, b3, b4, b5, b6⟩
    refine (ih2 p t H2 f3 n4 b3 b1).mono ?_
    rintro u ⟨H3, c1, c2, c3, c4, c5⟩
    have hvr : ∀ x, x = v ∨ x ∈ ch.pre → x ∉ rest.pre := by
      rintro x (rfl | hx) h
      · exact n2 (Or.inr h)
      · exact n5 x hx x h rfl
    refine ⟨H3, c1, fun k j hk => c2 k j (b2 k j hk), c3, fun x hx => ?_, ?_, b6.mono c2 fun x hx => c4 x (hvr x (Or.inr hx)), c5⟩
    · simp only [Forest.pre, List.mem_cons, List.mem_append, not_or] at hx
      rw [c4 x hx.2.2, b4 x (by simp [hx.1, hx.2.1])]
    · rw [List.map_congr_left (g := at' 0 t.2) fun x hx => c4 x (hvr x (Or.inr (Forest.roots_sub hx))), c4 v (hvr v (Or.inl rfl))]
      exact c2 _ _ b5

/-- `ids` are the identifiers of the subtrees of the tree rooted at `r`. -/
def Ids (g : Array (List Nat)) (r : Nat) (H : List Nat → Option Nat) (ids : Array Nat) : Prop := ids.size = g.size ∧ ∃ F, Rooted g r F ∧ Done H ids (Forest.tree r F)

theorem Ids.mono {H H' : List Nat → Option Nat} (hH : ∀ k i, H k = some i → H' k = some i) {ids : Array Nat} (h : Ids g r H ids) : Ids g r H' ids :=
  ⟨h.1, h.2.choose, h.2.choose_spec.1, h.2.choose_spec.2.mono hH fun _ _ => rfl⟩

theorem classifySubtrees_tot (hg : IsTree g) (hr : r < g.size) {h : Handler} {H : List Nat → Option Nat} (hA : Abs h H) : Tot (classifySubtrees h g r) fun t =>
    ∃ H', Abs t.1 H' ∧ (∀ k j, H k = some j → H' k = some j) ∧ Ids g r H' t.2 := by
  obtain ⟨F, hF⟩ := exists_rooted hg hr
  unfold classifySubtrees
  refine (walk_tot hF (post_tot hg.valid _ none _ H hF.tree_fits hF.tree_nodup (by simp) hA)).mono ?_
  rintro t ⟨H', h1, h2, h3, -, h5⟩
  exact ⟨H', h1, h2, h3, F, hF, h5⟩

theorem Ids.code {H : List Nat → Option Nat} {ids : Array Nat} (h : Ids g r H ids) : ∃ F, Rooted g r F ∧ ∀ u, u < g.size → FCode H (subtree r F u) [at' 0 ids u] := by
  obtain ⟨-, F, hF, hD⟩ := h
  refine ⟨F, hF, fun u hu => ?_⟩
  obtain ⟨h1, h2⟩ := hD.under ((hF.tree_mem u).2 hu)
  exact .cons h1.code h2 .nil

/-- Codes decide isomorphism. -/
theorem code_iff {H : List Nat → Option Nat} (hH : ∀ k k' i, H k = some i → H k' = some i → k = k') {h : Array (List Nat)} {s : Nat} {G : Forest} (hg : IsTree g) (hh : IsTree h) (hF : Rooted g r F) (hG : Rooted h s G)
    {u v : Nat} (hu : u < g.size) (hv : v < h.size) {i j : Nat} (hi : FCode H (subtree r F u) [i]) (hj : FCode H (subtree s G v) [j]) : i = j ↔ SubtreeIso g r u h s v := by
  constructor
  · rintro rfl
    obtain ⟨f, hf⟩ := iso_of_code hH hi (subtree_nodup hF hu) (subtree_nodup hG hv) hj (List.Perm.refl _)
    exact ⟨f, (subtree_iso hg hh hF hG hu hv f).1 hf⟩
  · rintro ⟨f, hf⟩
    have := code_of_iso hi (subtree_nodup hF hu) (subtree_nodup hG hv) hj ((subtree_iso hg hh hF hG hu hv f).2 hf)
    simpa using this

theorem anc_root (hg : IsTree g) (hr : r < g.size) {x : Nat} : Anc g r r x ↔ x < g.size := by
  constructor
  · rintro ⟨p, hp, -⟩; exact path_end_lt hg hr hp
  · intro hx
    obtain ⟨p, hp, -⟩ := hg.path r x hr hx
    exact ⟨p, hp, List.mem_of_head? hp.head⟩

theorem rootedIso_iff {h : Array (List Nat)} {s : Nat} (hg : IsTree g) (hh : IsTree h) (hr : r < g.size) (hs : s < h.size) : SubtreeIso g r r h s s ↔ RootedIso g r h s := by
  constructor
  · rintro ⟨f, h1, h2, h3, h4, h5⟩
    simp only [anc_root hg hr, anc_root hh hs] at h1 h2 h3 h5
    exact ⟨f, ⟨h1, h2, h3, h5⟩, h4⟩
  · rintro ⟨f, ⟨h1, h2, h3, h5⟩, h4⟩
    refine ⟨f, ?_, ?_, ?_, h4, ?_⟩ <;> simp only [anc_root hg hr, anc_root hh hs]
    exacts [h1, h2, h3, h5]

theorem subtree_root (h : Rooted g r F) : subtree r F r = Forest.tree r F := by
  rw [subtree]
  conv_lhs => rw [Forest.tree, Forest.tree, Forest.under, if_pos rfl]
  rfl

/-! ### Rerooting -/

/-- `i` is the code of the tree of `w` away from its neighbour `p`. -/
def Code1 (H : List Nat → Option Nat) (g : Array (List Nat)) (p : Option Nat) (w i : Nat) : Prop :=
  w < g.size ∧ ∃ ch ks, ch.roots = nb g p w ∧ ch.Fits g (some w) ∧ FCode H ch ks ∧ H (srt ks) = some i

theorem glue {H : List Nat → Option Nat} {p : Option Nat} {k : Nat → Nat} : ∀ {vs : List Nat}, (∀ w ∈ vs, Code1 H g p w (k w)) → ∃ F, Forest.Fits g p F ∧ F.roots = vs ∧ FCode H F (vs.map k)
  | [], _ => ⟨.nil, trivial, rfl, .nil⟩
  | v :: vs, h => by
    obtain ⟨F, h1, h2, h3⟩ := glue (vs := vs) fun w hw => h w (by simp [hw])
    obtain ⟨hv, ch, ks, c1, c2, c3, c4⟩ := h v (by simp)
    exact ⟨.cons v ch F, ⟨hv, c1, c2, h1⟩, by rw [Forest.roots, h2], .cons c3 c4 h3⟩

theorem fits_unique {F : Forest} : ∀ {G : Forest} {p : Option Nat}, F.Fits g p → G.Fits g p → F.roots = G.roots → F = G := by
  induction F with
  | nil =>
    intro G p _ _ h
    cases G with
    | nil => rfl
    | cons _ _ _ => simp [Forest.roots] at h
  | cons v ch rest ih1 ih2 =>
    intro G p hF hG h
    cases G with
    | nil => simp [Forest.roots] at h
    | cons w ch' rest' =>
      rw [Forest.roots, Forest.roots] at h
      injection h with h1 h2
      subst h1
      rw [ih1 hF.2.2.1 hG.2.2.1 (hF.2.1.trans hG.2.1.symm), ih2 hF.2.2.2 hG.2.2.2 h2]

theorem Done.root {H : List Nat → Option Nat} {ids : Array Nat} {p : Option Nat} : ∀ {F : Forest}, Done H ids F → F.Fits g p → ∀ {w : Nat}, w ∈ F.roots →
    w < g.size ∧ ∃ ch, ch.roots = nb g p w ∧ ch.Fits g (some w) ∧ Done H ids ch ∧ H (srt (ch.roots.map (at' 0 ids))) = some (at' 0 ids w)
  | .nil, _, _, w, hw => by simp [Forest.roots] at hw
  | .cons v ch rest, ⟨h1, h2, h3⟩, ⟨hv, f1, f2, f3⟩, w, hw => by
    rcases List.mem_cons.1 hw with rfl | hw
    · exact ⟨hv, ch, f1, f2, h2, h1⟩
    · exact h3.root f3 hw

theorem Done.code1 {H : List Nat → Option Nat} {ids : Array Nat} {p : Option Nat} {F : Forest} (hD : Done H ids F) (hf : F.Fits g p) {w : Nat} (hw : w ∈ F.roots) : Code1 H g p w (at' 0 ids w) := by
  obtain ⟨h1, ch, h2, h3, h4, h5⟩ := hD.root hf hw
  exact ⟨h1, ch, _, h2, h3, h4.code, h5⟩

theorem Code1.mono {H H' : List Nat → Option Nat} (hH : ∀ k i, H k = some i → H' k = some i) {p : Option Nat} {w i : Nat} (h : Code1 H g p w i) : Code1 H' g p w i := by
  obtain ⟨h1, ch, ks, h2, h3, h4, h5⟩ := h
  exact ⟨h1, ch, ks, h2, h3, h4.mono hH, hH _ _ h5⟩

theorem nb_perm (hg : IsTree g) {v c : Nat} (h : E g v c) : (adj g v).Perm (c :: nb g (some c) v) := by
  have hn := hg.simple v
  have e : nb g (some c) v = (adj g v).erase c := by
    rw [hn.erase_eq_filter, nb]
    refine List.filter_congr fun x _ => ?_
    rw [Bool.eq_iff_iff]
    simp
  rw [e]
  exact List.perm_cons_erase h

theorem second_tot (hg : IsTree g) {c0 c1 : Nat} (h0 : c0 < g.size) (he : E g c0 c1) {h : Handler} {H : List Nat → Option Nat} (hA : Abs h H) {ids : Array Nat} (hI : Ids g c0 H ids) :
    Tot (second h g ids c0 c1) fun t => ∃ H', Abs t.1 H' ∧ (∀ k j, H k = some j → H' k = some j) ∧ ∃ F, Rooted g c1 F ∧ FCode H' (Forest.tree c1 F) [t.2] := by
  obtain ⟨hs, F, hF, hD⟩ := hI
  have h1 : c1 < g.size := hg.valid c0 c1 he
  have hD2 : Done H ids F := hD.2.1
  unfold second
  rw [rd_at 0 (by omega), ok_bind, collect_tot hg.valid hs h0, ok_bind, collect_tot hg.valid hs h1, ok_bind]
  have e0 : nb g none c0 = adj g c0 := by simp [nb]
  have hp0 := (nb_perm hg he).map (at' 0 ids)
  rw [List.map_cons] at hp0
  have hmem : at' 0 ids c1 ∈ (nb g none c0).map (at' 0 ids) := by rw [e0]; exact List.mem_map_of_mem he
  unfold reroot
  rw [show remChild ((nb g none c0).map (at' 0 ids)) (at' 0 ids c1) = .ok (((adj g c0).map (at' 0 ids)).erase (at' 0 ids c1)) by
    rw [remChild, decide_eq_true hmem, check_true, e0]; rfl, ok_bind]
  have hperm : (((adj g c0).map (at' 0 ids)).erase (at' 0 ids c1)).Perm ((nb g (some c1) c0).map (at' 0 ids)) := by
    have := hp0.erase (at' 0 ids c1)
    rwa [List.erase_cons_head] at this
  refine Tot.bind (getId_tot hA _) ?_
  rintro ⟨h2, j⟩ ⟨H1, a1, a2, a3⟩
  dsimp only at a1 a2 ⊢
  rw [srt_eq.2 hperm] at a2
  have hroots : F.roots = adj g c0 := hF.roots
  have hc : ∀ w ∈ nb g (some c1) c0, Code1 H1 g (some c0) w (at' 0 ids w) := fun w hw => by
    refine (hD2.code1 hF.fits ?_).mono a3
    rw [hroots]
    exact (List.mem_filter.1 hw).1
  obtain ⟨ch0, g1, g2, g3⟩ := glue hc
  have hcode0 : Code1 H1 g (some c1) c0 j := ⟨h0, ch0, _, g2, g1, g3, a2⟩
  obtain ⟨-, ch1, d1, d2, d3, d4⟩ := hD2.root hF.fits (w := c1) (by rw [hroots]; exact he)
  refine (getId_tot a1 _).mono ?_
  rintro ⟨h3, i⟩ ⟨H2, b1, b2, b3⟩
  dsimp only at b1 b2 ⊢
  obtain ⟨F1, hF1⟩ := exists_rooted hg h1
  refine ⟨H2, b1, fun k j hk => b3 k j (a3 k j hk), F1, hF1, ?_⟩
  have hc0 : c0 ∉ nb g (some c0) c1 := by simp [nb]
  obtain ⟨k, hk⟩ : ∃ k : Nat → Nat, k = fun w => if w = c0 then j else at' 0 ids w := ⟨_, rfl⟩
  have hadj := nb_perm hg (hg.symm _ _ he)
  have hall : ∀ w ∈ adj g c1, Code1 H2 g (some c1) w (k w) := fun w hw => by
    rw [hk]
    dsimp only
    split
    · rename_i e; rw [e]; exact hcode0.mono b3
    · rename_i e
      have hw' := (List.mem_cons.1 (hadj.mem_iff.1 hw)).resolve_left e
      exact (d3.code1 d2 (by rw [d1]; exact hw')).mono fun x y z => b3 x y (a3 x y z)
  obtain ⟨F2, f1, f2, f3⟩ := glue hall
  have : F2 = F1 := fits_unique f1 hF1.fits (by rw [f2, hF1.roots])
  subst this
  refine .cons f3 ?_ .nil
  rw [← b2]
  congr 1
  rw [srt_eq, addChild]
  refine (hadj.map k).trans ?_
  rw [List.map_cons, show k c0 = j by rw [hk]; simp]
  refine (List.perm_append_singleton _ _).symm.trans ?_
  rw [List.map_congr_left (g := at' 0 ids)]
  intro w hw
  rw [hk]
  dsimp only
  rw [if_neg (by rintro rfl; exact hc0 hw)]

end TreeIso
