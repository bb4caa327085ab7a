import Verif.Proof.TreeIso

/-! # `is_isomorphic` -/

namespace Tree
open Graph

variable {g h : Array (List Nat)}

theorem mem_side {v w x : Nat} : x ∈ side g v w ↔ x < g.size ∧ Anc g v w x := by
  classical
  rw [side, List.mem_filter, List.mem_range]
  simp

theorem IsIso.symm {f : Nat → Nat} (hf : IsIso g h f) : ∃ f', IsIso h g f' ∧ (∀ x, x < g.size → f' (f x) = x) ∧ ∀ y, y < h.size → f (f' y) = y := by
  classical
  obtain ⟨f', hf'⟩ : ∃ f' : Nat → Nat, ∀ y, y < h.size → f' y < g.size ∧ f (f' y) = y := by
    refine ⟨fun y => if hy : y < h.size then (hf.surj y hy).choose else 0, fun y hy => ?_⟩
    dsimp only
    rw [dif_pos hy]
    exact (hf.surj y hy).choose_spec
  have inv : ∀ x, x < g.size → f' (f x) = x := fun x hx => hf.inj _ _ (hf' _ (hf.maps x hx)).1 hx (hf' _ (hf.maps x hx)).2
  refine ⟨f', ⟨fun y hy => (hf' y hy).1, fun x y hx hy e => ?_, fun x hx => ⟨f x, hf.maps x hx, inv x hx⟩, fun x y hx hy => ?_⟩, inv, fun y hy => (hf' y hy).2⟩
  · rw [← (hf' x hx).2, ← (hf' y hy).2, e]
  · rw [hf.edge _ _ (hf' x hx).1 (hf' y hy).1, (hf' x hx).2, (hf' y hy).2]

theorem IsIso.anc {f : Nat → Nat} (hg : IsTree g) (hf : IsIso g h f) {r a v : Nat} (hr : r < g.size) (ha : Anc g r a v) : Anc h (f r) (f a) (f v) := by
  obtain ⟨p, hp, ham⟩ := ha
  have hlt := path_mem_lt hg hr hp
  refine ⟨p.map f, ⟨?_, ?_, ?_, ?_⟩, List.mem_map_of_mem ham⟩
  · rw [List.head?_map, hp.head]; rfl
  · rw [List.getLast?_map, hp.last]; rfl
  · rw [List.nodup_map_iff_inj_on hp.nodup]
    exact fun x hx y hy => hf.inj x y (hlt x hx) (hlt y hy)
  · rw [List.isChain_map]
    refine hp.chain.imp_of_mem_imp fun x y hx hy he => ?_
    exact (hf.edge x y (hlt x hx) (hlt y hy)).1 he

theorem IsIso.size_le {f : Nat → Nat} (hf : IsIso g h f) : g.size ≤ h.size := by
  have hn : ((List.range g.size).map f).Nodup := by
    rw [List.nodup_map_iff_inj_on List.nodup_range]
    exact fun x hx y hy => hf.inj x y (List.mem_range.1 hx) (List.mem_range.1 hy)
  have := (List.subperm_of_subset hn (l₂ := List.range h.size) fun y hy => by
    obtain ⟨x, hx, rfl⟩ := List.mem_map.1 hy
    exact List.mem_range.2 (hf.maps x (List.mem_range.1 hx))).length_le
  simpa using this

theorem IsIso.side_le {f : Nat → Nat} (hg : IsTree g) (hf : IsIso g h f) {v w : Nat} (hv : v < g.size) : (side g v w).length ≤ (side h (f v) (f w)).length := by
  have hm : ∀ x, x ∈ side g v w ↔ x < g.size ∧ Anc g v w x := fun x => mem_side
  have hm2 : ∀ x, x ∈ side h (f v) (f w) ↔ x < h.size ∧ Anc h (f v) (f w) x := fun x => mem_side
  have hs : (side g v w).Nodup := List.nodup_range.filter _
  have hn : ((side g v w).map f).Nodup := by
    rw [List.nodup_map_iff_inj_on hs]
    exact fun x hx y hy => hf.inj x y ((hm x).1 hx).1 ((hm y).1 hy).1
  have := (List.subperm_of_subset hn (l₂ := side h (f v) (f w)) fun y hy => by
    obtain ⟨x, hx, rfl⟩ := List.mem_map.1 hy
    obtain ⟨h1, h2⟩ := (hm x).1 hx
    exact (hm2 _).2 ⟨hf.maps x h1, hf.anc hg hv h2⟩).length_le
  simpa using this

theorem IsIso.centroid {f : Nat → Nat} (hh : IsTree h) (hf : IsIso g h f) {v : Nat} (hc : IsCentroid g v) : IsCentroid h (f v) := by
  obtain ⟨f', hf', i1, i2⟩ := hf.symm
  refine ⟨hf.maps v hc.1, fun w hw => ?_⟩
  have hwl := hh.valid _ _ hw
  have e : E g v (f' w) := by rw [hf.edge v (f' w) hc.1 (hf'.maps w hwl), i2 w hwl]; exact hw
  have h1 := hc.2 (f' w) e
  have h2 := hf'.side_le hh (v := f v) (w := w) (hf.maps v hc.1)
  rw [i1 v hc.1] at h2
  have := hf.size_le
  omega

/-- No tree is isomorphic to the proper subtree of a neighbour. -/
theorem not_subtreeIso (hg : IsTree g) {a b : Nat} (ha : a < g.size) (he : E g a b) : ¬ SubtreeIso g a b g b b := by
  rintro ⟨f, hf⟩
  have hb := hg.valid _ _ he
  obtain ⟨l, hl⟩ : ∃ l : List Nat, l = side g a b := ⟨_, rfl⟩
  have hm : ∀ x, x ∈ l ↔ x < g.size ∧ Anc g a b x := fun x => by rw [hl]; exact mem_side
  have hn : l.Nodup := by rw [hl]; exact List.nodup_range.filter _
  have hal : a ∉ l := by
    intro h1
    obtain ⟨-, p, hp, hbp⟩ := (hm a).1 h1
    have : p = [a] := (hg.path a a ha ha).unique hp ⟨rfl, rfl, by simp, by simp⟩
    rw [this, List.mem_singleton] at hbp
    exact hg.irrefl a (hbp ▸ he)
  have h1 : (a :: l).length ≤ (List.range g.size).length := (List.subperm_of_subset (List.nodup_cons.2 ⟨hal, hn⟩) fun x hx => by
    rw [List.mem_range]
    rcases List.mem_cons.1 hx with rfl | hx
    · exact ha
    · exact ((hm x).1 hx).1).length_le
  have h2 : (List.range g.size).length ≤ (l.map f).length := (List.subperm_of_subset List.nodup_range fun y hy => by
    obtain ⟨x, hx, e⟩ := hf.surj y ((TreeIso.anc_root hg hb).2 (List.mem_range.1 hy))
    obtain ⟨p, hp, hbp⟩ := hx
    exact List.mem_map.2 ⟨x, (hm x).2 ⟨path_end_lt hg ha hp, p, hp, hbp⟩, e⟩).length_le
  simp at h1 h2
  omega

end Tree

namespace TreeIso
open Cxx Graph Tree IterDFS

/-- `i` is the code of the tree `g` rooted at `c`. -/
def Coded (H : List Nat → Option Nat) (g : Array (List Nat)) (c i : Nat) : Prop := ∃ F, Rooted g c F ∧ FCode H (Forest.tree c F) [i]

theorem Coded.mono {H H' : List Nat → Option Nat} (hH : ∀ k i, H k = some i → H' k = some i) {g : Array (List Nat)} {c i : Nat} (h : Coded H g c i) : Coded H' g c i :=
  ⟨h.choose, h.choose_spec.1, h.choose_spec.2.mono hH⟩

theorem Ids.coded {g : Array (List Nat)} {r : Nat} {H : List Nat → Option Nat} {ids : Array Nat} (h : Ids g r H ids) : Coded H g r (at' 0 ids r) := by
  obtain ⟨F, hF, hc⟩ := h.code
  have := hc r hF.lt
  rw [subtree_root hF] at this
  exact ⟨F, hF, this⟩

theorem coded_iff {H : List Nat → Option Nat} (hH : ∀ k k' i, H k = some i → H k' = some i → k = k') {g h : Array (List Nat)} (hg : IsTree g) (hh : IsTree h) {a b i j : Nat} (hi : Coded H g a i) (hj : Coded H h b j) :
    i = j ↔ RootedIso g a h b := by
  obtain ⟨F, hF, h1⟩ := hi
  obtain ⟨G, hG, h2⟩ := hj
  rw [← rootedIso_iff hg hh hF.lt hG.lt, code_iff hH hg hh hF hG hF.lt hG.lt (by rw [subtree_root hF]; exact h1) (by rw [subtree_root hG]; exact h2)]

/-- What `secondIf` returns. -/
theorem secondIf_tot {g : Array (List Nat)} (hg : IsTree g) {cs : List Nat} {c0 : Nat} (h0 : c0 < g.size) (hc0 : cs.head? = some c0) (h2 : ∀ u v, u ∈ cs → v ∈ cs → u ≠ v → E g u v) (hn : cs.Nodup) {h : Handler} {H : List Nat → Option Nat} (hA : Abs h H) {ids : Array Nat}
    (hI : Ids g c0 H ids) (d : Int) : Tot (secondIf h g ids cs c0 d) fun t => ∃ H', Abs t.1 H' ∧ (∀ k j, H k = some j → H' k = some j) ∧ ((cs.length ≠ 2 ∧ t.2 = d) ∨ ∃ (c1 i : Nat), cs = [c0, c1] ∧ E g c0 c1 ∧ t.2 = i ∧ Coded H' g c1 i) := by
  unfold secondIf
  split
  · rename_i hl
    obtain ⟨x, c1, rfl⟩ := List.length_eq_two.1 hl
    have : x = c0 := by simpa using hc0
    subst this
    rw [show rd [x, c1].toArray 1 = .ok c1 from rfl, ok_bind]
    have he : E g x c1 := h2 x c1 (by simp) (by simp) (by simpa using hn)
    refine Tot.bind (second_tot hg h0 he hA hI) ?_
    rintro ⟨h', i⟩ ⟨H', a1, a2, F, a3, a4⟩
    exact Tot.pure ⟨H', a1, a2, Or.inr ⟨c1, i, rfl, he, rfl, F, a3, a4⟩⟩
  · rename_i hl
    exact Tot.pure ⟨H, hA, fun _ _ h => h, Or.inl ⟨hl, rfl⟩⟩

/-- The outcome of `is_isomorphic`: `some (a, b)` if the trees are isomorphic; otherwise nothing if the second tree has two centroids, and undefined behaviour if it has one. -/
theorem isIsomorphic_outcome {g1 g2 : Array (List Nat)} (hg1 : IsTree g1) (hg2 : IsTree g2) (n1 : g1.size < 2 ^ 30) (n2 : g2.size < 2 ^ 30) {h : Handler} {H : List Nat → Option Nat} (hA : Abs h H) :
    (Isomorphic g1 g2 ∧ ∃ h' a b, isIsomorphic h g1 g2 = .ok (h', some (a, b)) ∧ RootedIso g1 a g2 b ∧ ∃ H', Abs h' H') ∨
    (¬ Isomorphic g1 g2 ∧ (∃ u v, u ≠ v ∧ IsCentroid g2 u ∧ IsCentroid g2 v) ∧ ∃ h', isIsomorphic h g1 g2 = .ok (h', none) ∧ ∃ H', Abs h' H') ∨
    (¬ Isomorphic g1 g2 ∧ (∃! u, IsCentroid g2 u) ∧ isIsomorphic h g1 g2 = .error .ub) := by
  obtain ⟨cs1, e1, d1, m1, l1, t1⟩ := FindCentroids.findCentroids_tot hg1 n1
  obtain ⟨cs2, e2, d2, m2, l2, t2⟩ := FindCentroids.findCentroids_tot hg2 n2
  obtain ⟨a0, r1, hr1⟩ : ∃ a0 r1, cs1 = a0 :: r1 := by
    cases cs1 with
    | nil => simp at l1
    | cons a r => exact ⟨a, r, rfl⟩
  obtain ⟨b0, r2, hr2⟩ : ∃ b0 r2, cs2 = b0 :: r2 := by
    cases cs2 with
    | nil => simp at l2
    | cons a r => exact ⟨a, r, rfl⟩
  have ca : IsCentroid g1 a0 := (m1 a0).1 (by rw [hr1]; simp)
  have cb : IsCentroid g2 b0 := (m2 b0).1 (by rw [hr2]; simp)
  obtain ⟨⟨h1, ids10⟩, k1, H1, A1, x1, I1⟩ := classifySubtrees_tot hg1 ca.1 hA
  dsimp only at A1 I1
  obtain ⟨⟨h2, ids20⟩, k2, H2, A2, x2, I2⟩ := classifySubtrees_tot hg2 cb.1 A1
  dsimp only at A2 I2
  have I1' := I1.mono x2
  have s1 := I1.1
  have s2 := I2.1
  have hrun : isIsomorphic h g1 g2 = if at' 0 ids10 a0 = at' 0 ids20 b0 then .ok (h2, some (a0, b0)) else isoRest h2 g1 g2 cs1 cs2 ids10 ids20 a0 b0 := by
    unfold isIsomorphic
    rw [e1, ok_bind, e2, ok_bind, show rd cs1.toArray 0 = .ok a0 by rw [hr1]; rfl, ok_bind, show rd cs2.toArray 0 = .ok b0 by rw [hr2]; rfl, ok_bind, k1, ok_bind]
    dsimp only
    rw [k2, ok_bind]
    dsimp only
    rw [rd_at 0 (by have := ca.1; omega), ok_bind, rd_at 0 (by have := cb.1; omega), ok_bind]
    rfl
  have c0 := coded_iff A2.inj hg1 hg2 I1'.coded I2.coded
  by_cases hxy : at' 0 ids10 a0 = at' 0 ids20 b0
  · left
    have hr := c0.1 hxy
    refine ⟨⟨hr.choose, hr.choose_spec.1⟩, h2, a0, b0, ?_, hr, H2, A2⟩
    rw [hrun, if_pos hxy]
  rw [if_neg hxy] at hrun
  obtain ⟨⟨h3, id11⟩, k3, H3, A3, x3, B1⟩ := secondIf_tot hg1 ca.1 (by rw [hr1]; rfl) t1 d1 A2 I1' (-1)
  obtain ⟨⟨h4, id21⟩, k4, H4, A4, x4, B2⟩ := secondIf_tot hg2 cb.1 (by rw [hr2]; rfl) t2 d2 A3 (I2.mono x3) (-2)
  dsimp only at A3 A4 B1 B2
  have I1'' := (I1'.mono x3).mono x4
  have I2'' := (I2.mono x3).mono x4
  have hrun2 : isIsomorphic h g1 g2 = cmp1 h4 cs1 cs2 ids20 a0 b0 id11 id21 := by
    rw [hrun, isoRest, k3, ok_bind]
    dsimp only
    rw [k4, ok_bind]
  rw [hrun2, cmp1, rd_at 0 (by have := cb.1; omega), ok_bind]
  by_cases h213 : id11 = ((at' 0 ids20 b0 : Nat) : Int)
  · left
    rw [if_pos h213]
    rcases B1 with ⟨-, e⟩ | ⟨a1, i, e3, e4, e5, e6⟩
    · omega
    · have : i = at' 0 ids20 b0 := by omega
      have hr := (coded_iff A4.inj hg1 hg2 (e6.mono x4) I2''.coded).1 this
      refine ⟨⟨hr.choose, hr.choose_spec.1⟩, h4, a1, b0, ?_, hr, H4, A4⟩
      rw [e3]; rfl
  · rw [if_neg h213]
    -- not isomorphic in either of the first two ways: not isomorphic at all
    have hnot : ¬ Isomorphic g1 g2 := by
      rintro ⟨f, hf⟩
      have hfa : f a0 ∈ cs2 := (m2 _).2 (hf.centroid hg2 ca)
      rw [hr2, List.mem_cons] at hfa
      rcases hfa with hfa | hfa
      · exact hxy (c0.2 ⟨f, hf, hfa⟩)
      · obtain ⟨f', hf', i1, i2⟩ := hf.symm
        have hfb : f' b0 ∈ cs1 := (m1 _).2 (hf'.centroid hg1 cb)
        have hne : f' b0 ≠ a0 := by
          intro e
          have := i2 b0 cb.1
          rw [e] at this
          rw [this] at hfa
          rw [hr2, List.nodup_cons] at d2
          exact d2.1 hfa
        rcases B1 with ⟨hl, -⟩ | ⟨a1, i, e3, e4, e5, e6⟩
        · have hl1 := l1.resolve_right hl
          rw [hr1] at hfb hl1
          have : r1 = [] := by simpa using hl1
          rw [this] at hfb
          exact hne (by simpa using hfb)
        · rw [e3] at hfb
          have hb1 : f' b0 = a1 := by
            rcases List.mem_cons.1 hfb with h' | h'
            · exact absurd h' hne
            · simpa using h'
          have hr : RootedIso g1 a1 g2 b0 := ⟨f, hf, by rw [← hb1]; exact i2 b0 cb.1⟩
          have := (coded_iff A4.inj hg1 hg2 (e6.mono x4) I2''.coded).2 hr
          omega
    right
    rw [cmp2]
    rcases B2 with ⟨hl, e⟩ | ⟨b1, j, e3, e4, e5, e6⟩
    · right
      have hl2 := l2.resolve_right hl
      have hr2' : r2 = [] := by rw [hr2] at hl2; simpa using hl2
      refine ⟨hnot, ⟨b0, cb, fun y hy => ?_⟩, ?_⟩
      · have := (m2 y).2 hy
        rw [hr2, hr2'] at this
        simpa using this
      · rw [hr2, hr2']; rfl
    · left
      refine ⟨hnot, ⟨b0, b1, ?_, cb, (m2 b1).1 (by rw [e3]; simp)⟩, h4, ?_, H4, A4⟩
      · rw [e3] at d2; simpa using d2
      · have hb1 : b1 < g2.size := hg2.valid _ _ e4
        rw [e3, show rd [b0, b1].toArray 1 = .ok b1 from rfl, ok_bind, rd_at 0 (by omega), ok_bind]
        have hne : ((at' 0 ids20 b1 : Nat) : Int) ≠ id21 := by
          intro e
          have e' : at' 0 ids20 b1 = j := by omega
          obtain ⟨F, hF, hc⟩ := I2''.code
          obtain ⟨G, hG, hc'⟩ := e6
          have := (code_iff A4.inj hg2 hg2 hF hG hb1 hb1 (hc b1 hb1) (by rw [subtree_root hG]; exact hc')).1 e'
          exact not_subtreeIso hg2 cb.1 e4 this
        rw [if_neg hne, cmp3]
        rw [if_neg]
        · rfl
        · intro e
          rcases B1 with ⟨-, e7⟩ | ⟨a1, i, -, -, e8, e9⟩
          · omega
          · have hij : i = j := by omega
            have hr := (coded_iff A4.inj hg1 hg2 (e9.mono x4) e6).1 hij
            exact hnot ⟨hr.choose, hr.choose_spec.1⟩

end TreeIso
