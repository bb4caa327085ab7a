import Verif.Proof.Biconnected

namespace Biconnected
open Cxx Cut LowLink

variable {n : Nat} {E : List (Nat × Nat)} {o : LowLink.Obj} {v : V}

theorem Fin.id (B : Built n E o v) {s : Biconnected.St} (F : Fin n E o v s) {i x y : Nat} (h : Inc E x y i) (hne : x ≠ y) :
    ∃ k : Nat, k < s.num ∧ at' (-1) s.comp i = k := by
  obtain ⟨f, hf⟩ := F.inv.ids
  rcases lower_of B.cert h hne with hl | hl
  · obtain ⟨w, hw⟩ := hl.head B.cert
    exact ⟨f w, hf.lt w hw.1, hf.yes i x y w hl hw hw.1⟩
  · obtain ⟨w, hw⟩ := hl.head B.cert
    exact ⟨f w, hf.lt w hw.1, hf.yes i y x w hl hw hw.1⟩

theorem Fin.same (B : Built n E o v) {s : Biconnected.St} (F : Fin n E o v s) {i x y j x' y' : Nat} (h : Inc E x y i) (hne : x ≠ y) (h' : Inc E x' y' j) (hne' : x' ≠ y') :
    at' (-1) s.comp i = at' (-1) s.comp j ↔ SameBlock E i j := by
  obtain ⟨f, hf⟩ := F.inv.ids
  have lo : ∀ {i x y : Nat}, Inc E x y i → x ≠ y → ∃ x y w, Lower E v i x y ∧ IsHead v n x w := by
    intro i x y h hne
    rcases lower_of B.cert h hne with hl | hl
    · obtain ⟨w, hw⟩ := hl.head B.cert; exact ⟨x, y, w, hl, hw⟩
    · obtain ⟨w, hw⟩ := hl.head B.cert; exact ⟨y, x, w, hl, hw⟩
  obtain ⟨a, b, w, hl, hw⟩ := lo h hne
  obtain ⟨a', b', w', hl', hw'⟩ := lo h' hne'
  rw [block_iff B.cert hl hl' hw hw', hf.yes _ _ _ _ hl hw hw.1, hf.yes _ _ _ _ hl' hw' hw'.1]
  constructor
  · intro e
    exact hf.inj w w' hw.1 hw'.1 (by exact_mod_cast e)
  · rintro rfl; rfl

/-- Every number is used. -/
theorem Fin.surj (B : Built n E o v) {s : Biconnected.St} (F : Fin n E o v s) {k : Nat} (hk : k < s.num) : ∃ i x y, Inc E x y i ∧ x ≠ y ∧ at' (-1) s.comp i = k := by
  obtain ⟨f, hf⟩ := F.inv.ids
  obtain ⟨w, w1, w2⟩ := hf.surj k hk
  obtain ⟨p, i, -, -, h3, -⟩ := w1.edge B.cert
  refine ⟨i, w, p, h3.1, by rintro rfl; have := h3.2; omega, ?_⟩
  rw [hf.yes i w p w h3 (IsHead.self B.cert w1) w1, w2]

theorem Fin.count (B : Built n E o v) {s : Biconnected.St} (F : Fin n E o v s) :
    CompCount E.length (fun i => ∃ x y, Inc E x y i ∧ x ≠ y) (SameBlock E) s.num := by
  classical
  have hsurj : ∀ k : Nat, ∃ i, k < s.num → (∃ x y, Inc E x y i ∧ x ≠ y) ∧ at' (-1) s.comp i = k := by
    intro k
    by_cases hk : k < s.num
    · obtain ⟨i, x, y, h1, h2, h3⟩ := F.surj B hk
      exact ⟨i, fun _ => ⟨⟨x, y, h1, h2⟩, h3⟩⟩
    · exact ⟨0, fun h => absurd h hk⟩
  choose f hf using hsurj
  refine ⟨(Finset.range s.num).image f, ?_, ?_, ?_⟩
  · rw [Finset.card_image_of_injOn, Finset.card_range]
    intro a ha b hb e
    rw [Finset.coe_range] at ha hb
    have h1 := (hf a ha).2
    have h2 := (hf b hb).2
    rw [e] at h1
    omega
  · intro r hr
    rw [Finset.mem_image] at hr
    obtain ⟨k, hk, rfl⟩ := hr
    have := (hf k (Finset.mem_range.mp hk)).1
    obtain ⟨x, y, h1, h2⟩ := this
    exact ⟨inc_lt h1, x, y, h1, h2⟩
  · rintro i hi ⟨x, y, h1, h2⟩
    obtain ⟨k, k1, k2⟩ := F.id B h1 h2
    obtain ⟨⟨a, b, f1, f2⟩, f3⟩ := hf k k1
    refine ⟨f k, ⟨Finset.mem_image.mpr ⟨k, Finset.mem_range.mpr k1, rfl⟩, (F.same B h1 h2 f1 f2).mp (by rw [k2, f3])⟩, ?_⟩
    rintro r ⟨hr, hs⟩
    rw [Finset.mem_image] at hr
    obtain ⟨j, hj, rfl⟩ := hr
    obtain ⟨⟨a', b', g1, g2⟩, g3⟩ := hf j (Finset.mem_range.mp hj)
    have := (F.same B h1 h2 g1 g2).mpr hs
    have : j = k := by omega
    rw [this]

theorem make_tot {es : List (Nat × Nat)} (h : ∀ e ∈ es, e.1 < n ∧ e.2 < n) : Tot (make n es) fun p => ∃ v, Built n es p.1 v ∧ Fin n es p.1 v p.2 := by
  unfold make
  refine Tot.bind (LowLink.make_tot h) ?_
  rintro o ⟨v, B⟩
  refine Tot.bind (dfsAll_tot B) ?_
  intro s hs
  exact Tot.pure ⟨v, B, hs⟩

/-! ### `components()` -/

/-- The edges numbered `k`. -/
def eidsOf (m : Nat) (s : Biconnected.St) (k : Nat) : List Nat := (List.range m).filter fun i => at' (-1) s.comp i = k

theorem eids_tot (B : Built n E o v) {s : Biconnected.St} (F : Fin n E o v s) (hl : ∀ e ∈ E, e.1 ≠ e.2) :
    Tot (forUp 0 E.length (Array.replicate (s.num + s.iso.length) (⟨[], []⟩ : Sub)) (addEid s)) fun r => r.size = s.num + s.iso.length ∧
      ∀ k, k < r.size → at' ⟨[], []⟩ r k = ⟨[], eidsOf E.length s k⟩ := by
  refine Tot.forUp (lo := 0) (hi := E.length) (P := fun i (r : Array Sub) => r.size = s.num + s.iso.length ∧ ∀ k, k < r.size → at' ⟨[], []⟩ r k = ⟨[], eidsOf i s k⟩)
    (by omega) ⟨by simp, fun k hk => by simp at hk; simp [at', hk, eidsOf]⟩ ?_
  rintro i r - hi ⟨h1, h2⟩
  have hin : Inc E E[i].1 E[i].2 i := .inl (List.getElem?_eq_getElem hi)
  obtain ⟨k, k1, k2⟩ := F.id B hin (hl _ (List.getElem_mem hi))
  have sc : k < r.size := by omega
  unfold addEid
  rw [rd_at (-1) (by rw [F.inv.s2]; exact hi), ok_bind, k2, if_neg (by omega), Int.toNat_natCast, rd_at ⟨[], []⟩ sc, ok_bind, wr_eq sc]
  refine tot_ok.mpr ⟨by simpa using h1, ?_⟩
  intro j hj
  rw [at_set _ sc]
  simp only [Array.size_setIfInBounds] at hj
  unfold eidsOf
  rw [List.range_succ, List.filter_append]
  by_cases e : k = j
  · subst e
    rw [if_pos rfl, h2 k sc]
    simp [eidsOf, k2]
  · rw [if_neg e, h2 j hj]
    simp [eidsOf, k2]
    omega

/-- The end points of the edges `l`. -/
def Ends (E : List (Nat × Nat)) (l : List Nat) (x : Nat) : Prop := ∃ i ∈ l, ∃ y, Inc E x y i

theorem addVid_tot {u : Nat} {st : Array Bool × List Nat} (hu : u < st.1.size) (h : ∀ x, x < st.1.size → (at' false st.1 x = true ↔ x ∈ st.2)) (hn : st.2.Nodup) :
    Tot (addVid u st) fun st' => st'.1.size = st.1.size ∧ (∀ x, x < st'.1.size → (at' false st'.1 x = true ↔ x ∈ st'.2)) ∧ st'.2.Nodup ∧
      ∀ x, x ∈ st'.2 ↔ x ∈ st.2 ∨ x = u := by
  unfold addVid
  rw [rd_at false hu, ok_bind, wr_eq hu, ok_bind]
  have hb := h u hu
  have key : ∀ x, x ∈ (if at' false st.1 u = true then st.2 else st.2 ++ [u]) ↔ x ∈ st.2 ∨ x = u := by
    intro x
    split_ifs with hc
    · constructor
      · intro h; exact .inl h
      · rintro (h | rfl)
        · exact h
        · exact hb.mp hc
    · simp
  refine Tot.pure ⟨by simp, ?_, ?_, key⟩
  · intro x hx
    rw [at_set false hu, key]
    by_cases e : u = x
    · subst e; simp
    · rw [if_neg e, h x (by simpa using hx)]
      constructor
      · intro h; exact .inl h
      · rintro (h | h)
        · exact h
        · exact absurd h.symm e
  · dsimp only
    split_ifs with hc
    · exact hn
    · refine List.nodup_append.mpr ⟨hn, List.nodup_singleton _, ?_⟩
      intro a ha b hb' e
      rw [List.mem_singleton] at hb'
      subst e hb'
      exact hc (hb.mpr ha)

theorem edgeAt_ok (B : Built n E o v) {i : Nat} (hi : i < E.length) : edgeAt o i = .ok E[i] := by
  unfold edgeAt
  rw [B.edges, List.getElem?_eq_getElem hi]
  rfl

theorem inc_get {i x y : Nat} (hi : i < E.length) : Inc E x y i ↔ (x = E[i].1 ∧ y = E[i].2) ∨ (x = E[i].2 ∧ y = E[i].1) := by
  unfold Inc
  rw [List.getElem?_eq_getElem hi]
  constructor
  · rintro (h | h) <;> simp only [Option.some.injEq] at h <;> rw [h] <;> simp
  · rintro (⟨rfl, rfl⟩ | ⟨rfl, rfl⟩) <;> simp

theorem fillVids_tot (B : Built n E o v) {id : Nat} {st : Array Bool × Array Sub} {l : List Nat} (hl : ∀ i ∈ l, i < E.length) (h1 : st.1.size = n)
    (h2 : ∀ x, at' false st.1 x = false) (hid : id < st.2.size) (h3 : at' ⟨[], []⟩ st.2 id = ⟨[], l⟩) :
    Tot (fillVids o id st) fun st' => st'.1.size = n ∧ (∀ x, at' false st'.1 x = false) ∧
      ∃ vs : List Nat, vs.Nodup ∧ (∀ x, x ∈ vs ↔ Ends E l x) ∧ st'.2 = st.2.setIfInBounds id ⟨vs, l⟩ := by
  unfold fillVids
  rw [rd_at ⟨[], []⟩ hid, ok_bind, h3]
  dsimp only
  have bn : ∀ i (hi : i < E.length), E[i].1 < n ∧ E[i].2 < n := fun i hi => B.cert.bnd _ _ i (.inl (List.getElem?_eq_getElem hi))
  refine Tot.bind (Tot.forEach (P := fun A (r : Array Bool × List Nat) => r.1.size = n ∧ (∀ x, x < r.1.size → (at' false r.1 x = true ↔ x ∈ r.2)) ∧ r.2.Nodup ∧
    ∀ x, x ∈ r.2 ↔ Ends E A x) ⟨h1, ?_, by simp, ?_⟩ ?_) ?_
  · intro x hx
    dsimp only
    rw [h2 x]
    simp
  · intro x
    simp [Ends]
  · rintro A i C r hA ⟨a1, a2, a3, a4⟩
    have hi := hl i (by rw [hA]; simp)
    obtain ⟨b1, b2⟩ := bn i hi
    unfold addEnds
    rw [edgeAt_ok B hi, ok_bind]
    refine Tot.bind (addVid_tot (by rw [a1]; exact b1) a2 a3) ?_
    rintro r' ⟨c1, c2, c3, c4⟩
    refine (addVid_tot (by rw [c1, a1]; exact b2) c2 c3).mono ?_
    rintro r'' ⟨d1, d2, d3, d4⟩
    refine ⟨by rw [d1, c1, a1], d2, d3, ?_⟩
    intro x
    rw [d4, c4, a4]
    unfold Ends
    constructor
    · rintro ((⟨j, j1, y, j2⟩ | e) | e)
      · exact ⟨j, List.mem_append_left _ j1, y, j2⟩
      · exact ⟨i, by simp, E[i].2, (inc_get hi).mpr (.inl ⟨e, rfl⟩)⟩
      · exact ⟨i, by simp, E[i].1, (inc_get hi).mpr (.inr ⟨e, rfl⟩)⟩
    · rintro ⟨j, j1, y, j2⟩
      rw [List.mem_append, List.mem_singleton] at j1
      rcases j1 with j1 | rfl
      · exact .inl (.inl ⟨j, j1, y, j2⟩)
      · rcases (inc_get hi).mp j2 with ⟨e, -⟩ | ⟨e, -⟩
        · exact .inl (.inr e)
        · exact .inr e
  · rintro r ⟨a1, a2, a3, a4⟩
    refine Tot.bind (Tot.forEach (P := fun A (seen : Array Bool) => seen.size = n ∧ ∀ x, at' false seen x = true → x ∈ r.2 ∧ ¬ Ends E A x) ⟨a1, ?_⟩ ?_) ?_
    · intro x hx
      have hxs : x < r.1.size := by
        by_contra hc
        rw [at_ge false (by omega)] at hx
        cases hx
      refine ⟨(a2 x hxs).mp hx, ?_⟩
      simp [Ends]
    · rintro A i C seen hA ⟨b1, b2⟩
      have hi := hl i (by rw [hA]; simp)
      obtain ⟨c1, c2⟩ := bn i hi
      unfold clearEnds
      have s1 : E[i].2 < seen.size := by rw [b1]; exact c2
      have s2 : E[i].1 < (seen.setIfInBounds E[i].2 false).size := by simp [b1, c1]
      rw [edgeAt_ok B hi, ok_bind, wr_eq s1, ok_bind, wr_eq s2]
      refine tot_ok.mpr ⟨by simpa using b1, ?_⟩
      intro x hx
      rw [at_set false s2, at_set false s1] at hx
      split_ifs at hx with e1 e2
      obtain ⟨d1, d2⟩ := b2 x hx
      refine ⟨d1, ?_⟩
      rintro ⟨j, j1, y, j2⟩
      rw [List.mem_append, List.mem_singleton] at j1
      rcases j1 with j1 | rfl
      · exact d2 ⟨j, j1, y, j2⟩
      · rcases (inc_get hi).mp j2 with ⟨e, -⟩ | ⟨e, -⟩
        · exact e1 e.symm
        · exact e2 e.symm
    · rintro seen ⟨b1, b2⟩
      rw [wr_eq hid, ok_bind]
      refine Tot.pure ⟨b1, ?_, r.2, a3, a4, rfl⟩
      intro x
      rw [Bool.eq_false_iff]
      intro hx
      obtain ⟨d1, d2⟩ := b2 x hx
      exact d2 ((a4 x).mp d1)

theorem components_tot (B : Built n E o v) {s : Biconnected.St} (F : Fin n E o v s) (hl : ∀ e ∈ E, e.1 ≠ e.2) :
    Tot (components o s) fun r => r.size = s.num + s.iso.length ∧
      (∀ k, k < s.num → (at' ⟨[], []⟩ r k).eids = eidsOf E.length s k ∧ (at' ⟨[], []⟩ r k).vids.Nodup ∧ ∀ x, x ∈ (at' ⟨[], []⟩ r k).vids ↔ Ends E (eidsOf E.length s k) x) ∧
      ∀ j (hj : j < s.iso.length), at' ⟨[], []⟩ r (s.num + j) = ⟨[s.iso[j]], []⟩ := by
  unfold components
  rw [B.built, B.edges, B.size]
  refine Tot.bind (eids_tot B F hl) ?_
  rintro r0 ⟨h1, h2⟩
  have hle : ∀ k, ∀ i ∈ eidsOf E.length s k, i < E.length := by
    intro k i hi
    unfold eidsOf at hi
    rw [List.mem_filter, List.mem_range] at hi
    exact hi.1
  refine Tot.bind (Tot.forUp (lo := 0) (hi := s.num) (P := fun k (st : Array Bool × Array Sub) => st.1.size = n ∧ (∀ x, at' false st.1 x = false) ∧
    st.2.size = s.num + s.iso.length ∧ (∀ j, k ≤ j → j < st.2.size → at' ⟨[], []⟩ st.2 j = ⟨[], eidsOf E.length s j⟩) ∧
    ∀ j, j < k → (at' ⟨[], []⟩ st.2 j).eids = eidsOf E.length s j ∧ (at' ⟨[], []⟩ st.2 j).vids.Nodup ∧ ∀ x, x ∈ (at' ⟨[], []⟩ st.2 j).vids ↔ Ends E (eidsOf E.length s j) x)
    (by omega) ⟨by simp, ?_, h1, fun j _ hj => h2 j hj, by omega⟩ ?_) ?_
  · intro x
    dsimp only
    unfold at'
    rw [Array.getElem?_replicate]
    split <;> rfl
  · rintro k st - hk ⟨a1, a2, a3, a4, a5⟩
    have sk : k < st.2.size := by omega
    refine (fillVids_tot B (hle k) a1 a2 sk (a4 k (le_refl _) sk)).mono ?_
    rintro st' ⟨b1, b2, vs, b3, b4, b5⟩
    refine ⟨b1, b2, by rw [b5]; simpa using a3, ?_, ?_⟩
    · intro j hj hj'
      rw [b5] at hj' ⊢
      rw [at_set _ sk, if_neg (by omega)]
      exact a4 j (by omega) (by simpa using hj')
    · intro j hj
      rw [b5, at_set _ sk]
      by_cases e : k = j
      · subst e
        rw [if_pos rfl]
        exact ⟨rfl, b3, b4⟩
      · rw [if_neg e]
        exact a5 j (by omega)
  · rintro st ⟨a1, a2, a3, a4, a5⟩
    have h0 : ∀ j, j < s.iso.length → eidsOf E.length s (s.num + j) = [] := by
      intro j _
      unfold eidsOf
      rw [List.filter_eq_nil_iff]
      intro i hi
      rw [List.mem_range] at hi
      have hin : Inc E E[i].1 E[i].2 i := .inl (List.getElem?_eq_getElem hi)
      obtain ⟨k, k1, k2⟩ := F.id B hin (hl _ (List.getElem_mem hi))
      rw [k2]
      simp
      omega
    refine Tot.bind (Tot.forEach (P := fun A (r : Nat × Array Sub) => r.1 = s.num + A.length ∧ r.2.size = s.num + s.iso.length ∧
      (∀ j, j < s.num ∨ r.1 ≤ j → at' ⟨[], []⟩ r.2 j = at' ⟨[], []⟩ st.2 j) ∧
      ∀ j (hj : j < A.length), at' ⟨[], []⟩ r.2 (s.num + j) = ⟨[A[j]], []⟩) ⟨by simp, a3, fun _ _ => rfl, by simp⟩ ?_) ?_
    · rintro A x C ⟨id, res⟩ hA ⟨b1, b2, b3, b4⟩
      dsimp only at b1 b2 b3 b4
      have hlen : A.length < s.iso.length := by rw [hA]; simp
      have sid : id < res.size := by omega
      unfold addIso
      dsimp only
      rw [rd_at ⟨[], []⟩ sid, ok_bind, wr_eq sid, ok_bind]
      have hold : at' ⟨[], []⟩ res id = ⟨[], []⟩ := by
        rw [b3 id (.inr (le_refl _)), a4 id (by omega) (by omega), b1, h0 _ hlen]
      refine Tot.pure ⟨by simp; omega, by simpa using b2, ?_, ?_⟩
      · intro j hj
        dsimp only at hj ⊢
        rw [at_set _ sid, if_neg (by omega)]
        exact b3 j (by omega)
      · intro j hj
        dsimp only
        rw [at_set _ sid, hold]
        simp only [List.length_append, List.length_cons, List.length_nil] at hj
        by_cases e : j = A.length
        · subst e
          rw [if_pos b1]
          simp
        · rw [if_neg (by omega), b4 j (by omega)]
          rw [List.getElem_append_left (by omega)]
    · rintro ⟨id, res⟩ ⟨b1, b2, b3, b4⟩
      dsimp only at b1 b2 b3 b4
      refine Tot.pure ⟨b2, ?_, b4⟩
      intro k hk
      dsimp only
      rw [b3 k (.inl hk)]
      exact a5 k hk

end Biconnected
