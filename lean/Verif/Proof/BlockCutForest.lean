import Verif.Proof.BiconnectedComp
import Verif.Proof.RemoveMultiedges
import Verif.Model.BlockCutForest
import Mathlib.Combinatorics.SimpleGraph.Acyclic
import Mathlib.Combinatorics.SimpleGraph.Paths

namespace BlockCutForest
open Cxx Cut LowLink Biconnected

variable {n : Nat} {E : List (Nat × Nat)} {o : LowLink.Obj} {v : V}

/-! ### Acyclicity from a rank -/

theorem acyclic_of_rank {α : Type} (G : SimpleGraph α) (r : α → Int) (h : ∀ a b, G.Adj a b → r a ≠ r b)
    (hu : ∀ a b c, G.Adj a b → G.Adj a c → r b < r a → r c < r a → b = c) : G.IsAcyclic := by
  intro v p hp
  obtain ⟨u, hu1, hu2⟩ : ∃ u ∈ p.support, ∀ w ∈ p.support, r w ≤ r u := by
    classical
    obtain ⟨u, h1, h2⟩ := Finset.exists_max_image p.support.toFinset r ⟨v, by simp⟩
    exact ⟨u, by simpa using h1, fun w hw => h2 w (by simpa using hw)⟩
  classical
  have hq := hp.rotate hu1
  have hm : ∀ w ∈ (p.rotate u hu1).support, r w ≤ r u := by
    intro w hw
    apply hu2
    simpa using hw
  generalize p.rotate u hu1 = q at hq hm
  have hn : ¬ q.Nil := hq.not_nil
  have a1 := q.adj_snd hn
  have a2 := (q.adj_penultimate hn).symm
  refine hq.snd_ne_penultimate (hu u _ _ a1 a2 ?_ ?_)
  · exact lt_of_le_of_ne (hm _ (q.getVert_mem_support _)) fun e => h _ _ a1 e.symm
  · exact lt_of_le_of_ne (hm _ (q.getVert_mem_support _)) fun e => h _ _ a2 e.symm

theorem eraseDups_nodup : ∀ (k : Nat) (l : List Nat), l.length ≤ k → l.eraseDups.Nodup := by
  intro k
  induction k with
  | zero =>
    intro l h
    have : l = [] := List.length_eq_zero_iff.mp (by omega)
    subst this
    simp
  | succ k ih =>
    intro l h
    cases l with
    | nil => simp
    | cons a l =>
      rw [List.eraseDups_cons, List.nodup_cons]
      refine ⟨?_, ih _ ?_⟩
      · rw [List.mem_eraseDups]; simp
      · exact le_trans (List.length_filter_le _ _) (by simpa using h)

/-! ### Blocks and their vertices -/

/-- The number of the block of an edge. -/
def cid (s : Biconnected.St) (i : Nat) : Nat := (at' (-1) s.comp i).toNat

/-- `x` is an end of an edge in block `a`. -/
def InBlock (E : List (Nat × Nat)) (s : Biconnected.St) (a x : Nat) : Prop := ∃ y i, Inc E x y i ∧ cid s i = a

section
variable {s : Biconnected.St}

theorem cid_ok (B : Built n E o v) (F : Fin n E o v s) {i x y : Nat} (h : Inc E x y i) (hne : x ≠ y) : at' (-1) s.comp i = cid s i ∧ cid s i < s.num := by
  obtain ⟨k, k1, k2⟩ := F.id B h hne
  unfold cid
  rw [k2]
  exact ⟨by omega, by omega⟩

/-- All edges at a vertex that is no cut vertex belong to one block. -/
theorem one_block (B : Built n E o v) (F : Fin n E o v s) {x a b i j : Nat} (hc : ¬ IsCut E x) (h1 : Inc E x a i) (h2 : Inc E x b j) (ha : x ≠ a) (hb : x ≠ b) :
    cid s i = cid s j := by
  have hs : SameBlock E i j := by
    refine same_of h1 h2 ha.symm hb.symm ?_
    by_contra hr
    exact hc ⟨a, b, ha.symm, hb.symm, (Reach.edge h1.symm trivial).trans (Reach.edge h2 trivial), hr⟩
  have := (F.same B h1 ha h2 hb).mpr hs
  unfold cid
  rw [this]

/-- The rank of the blocks and vertices: `x` lies in block `a` with top `w` iff `w` is the top of `x` or `x` the parent of `w`. -/
theorem inBlock_cases (B : Built n E o v) (F : Fin n E o v s) (hl : ∀ e ∈ E, e.1 ≠ e.2) : ∃ f : Nat → Nat,
    (∀ w w', SepN v n w → SepN v n w' → f w = f w' → w = w') ∧
    ∀ a x, InBlock E s a x → x < n ∧ ∃ w, SepN v n w ∧ f w = a ∧ (IsHead v n x w ∨ v.par w = x) := by
  obtain ⟨f, hf⟩ := F.inv.ids
  refine ⟨f, hf.inj, ?_⟩
  rintro a x ⟨y, i, hi, rfl⟩
  have c := B.cert
  refine ⟨(c.bnd _ _ _ hi).1, ?_⟩
  have hne : x ≠ y := by
    rcases hi with h | h
    · exact hl _ (List.mem_of_getElem? h)
    · exact (hl _ (List.mem_of_getElem? h)).symm
  rcases lower_of c hi hne with h | h
  · obtain ⟨w, hw⟩ := h.head c
    refine ⟨w, hw.1, ?_, .inl hw⟩
    unfold cid
    rw [hf.yes _ _ _ _ h hw hw.1]
    simp
  · obtain ⟨w, hw⟩ := h.head c
    refine ⟨w, hw.1, ?_, ?_⟩
    · unfold cid
      rw [hf.yes _ _ _ _ h hw hw.1]
      simp
    · by_cases hin : v.In w x
      · left
        refine ⟨hw.1, hin, ?_⟩
        intro z hz z1
        refine hw.2.2 z hz ?_
        have a1 := h.anc c
        refine ⟨le_trans z1.1 a1.1, ?_⟩
        exact ((c.done z hz.lt).closed x y i (h.bnd c).2 z1.1 z1.2 hi).2
      · right
        obtain ⟨p, i', p1, p2, p3, p4⟩ := hw.1.edge c
        rw [p1]
        exact_mod_cast (c.sep_leave p4 hw.2.1 h.1 hin).symm

/-! ### The loops -/

theorem number_tot {l : List Nat} {k : Nat} {c : Array Int} (hn : l.Nodup) (hl : ∀ x ∈ l, x < n) (hc : c.size = n) :
    Tot (forEach l (k, c) artStep) fun r => r.2.size = n ∧ ∀ x, x < n → at' (-1) r.2 x = if x ∈ l then ((k + l.idxOf x : Nat) : Int) else at' (-1) c x := by
  refine (Tot.forEach (P := fun A (r : Nat × Array Int) => r.1 = k + A.length ∧ r.2.size = n ∧
    ∀ x, x < n → at' (-1) r.2 x = if x ∈ A then ((k + A.idxOf x : Nat) : Int) else at' (-1) c x) ⟨by simp, hc, by simp⟩ ?_).mono fun r h => h.2
  rintro A x C ⟨j, r⟩ hA ⟨h1, h2, h3⟩
  dsimp only at h1 h2 h3
  have hx : x < r.size := by rw [h2]; exact hl x (by rw [hA]; simp)
  have hxA : x ∉ A := by
    rw [hA] at hn
    have := (List.nodup_append.mp hn).2.2
    intro h
    exact this x h x (by simp) rfl
  unfold artStep
  dsimp only
  rw [wr_eq hx, ok_bind]
  refine Tot.pure ⟨by simp; omega, by simpa using h2, ?_⟩
  intro y hy
  dsimp only
  rw [at_set _ hx]
  by_cases e : x = y
  · subst e
    rw [if_pos rfl, if_pos (by simp), List.idxOf_append_of_notMem hxA, h1]
    simp
  · rw [if_neg e, h3 y hy]
    by_cases hyA : y ∈ A
    · rw [if_pos hyA, if_pos (by simp [hyA]), List.idxOf_append_of_mem hyA]
    · rw [if_neg hyA, if_neg (by simp [hyA, Ne.symm e])]

/-- The node of an articulation point. -/
def node (o : LowLink.Obj) (s : Biconnected.St) (x : Nat) : Nat := s.num + s.iso.length + o.s.arts.idxOf x

/-- The nodes `a` and `b` are joined because of one of the first `k` edges. -/
def Link (E : List (Nat × Nat)) (o : LowLink.Obj) (s : Biconnected.St) (k a b : Nat) : Prop :=
  ∃ i x y, i < k ∧ x ∈ o.s.arts ∧ Inc E x y i ∧ ((a = cid s i ∧ b = node o s x) ∨ (b = cid s i ∧ a = node o s x))

/-- The contents of `art_id`. -/
def ArtOk (n : Nat) (o : LowLink.Obj) (s : Biconnected.St) (art : Array Int) : Prop :=
  art.size = n ∧ ∀ x, x < n → at' (-1) art x = if x ∈ o.s.arts then (node o s x : Int) else -1

/-- The number of nodes. -/
def nodes (o : LowLink.Obj) (s : Biconnected.St) : Nat := s.num + s.iso.length + o.s.arts.length

theorem link_tot {art : Array Int} (hA : ArtOk n o s art) {x c : Nat} (hx : x < n) (hc : c < s.num) {g : Array (List Nat)} (hg : g.size = nodes o s) :
    Tot (link (at' (-1) art x) c g) fun g' => g'.size = nodes o s ∧
      ∀ a b, b ∈ at' [] g' a ↔ b ∈ at' [] g a ∨ (x ∈ o.s.arts ∧ ((a = c ∧ b = node o s x) ∨ (b = c ∧ a = node o s x))) := by
  unfold link
  rw [hA.2 x hx]
  by_cases hm : x ∈ o.s.arts
  · have h1 : node o s x < g.size := by
      have := List.idxOf_lt_length_of_mem hm
      rw [hg]; unfold node nodes; omega
    have h2 : c < g.size := by rw [hg]; unfold nodes; omega
    have h2' : c < (g.setIfInBounds (node o s x) (at' [] g (node o s x) ++ [c])).size := by simpa using h2
    have h3 : node o s x ≠ c := by unfold node; omega
    rw [if_pos hm, if_pos (by omega), if_neg (by omega), Int.toNat_natCast, Int.toNat_natCast, rd_at [] h1, ok_bind, wr_eq h1, ok_bind, rd_at [] h2', ok_bind, wr_eq h2']
    refine tot_ok.mpr ⟨by simpa using hg, ?_⟩
    intro a b
    rw [at_set [] h2', at_set [] h1, at_set [] h1, if_neg h3]
    by_cases e1 : c = a
    · subst e1
      rw [if_pos rfl]
      simp [hm, h3.symm]
    · rw [if_neg e1]
      by_cases e2 : node o s x = a
      · subst e2
        rw [if_pos rfl]
        simp [hm, h3]
      · rw [if_neg e2]
        simp [Ne.symm e1, Ne.symm e2]
  · rw [if_neg hm, if_neg (by omega)]
    refine Tot.pure ⟨hg, ?_⟩
    intro a b
    simp [hm]

/-- The contents of `_comp_id` after the first `k` edges. -/
def CompOk (E : List (Nat × Nat)) (s : Biconnected.St) (k : Nat) (c : Int) (x : Nat) : Prop :=
  (c = -1 ∧ ∀ i y, i < k → ¬ Inc E x y i) ∨ ∃ i y, i < k ∧ Inc E x y i ∧ c = cid s i

theorem edges_tot (B : Built n E o v) (F : Fin n E o v s) (hl : ∀ e ∈ E, e.1 ≠ e.2) {art : Array Int} (hA : ArtOk n o s art) :
    Tot (forUp 0 E.length (Array.replicate n (-1), Array.replicate (nodes o s) []) (edgeStep o s art)) fun st =>
      st.1.size = n ∧ (∀ x, x < n → CompOk E s E.length (at' (-1) st.1 x) x) ∧ st.2.size = nodes o s ∧ ∀ a b, b ∈ at' [] st.2 a ↔ Link E o s E.length a b := by
  refine Tot.forUp (lo := 0) (hi := E.length) (P := fun k (st : Array Int × Array (List Nat)) => st.1.size = n ∧ (∀ x, x < n → CompOk E s k (at' (-1) st.1 x) x) ∧
    st.2.size = nodes o s ∧ ∀ a b, b ∈ at' [] st.2 a ↔ Link E o s k a b) (by omega) ⟨by simp, ?_, by simp, ?_⟩ ?_
  · intro x hx
    left
    refine ⟨?_, by omega⟩
    simp [at', hx]
  · intro a b
    constructor
    · intro h
      exfalso
      dsimp only at h
      unfold at' at h
      rw [Array.getElem?_replicate] at h
      split at h <;> simp at h
    · rintro ⟨i, x, y, h, -⟩
      omega
  · rintro i ⟨comp, g⟩ - hi ⟨h1, h2, h3, h4⟩
    dsimp only at h1 h2 h3 h4
    have hin : Inc E E[i].1 E[i].2 i := .inl (List.getElem?_eq_getElem hi)
    obtain ⟨c1, c2⟩ := cid_ok B F hin (hl _ (List.getElem_mem hi))
    obtain ⟨b1, b2⟩ := B.cert.bnd _ _ _ hin
    unfold edgeStep
    dsimp only
    have s2 : E[i].2 < comp.size := by omega
    have s1 : E[i].1 < (comp.setIfInBounds E[i].2 (cid s i : Int)).size := by simp; omega
    have hrd : Biconnected.get o s i = .ok (cid s i : Int) := by
      unfold Biconnected.get
      rw [B.built, ← c1]
      exact rd_at (-1) (by rw [F.inv.s2]; exact hi)
    rw [hrd, ok_bind, edgeAt_ok B hi, ok_bind, wr_eq s2, ok_bind, wr_eq s1, ok_bind, rd_at (-1) (by rw [hA.1]; exact b1), ok_bind]
    refine Tot.bind (link_tot hA b1 c2 h3) ?_
    rintro g1 ⟨g2, g3⟩
    rw [rd_at (-1) (by rw [hA.1]; exact b2), ok_bind]
    refine Tot.bind (link_tot hA b2 c2 g2) ?_
    rintro g4 ⟨g5, g6⟩
    refine Tot.pure ⟨by simpa using h1, ?_, g5, ?_⟩
    · intro x hx
      dsimp only
      rw [at_set _ s1, at_set _ s2]
      by_cases e1 : E[i].1 = x
      · rw [if_pos e1]
        right
        exact ⟨i, E[i].2, by omega, by rw [← e1]; exact hin, rfl⟩
      · rw [if_neg e1]
        by_cases e2 : E[i].2 = x
        · rw [if_pos e2]
          right
          exact ⟨i, E[i].1, by omega, by rw [← e2]; exact hin.symm, rfl⟩
        · rw [if_neg e2]
          rcases h2 x hx with ⟨d1, d2⟩ | ⟨j, y, d1, d2, d3⟩
          · left
            refine ⟨d1, ?_⟩
            intro j y hj hj'
            by_cases e : j = i
            · subst e
              rcases (inc_get hi).mp hj' with ⟨q, -⟩ | ⟨q, -⟩
              · exact e1 q.symm
              · exact e2 q.symm
            · exact d2 j y (by omega) hj'
          · right
            exact ⟨j, y, by omega, d2, d3⟩
    · intro a b
      dsimp only
      rw [g6, g3, h4]
      constructor
      · rintro ((⟨j, x, y, j1, j2⟩ | ⟨j1, j2⟩) | ⟨j1, j2⟩)
        · exact ⟨j, x, y, by omega, j2⟩
        · exact ⟨i, _, _, by omega, j1, hin, j2⟩
        · exact ⟨i, _, _, by omega, j1, hin.symm, j2⟩
      · rintro ⟨j, x, y, j1, j2, j3, j4⟩
        by_cases e : j = i
        · subst e
          rcases (inc_get hi).mp j3 with ⟨q, -⟩ | ⟨q, -⟩
          · rw [q] at j2 j4
            exact .inl (.inr ⟨j2, j4⟩)
          · rw [q] at j2 j4
            exact .inr ⟨j2, j4⟩
        · exact .inl (.inl ⟨j, x, y, by omega, j2, j3, j4⟩)

/-! ### Counting the vertices -/

theorem iso_iff (B : Built n E o v) (F : Fin n E o v s) {x : Nat} : x ∈ s.iso ↔ x < n ∧ ∀ y i, ¬ Inc E x y i := by
  rw [F.iso, List.mem_filter, List.mem_range]
  refine and_congr_right fun hx => ?_
  rw [List.isEmpty_iff, List.eq_nil_iff_forall_not_mem]
  constructor
  · intro hh y i hi
    exact hh (y, i) ((B.graph.adj x hx y i).mpr hi)
  · rintro hh ⟨y, i⟩ hi
    exact hh y i ((B.graph.adj x hx y i).mp hi)

theorem cut_edge {x : Nat} (h : IsCut E x) : ∃ y i, Inc E x y i := by
  obtain ⟨a, b, -, -, h1, h2⟩ := h
  by_contra hc
  refine h2 (Reach.mono (fun i _ z hz => hc ⟨z, i, hz⟩) h1)

/-- `x` belongs to the node `a`. -/
def Mem (E : List (Nat × Nat)) (o : LowLink.Obj) (s : Biconnected.St) (a x : Nat) : Prop :=
  InBlock E s a x ∨ (x ∈ s.iso ∧ a = s.num + s.iso.idxOf x) ∨ (x ∈ o.s.arts ∧ a = node o s x)

theorem inBlock_lt (B : Built n E o v) (F : Fin n E o v s) (hl : ∀ e ∈ E, e.1 ≠ e.2) {a x : Nat} (h : InBlock E s a x) : a < s.num := by
  obtain ⟨y, i, hi, rfl⟩ := h
  refine (cid_ok B F hi ?_).2
  rcases hi with h | h
  · exact hl _ (List.mem_of_getElem? h)
  · exact (hl _ (List.mem_of_getElem? h)).symm

theorem node_inj {x y : Nat} (hx : x ∈ o.s.arts) (h : node o s x = node o s y) : x = y := by
  unfold node at h
  exact (List.idxOf_inj hx).mp (by omega)

/-- The neighbours of an articulation point. -/
theorem link_node (B : Built n E o v) (F : Fin n E o v s) (hl : ∀ e ∈ E, e.1 ≠ e.2) {a x : Nat} (hx : x ∈ o.s.arts) :
    Link E o s E.length (node o s x) a ↔ InBlock E s a x := by
  constructor
  · rintro ⟨i, z, y, h1, h2, h3, ⟨h4, h5⟩ | ⟨h4, h5⟩⟩
    · have := inBlock_lt B F hl ⟨y, i, h3, rfl⟩
      unfold node at h4
      omega
    · have := node_inj hx h5
      subst this
      exact ⟨y, i, h3, h4.symm⟩
  · rintro ⟨y, i, h1, h2⟩
    exact ⟨i, x, y, inc_lt h1, hx, h1, .inr ⟨h2.symm, rfl⟩⟩

theorem incr_tot {l : List Nat} (hn : l.Nodup) {w : Array Nat} (hl : ∀ a ∈ l, a < w.size) :
    Tot (forEach l w incr) fun r => r.size = w.size ∧ ∀ a, at' 0 r a = at' 0 w a + if a ∈ l then 1 else 0 := by
  refine Tot.forEach (P := fun A (r : Array Nat) => r.size = w.size ∧ ∀ a, at' 0 r a = at' 0 w a + if a ∈ A then 1 else 0) ⟨rfl, by simp⟩ ?_
  rintro A x C r hA ⟨h1, h2⟩
  have hx : x < r.size := by rw [h1]; exact hl x (by rw [hA]; simp)
  have hxA : x ∉ A := by
    rw [hA] at hn
    have := (List.nodup_append.mp hn).2.2
    intro h
    exact this x h x (by simp) rfl
  unfold incr
  rw [rd_at 0 hx, ok_bind, wr_eq hx]
  refine tot_ok.mpr ⟨by simpa using h1, ?_⟩
  intro a
  rw [at_set 0 hx]
  by_cases e : x = a
  · subst e
    rw [if_pos rfl, h2, if_neg hxA, if_pos (by simp)]
  · rw [if_neg e, h2]
    simp [Ne.symm e]

open Classical in
/-- The number of vertices below `k` in the node `a`. -/
noncomputable def cnt (E : List (Nat × Nat)) (o : LowLink.Obj) (s : Biconnected.St) (k a : Nat) : Nat := ((Finset.range k).filter (Mem E o s a)).card

open Classical in
theorem cnt_succ (k a : Nat) : cnt E o s (k + 1) a = cnt E o s k a + if Mem E o s a k then 1 else 0 := by
  unfold cnt
  rw [Finset.range_add_one, Finset.filter_insert]
  split_ifs with h
  · rw [Finset.card_insert_of_notMem (by simp)]
  · rfl

theorem vertices_tot (B : Built n E o v) (F : Fin n E o v s) (hl : ∀ e ∈ E, e.1 ≠ e.2) {art comp : Array Int} {g : Array (List Nat)} (hA : ArtOk n o s art) (hc : comp.size = n)
    (h1 : ∀ x ∈ s.iso, at' (-1) comp x = (s.num + s.iso.idxOf x : Nat)) (h2 : ∀ x, x < n → x ∉ s.iso → ∃ y i, Inc E x y i ∧ at' (-1) comp x = cid s i)
    (hg : g.size = nodes o s) (h3 : ∀ a, (at' [] g a).Nodup) (h4 : ∀ a b, b ∈ at' [] g a ↔ Link E o s E.length a b) :
    Tot (forUp 0 n (Array.replicate (nodes o s) 0) (vertexStep art comp g)) fun w => w.size = nodes o s ∧ ∀ a, a < nodes o s → at' 0 w a = cnt E o s n a := by
  classical
  refine Tot.forUp (lo := 0) (hi := n) (P := fun k (w : Array Nat) => w.size = nodes o s ∧ ∀ a, a < nodes o s → at' 0 w a = cnt E o s k a) (by omega) ⟨by simp, ?_⟩ ?_
  · intro a ha
    unfold cnt
    simp [at', ha]
  rintro x w - hx ⟨w1, w2⟩
  unfold vertexStep
  rw [rd_at (-1) (by rw [hA.1]; exact hx), ok_bind, hA.2 x hx]
  have hxi := iso_iff B F (x := x)
  have num_lt : s.num ≤ nodes o s := by unfold nodes; omega
  by_cases hm : x ∈ o.s.arts
  · have hcut := (B.am x).mp hm
    have hniso : x ∉ s.iso := by
      rw [hxi]
      rintro ⟨-, h⟩
      obtain ⟨y, i, hi⟩ := cut_edge hcut
      exact h y i hi
    have hid := List.idxOf_lt_length_of_mem hm
    have s1 : node o s x < w.size := by rw [w1]; unfold node nodes; omega
    have s2 : node o s x < g.size := by omega
    rw [if_pos hm, if_neg (by omega), Int.toNat_natCast, wr_eq s1, ok_bind, rd_at [] s2, ok_bind]
    have hmem : ∀ a, a ∈ at' [] g (node o s x) ↔ InBlock E s a x := fun a => (h4 _ a).trans (link_node B F hl hm)
    refine (incr_tot (h3 _) ?_).mono ?_
    · intro a ha
      have := inBlock_lt B F hl ((hmem a).mp ha)
      simp only [Array.size_setIfInBounds]
      omega
    · rintro r ⟨r1, r2⟩
      refine ⟨by rw [r1]; simpa using w1, ?_⟩
      intro a ha
      rw [r2, at_set 0 s1, cnt_succ]
      by_cases e : node o s x = a
      · subst e
        have z : cnt E o s x (node o s x) = 0 := by
          unfold cnt
          rw [Finset.card_eq_zero, Finset.filter_eq_empty_iff]
          rintro y hy (hb | ⟨hb, hb'⟩ | ⟨hb, hb'⟩)
          · have := inBlock_lt B F hl hb
            unfold node at this
            omega
          · have := List.idxOf_lt_length_of_mem hb
            unfold node at hb'
            omega
          · have := node_inj hm hb'
            rw [Finset.mem_range] at hy
            omega
        have hn : node o s x ∉ at' [] g (node o s x) := by
          rw [hmem]
          intro hb
          have := inBlock_lt B F hl hb
          unfold node at this
          omega
        rw [if_pos rfl, z, if_neg hn, if_pos (show Mem E o s (node o s x) x from .inr (.inr ⟨hm, rfl⟩))]
      · rw [if_neg e, w2 a ha]
        have hq : a ∈ at' [] g (node o s x) ↔ Mem E o s a x := by
          rw [hmem]
          unfold Mem
          simp [hniso, Ne.symm e]
        by_cases hb : Mem E o s a x
        · rw [if_pos hb, if_pos (hq.mpr hb)]
        · rw [if_neg hb, if_neg fun h => hb (hq.mp h)]
  · rw [if_neg hm, if_pos (by omega), rd_at (-1) (by rw [hc]; exact hx), ok_bind]
    obtain ⟨c, hcx, hcs, hcm⟩ : ∃ c : Nat, at' (-1) comp x = c ∧ c < nodes o s ∧ ∀ a, Mem E o s a x ↔ c = a := by
      by_cases hi : x ∈ s.iso
      · refine ⟨_, h1 x hi, ?_, ?_⟩
        · have := List.idxOf_lt_length_of_mem hi
          unfold nodes
          omega
        · intro a
          unfold Mem
          simp only [hi, hm, true_and, false_and, or_false]
          constructor
          · rintro (⟨y, i, h, -⟩ | h)
            · exact absurd h ((hxi.mp hi).2 y i)
            · exact h.symm
          · intro h
            exact .inr h.symm
      · obtain ⟨y, i, e1, e2⟩ := h2 x hx hi
        refine ⟨_, e2, ?_, ?_⟩
        · have := inBlock_lt B F hl ⟨y, i, e1, rfl⟩
          omega
        · intro a
          unfold Mem
          simp only [hi, hm, false_and, or_false]
          constructor
          · rintro ⟨z, j, f1, f2⟩
            rw [← f2]
            have ne : ∀ {z j}, Inc E x z j → x ≠ z := by
              rintro z j (h | h)
              · exact hl _ (List.mem_of_getElem? h)
              · exact (hl _ (List.mem_of_getElem? h)).symm
            exact one_block B F (fun h => hm ((B.am x).mpr h)) e1 f1 (ne e1) (ne f1)
          · intro h
            exact ⟨y, i, e1, h⟩
    have s1 : c < w.size := by omega
    rw [hcx, if_neg (by omega), Int.toNat_natCast]
    unfold incr
    rw [rd_at 0 s1, ok_bind, wr_eq s1]
    refine tot_ok.mpr ⟨by simpa using w1, ?_⟩
    intro a ha
    rw [at_set 0 s1, cnt_succ, w2 c hcs]
    by_cases e : c = a
    · subst e
      rw [if_pos rfl, if_pos ((hcm c).mpr rfl)]
    · rw [if_neg e, w2 a ha, if_neg fun h => e ((hcm a).mp h)]
      rfl

/-- The finished forest. -/
structure Done (n : Nat) (E : List (Nat × Nat)) (o : LowLink.Obj) (s : Biconnected.St) (t : Obj) : Prop where
  blocks : t.blocks = s.num
  isolated : t.isolated = s.iso.length
  arts : t.arts = o.s.arts.length
  gs : t.g.size = nodes o s
  nd : ∀ a, (at' [] t.g a).Nodup
  adj : ∀ a b, b ∈ at' [] t.g a ↔ Link E o s E.length a b
  vs : t.vnum.size = nodes o s
  vn : ∀ a, a < nodes o s → at' 0 t.vnum a = cnt E o s n a
  cs : t.comp.size = n
  c1 : ∀ x ∈ s.iso, at' (-1) t.comp x = (s.num + s.iso.idxOf x : Nat)
  c2 : ∀ x, x < n → x ∉ s.iso → ∃ y i, Inc E x y i ∧ at' (-1) t.comp x = cid s i

theorem make_tot (B : Built n E o v) (F : Fin n E o v s) (hl : ∀ e ∈ E, e.1 ≠ e.2) : Tot (make o s) (Done n E o s) := by
  have e1 : edgeComponentNum o s = .ok s.num := by unfold edgeComponentNum; rw [B.built]; rfl
  have e2 : isolatedVertices o s = .ok s.iso := by unfold isolatedVertices; rw [B.built]; rfl
  have e3 : articulationPoints o = .ok o.s.arts := by unfold articulationPoints; rw [B.built]; rfl
  unfold make
  rw [e1, ok_bind, e2, ok_bind, e3, ok_bind, B.size, B.edges]
  have ar : ∀ x ∈ o.s.arts, x < n := fun x hx => isCut_lt B.cert.bnd ((B.am x).mp hx)
  have ir : ∀ x ∈ s.iso, x < n := fun x hx => ((iso_iff B F).mp hx).1
  have ind : s.iso.Nodup := by
    rw [F.iso]
    exact List.nodup_range.filter _
  refine Tot.bind (number_tot B.an ar (by simp)) ?_
  rintro ⟨k, art⟩ ⟨a1, a2⟩
  dsimp only at a1 a2
  have hA : ArtOk n o s art := by
    refine ⟨a1, ?_⟩
    intro x hx
    rw [a2 x hx]
    unfold node
    refine if_congr Iff.rfl rfl ?_
    simp [at', hx]
  refine Tot.bind (edges_tot B F hl hA) ?_
  rintro ⟨comp, g⟩ ⟨b1, b2, b3, b4⟩
  dsimp only at b1 b2 b3 b4
  refine Tot.bind (number_tot (k := s.num) (c := comp) ind ir b1) ?_
  rintro ⟨k', comp'⟩ ⟨d1, d2⟩
  dsimp only at d1 d2
  have hv : Graph.Valid g := by
    intro a b hab
    have : b ∈ at' [] g a := hab
    rw [b4] at this
    obtain ⟨i, x, y, h1, h2, h3, h4 | h4⟩ := this
    · have := List.idxOf_lt_length_of_mem h2
      rw [b3, h4.2]; unfold node nodes; omega
    · have := inBlock_lt B F hl ⟨y, i, h3, rfl⟩
      rw [b3, h4.1]; unfold nodes; omega
  refine Tot.bind (RemoveMultiedges.run_tot g hv) ?_
  rintro g' rfl
  have hat : ∀ a, at' [] (g.map List.eraseDups) a = (at' [] g a).eraseDups := by
    intro a
    unfold at'
    rw [Array.getElem?_map]
    cases g[a]? <;> rfl
  have q1 : ∀ x ∈ s.iso, at' (-1) comp' x = (s.num + s.iso.idxOf x : Nat) := by
    intro x hx
    rw [d2 x (ir x hx), if_pos hx]
  have q2 : ∀ x, x < n → x ∉ s.iso → ∃ y i, Inc E x y i ∧ at' (-1) comp' x = cid s i := by
    intro x hx hi
    rw [d2 x hx, if_neg hi]
    rcases b2 x hx with ⟨-, h⟩ | ⟨i, y, h1, h2, h3⟩
    · exfalso
      rw [iso_iff B F] at hi
      exact hi ⟨hx, fun y i h' => h i y (inc_lt h') h'⟩
    · exact ⟨y, i, h2, h3⟩
  have q3 : ∀ a, (at' [] (g.map List.eraseDups) a).Nodup := fun a => by rw [hat]; exact eraseDups_nodup _ _ (le_refl _)
  have q4 : ∀ a b, b ∈ at' [] (g.map List.eraseDups) a ↔ Link E o s E.length a b := fun a b => by rw [hat, List.mem_eraseDups]; exact b4 a b
  refine Tot.bind (vertices_tot B F hl hA d1 q1 q2 (by simpa using b3) q3 q4) ?_
  rintro w ⟨w1, w2⟩
  exact Tot.pure ⟨rfl, rfl, rfl, by simpa using b3, q3, q4, w1, w2, d1, q1, q2⟩

/-- The forest has no cycles. -/
theorem acyclic (B : Built n E o v) (F : Fin n E o v s) (hl : ∀ e ∈ E, e.1 ≠ e.2) :
    (SimpleGraph.fromRel (Link E o s E.length)).IsAcyclic := by
  classical
  obtain ⟨f, f1, f2⟩ := inBlock_cases B F hl
  have c := B.cert
  -- the rank
  have hr : ∀ a, ∃ r : Int, (∀ w, SepN v n w → f w = a → a < s.num → r = 2 * v.pre w - 1) ∧ ∀ x, x ∈ o.s.arts → node o s x = a → r = 2 * v.pre x := by
    intro a
    by_cases ha : a < s.num
    · by_cases hw : ∃ w, SepN v n w ∧ f w = a
      · obtain ⟨w, w1, w2⟩ := hw
        refine ⟨2 * v.pre w - 1, ?_, ?_⟩
        · intro w' h1 h2 _
          rw [f1 w w' w1 h1 (by omega)]
        · intro x _ h
          unfold node at h
          omega
      · refine ⟨0, fun w h1 h2 => absurd ⟨w, h1, h2⟩ hw, ?_⟩
        intro x _ h
        unfold node at h
        omega
    · by_cases hx : ∃ x, x ∈ o.s.arts ∧ node o s x = a
      · obtain ⟨x, x1, x2⟩ := hx
        refine ⟨2 * v.pre x, fun _ _ _ h => absurd h ha, ?_⟩
        intro y y1 y2
        rw [node_inj x1 (x2.trans y2.symm)]
      · exact ⟨0, fun _ _ _ h => absurd h ha, fun x h1 h2 => absurd ⟨x, h1, h2⟩ hx⟩
  choose r r1 r2 using hr
  have key : ∀ a b, (SimpleGraph.fromRel (Link E o s E.length)).Adj a b →
      ∃ x w, x ∈ o.s.arts ∧ SepN v n w ∧ (IsHead v n x w ∨ v.par w = x) ∧ f w < s.num ∧ ((a = f w ∧ b = node o s x) ∨ (b = f w ∧ a = node o s x)) := by
    rintro a b ⟨-, ⟨i, x, y, -, h2, h3, h4⟩ | ⟨i, x, y, -, h2, h3, h4⟩⟩
    · obtain ⟨-, w, w1, w2, w3⟩ := f2 _ x ⟨y, i, h3, rfl⟩
      have := inBlock_lt B F hl ⟨y, i, h3, rfl⟩
      exact ⟨x, w, h2, w1, w3, by omega, by rw [w2]; exact h4⟩
    · obtain ⟨-, w, w1, w2, w3⟩ := f2 _ x ⟨y, i, h3, rfl⟩
      have := inBlock_lt B F hl ⟨y, i, h3, rfl⟩
      exact ⟨x, w, h2, w1, w3, by omega, by rw [w2]; exact h4.symm⟩
  have up : ∀ w x : Nat, SepN v n w → v.par w = x → v.pre x < v.pre w := fun w x h1 h2 => (c.child_notin h1.lt h2).2.1
  refine acyclic_of_rank _ r ?_ ?_
  · intro a b hab
    obtain ⟨x, w, h1, h2, h3, h4, ⟨e1, e2⟩ | ⟨e1, e2⟩⟩ := key a b hab
    · rw [r1 a w h2 e1.symm (by omega), r2 b x h1 e2.symm]
      omega
    · rw [r1 b w h2 e1.symm (by omega), r2 a x h1 e2.symm]
      omega
  · intro a b d hab had hb hd
    obtain ⟨x, w, h1, h2, h3, h4, h5⟩ := key a b hab
    obtain ⟨x', w', g1, g2, g3, g4, g5⟩ := key a d had
    rcases h5 with ⟨e1, e2⟩ | ⟨e1, e2⟩
    · rcases g5 with ⟨k1, k2⟩ | ⟨k1, k2⟩
      · have hw : w = w' := f1 w w' h2 g2 (by omega)
        subst hw
        rw [r1 a w h2 e1.symm (by omega), r2 b x h1 e2.symm] at hb
        rw [r1 a w h2 e1.symm (by omega), r2 d x' g1 k2.symm] at hd
        have px : v.par w = x := by
          rcases h3 with h | h
          · have := h.2.1.1; omega
          · exact h
        have px' : v.par w = x' := by
          rcases g3 with h | h
          · have := h.2.1.1; omega
          · exact h
        have : x = x' := by omega
        rw [e2, k2, this]
      · unfold node at k2
        omega
    · rcases g5 with ⟨k1, k2⟩ | ⟨k1, k2⟩
      · unfold node at e2
        omega
      · have hx : x = x' := node_inj h1 (e2.symm.trans k2)
        subst hx
        rw [r1 b w h2 e1.symm (by omega), r2 a x h1 e2.symm] at hb
        rw [r1 d w' g2 k1.symm (by omega), r2 a x h1 e2.symm] at hd
        have q1 : IsHead v n x w := by
          rcases h3 with h | h
          · exact h
          · have := up w x h2 h; omega
        have q2 : IsHead v n x w' := by
          rcases g3 with h | h
          · exact h
          · have := up w' x g2 h; omega
        rw [e1, k1, q1.unique c q2]

end

end BlockCutForest
