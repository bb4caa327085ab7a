import Verif.Proof.LowLinkWalk

/-!
# Blocks in terms of the depth-first numbers
-/

namespace Biconnected
open Cxx Cut LowLink

variable {n : Nat} {E : List (Nat × Nat)} {v : V}

/-- `z` is the child at the top of a block. -/
def SepN (v : V) (n z : Nat) : Prop := ∃ p, v.Sep n p z

/-- The edge `i` goes from its lower end `x` to its upper end `y`. -/
def Lower (E : List (Nat × Nat)) (v : V) (i x y : Nat) : Prop := Inc E x y i ∧ v.pre y < v.pre x

/-- `w` is the lowest top above `x`. -/
def IsHead (v : V) (n x w : Nat) : Prop := SepN v n w ∧ v.In w x ∧ ∀ z, SepN v n z → v.In z x → v.In z w

theorem SepN.lt {z : Nat} (h : SepN v n z) : z < n := h.elim fun _ h => h.1

theorem IsHead.unique (c : Cert n E v) {x w w' : Nat} (h : IsHead v n x w) (h' : IsHead v n x w') : w = w' := by
  have h1 := (h.2.2 w' h'.1 h'.2.1).1
  have h2 := (h'.2.2 w h.1 h.2.1).1
  exact c.inj w w' h.1.lt h'.1.lt (le_antisymm h2 h1)

theorem IsHead.self (c : Cert n E v) {w : Nat} (h : SepN v n w) : IsHead v n w w := ⟨h, c.in_self h.lt, fun _ _ h => h⟩

theorem Lower.unique {i x y x' y' : Nat} (h : Lower E v i x y) (h' : Lower E v i x' y') : x = x' ∧ y = y' := by
  rcases h.1.ends h'.1 with h1 | ⟨rfl, rfl⟩
  · exact h1
  · have := h.2; have := h'.2; omega

theorem Lower.bnd (c : Cert n E v) {i x y : Nat} (h : Lower E v i x y) : x < n ∧ y < n := c.bnd _ _ _ h.1

/-- The upper end is an ancestor of the lower end. -/
theorem Lower.anc (c : Cert n E v) {i x y : Nat} (h : Lower E v i x y) : v.In y x := by
  obtain ⟨hx, hy⟩ := h.bnd c
  have := (c.done y hy).closed y x i hy (le_refl _) (c.done y hy).lt h.1.symm
  exact ⟨by have := h.2; omega, this.2⟩

theorem Lower.par (c : Cert n E v) {i x y : Nat} (h : Lower E v i x y) :
    ∃ p j : Nat, p < n ∧ v.par x = p ∧ v.pe x = j ∧ Inc E x p j ∧ v.pre p < v.pre x ∧ v.In y p := by
  obtain ⟨hx, hy⟩ := h.bnd c
  obtain ⟨p, j, h1, h2, h3, h4, h5, h6⟩ := c.par_in hy hx (h.anc c) (by rintro rfl; have := h.2; omega)
  exact ⟨p, j, h1, h2, h3, h4, h6, h5⟩

theorem lower_of (c : Cert n E v) {i x y : Nat} (h : Inc E x y i) (hne : x ≠ y) : (Lower E v i x y) ∨ Lower E v i y x := by
  obtain ⟨hx, hy⟩ := c.bnd _ _ _ h
  rcases lt_trichotomy (v.pre x) (v.pre y) with h1 | h1 | h1
  · exact .inr ⟨h.symm, h1⟩
  · exact absurd (c.inj x y hx hy h1) hne
  · exact .inl ⟨h, h1⟩

/-- A vertex with a parent that is not a top: the parent has a parent. -/
theorem not_sep_par (c : Cert n E v) {x p : Nat} (hx : x < n) (hp : v.par x = p) (hs : ¬ SepN v n x) : v.par p ≠ -1 := by
  intro hr
  exact hs ⟨p, c.root_sep (c.child_notin hx hp).1 hr hx hp⟩

theorem head_of (c : Cert n E v) : ∀ k x, x < n → (v.pre x).toNat ≤ k → v.par x ≠ -1 → ∃ w, IsHead v n x w := by
  intro k
  induction k with
  | zero =>
    intro x hx hk hp
    obtain ⟨p, i, h1, h2, h3, h4, h5, h6⟩ := c.par_of hx hp
    omega
  | succ k ih =>
    intro x hx hk hp
    by_cases hs : SepN v n x
    · exact ⟨x, IsHead.self c hs⟩
    · obtain ⟨p, i, h1, h2, h3, h4, h5, h6⟩ := c.par_of hx hp
      obtain ⟨w, w1, w2, w3⟩ := ih p h1 (by omega) (not_sep_par c hx h2 hs)
      refine ⟨w, w1, c.child_in w1.lt hx h2 w2, ?_⟩
      intro z hz z1
      refine w3 z hz ?_
      obtain ⟨q, _, _, q2, _, _, q5, _⟩ := c.par_in hz.lt hx z1 (by rintro rfl; exact hs hz)
      have : q = p := by omega
      subst this
      exact q5

theorem Lower.head (c : Cert n E v) {i x y : Nat} (h : Lower E v i x y) : ∃ w, IsHead v n x w := by
  obtain ⟨p, j, h1, h2, -⟩ := h.par c
  exact head_of c _ x (h.bnd c).1 (le_refl _) (by omega)

/-- The edge above a top. -/
theorem SepN.edge (c : Cert n E v) {w : Nat} (h : SepN v n w) : ∃ p i : Nat, v.par w = p ∧ v.pe w = i ∧ Lower E v i w p ∧ v.Sep n p w := by
  obtain ⟨p, hs⟩ := h
  obtain ⟨hw, h1, h2⟩ := id hs
  obtain ⟨q, i, a1, a2, a3, a4, a5, a6⟩ := c.par_of hw (by omega)
  have : q = p := by omega
  subst this
  exact ⟨q, i, a2, a3, ⟨a4, a6⟩, hs⟩

/-! ### Equivalence -/

theorem SameBlock.symm {i j : Nat} (h : SameBlock E i j) : SameBlock E j i := by
  intro u
  obtain ⟨x, x', y, y', h1, h2, h3, h4, h5⟩ := h u
  exact ⟨y, y', x, x', h2, h1, h4, h3, h5.symm⟩

theorem SameBlock.trans {i j k : Nat} (h : SameBlock E i j) (h' : SameBlock E j k) : SameBlock E i k := by
  intro u
  obtain ⟨x, x', y, y', h1, h2, h3, h4, h5⟩ := h u
  obtain ⟨z, z', w, w', g1, g2, g3, g4, g5⟩ := h' u
  refine ⟨x, x', w, w', h1, g2, h3, g4, h5.trans (Reach.trans ?_ g5)⟩
  rcases h2.ends g1 with ⟨rfl, rfl⟩ | ⟨rfl, rfl⟩
  · exact Reach.refl _
  · refine Reach.edge h2 ?_
    intro a ha
    rcases ha.ends h2 with ⟨e, -⟩ | ⟨e, -⟩
    · exact h4 e.symm
    · exact g3 e.symm

theorem SameBlock.refl {i x y : Nat} (h : Inc E x y i) (hne : x ≠ y) : SameBlock E i i := by
  intro u
  by_cases e : x = u
  · subst e
    exact ⟨y, x, y, x, h.symm, h.symm, fun e => hne e.symm, fun e => hne e.symm, Reach.refl _⟩
  · exact ⟨x, y, x, y, h, h, e, e, Reach.refl _⟩

/-- Two edges sharing the vertex `s` whose other ends are connected avoiding `s`. -/
theorem same_of {i j s a b : Nat} (h1 : Inc E s a i) (h2 : Inc E s b j) (ha : a ≠ s) (hb : b ≠ s) (hr : Reach E (Avoid E s) a b) : SameBlock E i j := by
  intro u
  by_cases e : s = u
  · subst e
    exact ⟨a, s, b, s, h1.symm, h2.symm, ha, hb, hr⟩
  · exact ⟨s, a, s, b, h1, h2, e, e, Reach.refl _⟩

/-- An edge and the tree edge of its lower end. -/
theorem same_lower (c : Cert n E v) {i x y j : Nat} (h : Lower E v i x y) (hj : v.pe x = j) : SameBlock E i j := by
  obtain ⟨hx, hy⟩ := h.bnd c
  obtain ⟨p, j', h1, h2, h3, h4, h5, h6⟩ := h.par c
  have : j' = j := by omega
  subst this
  refine same_of h.1 h4 (by rintro rfl; have := h.2; omega) (by rintro rfl; omega) ?_
  refine Reach.symm (Reach.mono ?_ (c.up hy h1 h6))
  rintro k ⟨z, q, d1, d2, d3, d4, d5, d6, d7, d8⟩ a ha
  rcases ha.ends d8 with ⟨e, -⟩ | ⟨e, -⟩
  · subst e; omega
  · subst e; have := (c.child_notin d1 d7).2.1; omega

/-- The tree edges above a vertex that is not a top and above its parent. -/
theorem same_tree (c : Cert n E v) {x p i j : Nat} (hx : x < n) (hp : v.par x = p) (hs : ¬ SepN v n x) (hi : v.pe x = i) (hj : v.pe p = j) : SameBlock E i j := by
  obtain ⟨p', i', a1, a2, a3, a4, a5, a6⟩ := c.par_of hx (by omega)
  have : p' = p := by omega
  subst this
  have : i' = i := by omega
  subst this
  obtain ⟨q, j', b1, b2, b3, b4, b5, b6⟩ := c.par_of a1 (not_sep_par c hx hp hs)
  have : j' = j := by omega
  subst this
  refine same_of a4.symm b4 (by rintro rfl; omega) (by rintro rfl; omega) ?_
  have hlow : v.low x < v.pre p' := by
    by_contra hc
    exact hs ⟨p', hx, hp, by omega⟩
  obtain ⟨s, t, k, s1, s2, s3, s4, s5, s6⟩ := ((c.done x hx).lows (v.pre p') (by omega)).mp hlow
  have ht : t < n := (c.bnd _ _ _ s4).2
  have hav : Avoid E p' k := by
    intro z hz
    rcases hz.ends s4 with ⟨e, -⟩ | ⟨e, -⟩
    · subst e; omega
    · subst e; omega
  have r1 : Reach E (Avoid E p') x t := (c.up_avoid hx hp s1 ⟨s2, s3⟩).symm.trans (Reach.edge s4 hav)
  -- both `t` and `q` lie outside of the subtree of `p'`
  obtain ⟨r, r2, r3, r4, r5, r6⟩ := c.out_avoid a1 ht (fun h => by have := h.1; omega)
  obtain ⟨r', r2', r3', r4', r5', r6'⟩ := c.out_avoid a1 b1 (fun h => by have := h.1; omega)
  have : r = r' := by
    refine c.root_unique r2 r2' r3 r3' (c.reach_in r2 r3 (Reach.symm r1) r4) ?_
    exact c.child_in r2' hx hp (c.child_in r2' a1 b2 r4')
  subst this
  exact (r1.trans r6).trans r6'.symm

theorem same_head (c : Cert n E v) : ∀ k x w i j, x < n → (v.pre x).toNat ≤ k → IsHead v n x w → v.pe x = (i : Nat) → v.pe w = (j : Nat) → SameBlock E i j := by
  intro k
  induction k with
  | zero =>
    intro x w i j hx hk hw hi hj
    obtain ⟨p, i', h1, h2, h3, h4, h5, h6⟩ := c.par_of hx (by rw [Ne, ← c.root_iff hx]; omega)
    omega
  | succ k ih =>
    intro x w i j hx hk hw hi hj
    obtain ⟨p, i', h1, h2, h3, h4, h5, h6⟩ := c.par_of hx (by rw [Ne, ← c.root_iff hx]; omega)
    by_cases hs : SepN v n x
    · have := (IsHead.self c hs).unique c hw
      subst this
      have : i = j := by omega
      subst this
      have : i' = i := by omega
      subst this
      exact SameBlock.refl h4 (by rintro rfl; omega)
    · obtain ⟨q, l, q1, q2, q3, q4, q5, q6⟩ := c.par_of h1 (not_sep_par c hx h2 hs)
      refine SameBlock.trans (same_tree c hx h2 hs hi q3) (ih p w l j h1 (by omega) ?_ q3 hj)
      have up : ∀ z, SepN v n z → v.In z x → v.In z p := by
        intro z hz z1
        obtain ⟨q, _, _, q2, _, _, q5, _⟩ := c.par_in hz.lt hx z1 (by rintro rfl; exact hs hz)
        have : q = p := by omega
        subst this
        exact q5
      exact ⟨hw.1, up w hw.1 hw.2.1, fun z hz z1 => hw.2.2 z hz (c.child_in hz.lt hx h2 z1)⟩

/-- The ends of the edges of the block of `w` other than the vertex above lie below `w`, those of other blocks that are not below it do not. -/
theorem sep_blocks (c : Cert n E v) {i j x y x' y' w w' : Nat} (h : Lower E v i x y) (h' : Lower E v j x' y') (hw : IsHead v n x w) (hw' : IsHead v n x' w')
    (hlt : v.pre w' < v.pre w) : ¬ SameBlock E i j := by
  intro hs
  obtain ⟨u, k, u1, u2, u3, u4⟩ := hw.1.edge c
  obtain ⟨a, a', b, b', e1, e2, e3, e4, e5⟩ := hs u
  have hwn := hw.1.lt
  have ha : v.In w a := by
    rcases e1.ends h.1 with ⟨rfl, -⟩ | ⟨rfl, -⟩
    · exact hw.2.1
    · by_contra hc
      exact e3 (c.sep_leave u4 hw.2.1 h.1 hc)
  have hx' : ¬ v.In w x' := by
    intro hc
    have := (hw'.2.2 w hw.1 hc).1
    omega
  have hb : ¬ v.In w b := by
    rcases e2.ends h'.1 with ⟨rfl, -⟩ | ⟨rfl, -⟩
    · exact hx'
    · intro hc
      have h1 := h'.anc c
      obtain ⟨q, l, -, q2, q3, q4, q5, q6⟩ := h'.par c
      refine hx' ?_
      have := (c.done w hwn).closed b x' j (h'.bnd c).2 hc.1 hc.2 h'.1.symm
      exact ⟨by have := hc.1; have := h'.2; omega, this.2⟩
  exact hb (c.sep_reach u4 e5 ha)

theorem block_iff (c : Cert n E v) {i j x y x' y' w w' : Nat} (h : Lower E v i x y) (h' : Lower E v j x' y') (hw : IsHead v n x w) (hw' : IsHead v n x' w') :
    SameBlock E i j ↔ w = w' := by
  constructor
  · intro hs
    rcases lt_trichotomy (v.pre w) (v.pre w') with h1 | h1 | h1
    · exact absurd (SameBlock.symm hs) (sep_blocks c h' h hw' hw h1)
    · exact c.inj _ _ hw.1.lt hw'.1.lt h1
    · exact absurd hs (sep_blocks c h h' hw hw' h1)
  · rintro rfl
    obtain ⟨p, k, -, p2, p3, -⟩ := h.par c
    obtain ⟨p', k', -, p2', p3', -⟩ := h'.par c
    obtain ⟨u, l, u1, u2, u3, u4⟩ := hw.1.edge c
    have a1 := same_head c _ x w k l (h.bnd c).1 (le_refl _) hw p3 u2
    have a2 := same_head c _ x' w k' l (h'.bnd c).1 (le_refl _) hw' p3' u2
    exact SameBlock.trans (SameBlock.trans (same_lower c h p3) a1) (SameBlock.symm (SameBlock.trans (same_lower c h' p3') a2))

end Biconnected
