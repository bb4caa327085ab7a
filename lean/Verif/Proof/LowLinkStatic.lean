import Verif.Spec.Cut
import Mathlib.Data.Finset.Basic
import Mathlib.Data.Finset.Range
import Mathlib.Tactic.ByContra
import Mathlib.Tactic.Push

namespace LowLink
open Cut

/-- What the arrays say, together with the (ghost) tree edges and subtree ends. -/
structure V where
  pre : Nat → Int
  low : Nat → Int
  par : Nat → Int
  pe : Nat → Int
  fin : Nat → Int

/-- `w` has been finished. -/
structure Done (n : Nat) (E : List (Nat × Nat)) (v : V) (w : Nat) : Prop where
  vis : 0 ≤ v.pre w
  lt : v.pre w < v.fin w
  up : (v.pe w = -1 ∧ v.par w = -1) ∨ ∃ p i : Nat, p < n ∧ v.par w = p ∧ v.pe w = i ∧ Inc E w p i ∧ 0 ≤ v.pre p ∧ v.pre p < v.pre w
  closed : ∀ x y i, x < n → v.pre w ≤ v.pre x → v.pre x < v.fin w → Inc E x y i → 0 ≤ v.pre y ∧ v.pre y < v.fin w
  inside : ∀ x, x < n → v.pre w < v.pre x → v.pre x < v.fin w → ∃ p : Nat, p < n ∧ v.par x = p ∧ v.pre w ≤ v.pre p
  lowle : v.low w ≤ v.pre w
  lows : ∀ t, t ≤ v.pre w → (v.low w < t ↔ ∃ x y i : Nat, x < n ∧ v.pre w ≤ v.pre x ∧ v.pre x < v.fin w ∧ Inc E x y i ∧ (i : Int) ≠ v.pe w ∧ v.pre y < t)

/-- The final state. -/
structure Cert (n : Nat) (E : List (Nat × Nat)) (v : V) : Prop where
  done : ∀ w, w < n → Done n E v w
  inj : ∀ x y, x < n → y < n → v.pre x = v.pre y → x = y
  bnd : ∀ x y i, Inc E x y i → x < n ∧ y < n

theorem _root_.Cut.Inc.symm {E : List (Nat × Nat)} {x y i : Nat} (h : Inc E x y i) : Inc E y x i := Or.symm h

theorem _root_.Cut.Inc.ends {E : List (Nat × Nat)} {x y z w i : Nat} (h : Inc E x y i) (h' : Inc E z w i) : (x = z ∧ y = w) ∨ (x = w ∧ y = z) := by
  unfold Inc at h h'
  rcases h with h | h <;> rcases h' with h' | h' <;> rw [h] at h' <;> simp only [Option.some.injEq, Prod.mk.injEq] at h' <;> omega

theorem _root_.Cut.Reach.symm {E : List (Nat × Nat)} {ok : Nat → Prop} {x y : Nat} (h : Reach E ok x y) : Reach E ok y x := by
  unfold Reach at *
  induction h with
  | refl => exact Relation.ReflTransGen.refl
  | tail _ h2 ih =>
    obtain ⟨i, h3, h4⟩ := h2
    exact Relation.ReflTransGen.head ⟨i, h3, h4.symm⟩ ih

theorem _root_.Cut.Reach.trans {E : List (Nat × Nat)} {ok : Nat → Prop} {x y z : Nat} (h : Reach E ok x y) (h' : Reach E ok y z) : Reach E ok x z :=
  Relation.ReflTransGen.trans h h'

theorem _root_.Cut.Reach.mono {E : List (Nat × Nat)} {ok ok' : Nat → Prop} {x y : Nat} (hm : ∀ i, ok i → ok' i) (h : Reach E ok x y) : Reach E ok' x y := by
  unfold Reach at *
  induction h with
  | refl => exact Relation.ReflTransGen.refl
  | tail _ h2 ih =>
    obtain ⟨i, h3, h4⟩ := h2
    exact Relation.ReflTransGen.tail ih ⟨i, hm i h3, h4⟩

theorem _root_.Cut.Reach.edge {E : List (Nat × Nat)} {ok : Nat → Prop} {x y i : Nat} (h : Inc E x y i) (ho : ok i) : Reach E ok x y :=
  Relation.ReflTransGen.single ⟨i, ho, h⟩

theorem _root_.Cut.Reach.refl {E : List (Nat × Nat)} {ok : Nat → Prop} (x : Nat) : Reach E ok x x := Relation.ReflTransGen.refl

/-- A set closed under the allowed edges is closed under reachability. -/
theorem _root_.Cut.Reach.closed {E : List (Nat × Nat)} {ok : Nat → Prop} {S : Nat → Prop} (hS : ∀ x y i, S x → ok i → Inc E x y i → S y)
    {x y : Nat} (h : Reach E ok x y) (hx : S x) : S y := by
  unfold Reach at h
  induction h with
  | refl => exact hx
  | tail _ h2 ih =>
    obtain ⟨i, h3, h4⟩ := h2
    exact hS _ _ i ih h3 h4

/-- `x` lies in the subtree of `w`. -/
def V.In (v : V) (w x : Nat) : Prop := v.pre w ≤ v.pre x ∧ v.pre x < v.fin w

section
variable {n : Nat} {E : List (Nat × Nat)} {v : V}

theorem Cert.par_of (c : Cert n E v) {w : Nat} (hw : w < n) (h : v.par w ≠ -1) :
    ∃ p i : Nat, p < n ∧ v.par w = p ∧ v.pe w = i ∧ Inc E w p i ∧ 0 ≤ v.pre p ∧ v.pre p < v.pre w := by
  rcases (c.done w hw).up with h1 | h1
  · exact absurd h1.2 h
  · exact h1

theorem Cert.root_iff (c : Cert n E v) {w : Nat} (hw : w < n) : v.pe w = -1 ↔ v.par w = -1 := by
  rcases (c.done w hw).up with h1 | ⟨p, i, -, h1, h2, -⟩
  · simp [h1]
  · rw [h1, h2]; omega

/-- The parent of a strict descendant is a descendant. -/
theorem Cert.par_in (c : Cert n E v) {w x : Nat} (hw : w < n) (hx : x < n) (h : v.In w x) (hne : x ≠ w) :
    ∃ p i : Nat, p < n ∧ v.par x = p ∧ v.pe x = i ∧ Inc E x p i ∧ v.In w p ∧ v.pre p < v.pre x := by
  have h1 : v.pre w < v.pre x := lt_of_le_of_ne h.1 (fun e => hne (c.inj _ _ hw hx e).symm)
  obtain ⟨p, h2, h3, h4⟩ := (c.done w hw).inside x hx h1 h.2
  obtain ⟨p', i, h5, h6, h7, h8, h9, h10⟩ := c.par_of hx (by rw [h3]; omega)
  have : p' = p := by rw [h3] at h6; exact_mod_cast h6.symm
  subst this
  exact ⟨p', i, h5, h6, h7, h8, ⟨h4, by have := h.2; omega⟩, h10⟩

/-- A vertex whose parent is in the subtree is in the subtree. -/
theorem Cert.child_in (c : Cert n E v) {w x p : Nat} (hw : w < n) (hx : x < n) (hp : v.par x = p) (h : v.In w p) : v.In w x := by
  obtain ⟨p', i, h5, h6, h7, h8, h9, h10⟩ := c.par_of hx (by rw [hp]; omega)
  have : p' = p := by rw [hp] at h6; exact_mod_cast h6.symm
  subst this
  have := (c.done w hw).closed p' x i h5 h.1 h.2 h8.symm
  exact ⟨by have := h.1; omega, this.2⟩

theorem Cert.in_self (c : Cert n E v) {w : Nat} (hw : w < n) : v.In w w := ⟨le_refl _, (c.done w hw).lt⟩

/-- An edge that leaves a subtree goes to a vertex that comes before the parent. -/
theorem Cert.leaving (c : Cert n E v) {w x y i : Nat} (hw : w < n) (h : v.In w x) (he : Inc E x y i) (hy : ¬ v.In w y) :
    ∃ p j : Nat, p < n ∧ v.par w = p ∧ v.pe w = j ∧ Inc E w p j ∧ v.pre p < v.pre w ∧ v.pre y ≤ v.pre p := by
  obtain ⟨hx, hyn⟩ := c.bnd x y i he
  have h1 := (c.done w hw).closed x y i hx h.1 h.2 he
  have h2 : v.pre y < v.pre w := by
    by_contra hc
    exact hy ⟨by omega, h1.2⟩
  have h3 := (c.done y hyn).closed y x i hyn (le_refl _) (c.done y hyn).lt he.symm
  have h4 : v.In y w := ⟨by omega, by have := h.1; omega⟩
  obtain ⟨p, j, h5, h6, h7, h8, h9, h10⟩ := c.par_in hyn hw h4 (by rintro rfl; omega)
  exact ⟨p, j, h5, h6, h7, h8, h10, h9.1⟩

/-- A root's subtree is closed. -/
theorem Cert.root_closed (c : Cert n E v) {w x y i : Nat} (hw : w < n) (hr : v.par w = -1) (h : v.In w x) (he : Inc E x y i) : v.In w y := by
  by_contra hc
  obtain ⟨p, j, -, h1, -⟩ := c.leaving hw h he hc
  omega

theorem Cert.pe_inj (c : Cert n E v) {w z i : Nat} (hw : w < n) (hz : z < n) (h1 : v.pe w = i) (h2 : v.pe z = i) : w = z := by
  obtain ⟨p, j, -, -, h3, h4, -, h5⟩ := c.par_of hw (by rw [Ne, ← c.root_iff hw]; omega)
  obtain ⟨p', j', -, -, h3', h4', -, h5'⟩ := c.par_of hz (by rw [Ne, ← c.root_iff hz]; omega)
  have e1 : j = i := by omega
  have e2 : j' = i := by omega
  subst e1 e2
  rcases h4.ends h4' with ⟨h, -⟩ | ⟨h6, h7⟩
  · exact h
  · subst h6 h7; omega

/-- Paths upwards within a subtree. -/
theorem Cert.up_path (c : Cert n E v) {w : Nat} (hw : w < n) : ∀ (k : Nat) (x : Nat), x < n → v.pre x ≤ k → v.In w x →
    Reach E (fun i => ∃ z p : Nat, z < n ∧ v.pre w < v.pre z ∧ v.pre z ≤ v.pre x ∧ v.In w z ∧ v.In w p ∧ v.pe z = i ∧ v.par z = p ∧ Inc E z p i) x w := by
  intro k
  induction k with
  | zero =>
    intro x hx hk h
    have : x = w := c.inj _ _ hx hw (by have := h.1; have := (c.done w hw).vis; omega)
    subst this
    exact Reach.refl _
  | succ k ih =>
    intro x hx hk h
    by_cases hne : x = w
    · subst hne; exact Reach.refl _
    · obtain ⟨p, i, h1, h2, h3, h4, h5, h6⟩ := c.par_in hw hx h hne
      have h0 : v.pre w < v.pre x := lt_of_le_of_ne h.1 (fun e => hne (c.inj _ _ hw hx e).symm)
      refine Reach.trans (Reach.edge h4 ⟨x, p, hx, h0, le_refl _, h, h5, h3, h2, h4⟩) ?_
      refine Reach.mono ?_ (ih p h1 (by omega) h5)
      rintro j ⟨z, q, a1, a2, a3, a4⟩
      exact ⟨z, q, a1, a2, by omega, a4⟩

theorem Cert.up (c : Cert n E v) {w x : Nat} (hw : w < n) (hx : x < n) (h : v.In w x) :
    Reach E (fun i => ∃ z p : Nat, z < n ∧ v.pre w < v.pre z ∧ v.pre z ≤ v.pre x ∧ v.In w z ∧ v.In w p ∧ v.pe z = i ∧ v.par z = p ∧ Inc E z p i) x w :=
  c.up_path hw (v.pre x).toNat x hx (by omega) h

/-- Paths to the root outside of a subtree `w`. -/
theorem Cert.out_path (c : Cert n E v) {w : Nat} (hw : w < n) : ∀ (k : Nat) (x : Nat), x < n → v.pre x ≤ k → ¬ v.In w x →
    ∃ r, r < n ∧ v.par r = -1 ∧ v.In r x ∧ ¬ v.In w r ∧
      Reach E (fun i => ∃ z p : Nat, z < n ∧ v.pre z ≤ v.pre x ∧ ¬ v.In w z ∧ ¬ v.In w p ∧ v.pe z = i ∧ v.par z = p ∧ Inc E z p i) x r := by
  intro k
  induction k with
  | zero =>
    intro x hx hk h
    have hr : v.par x = -1 := by
      by_contra hc
      obtain ⟨p, i, -, -, -, -, h1, h2⟩ := c.par_of hx hc
      omega
    exact ⟨x, hx, hr, c.in_self hx, h, Reach.refl _⟩
  | succ k ih =>
    intro x hx hk h
    by_cases hr : v.par x = -1
    · exact ⟨x, hx, hr, c.in_self hx, h, Reach.refl _⟩
    · obtain ⟨p, i, h1, h2, h3, h4, h5, h6⟩ := c.par_of hx hr
      have h7 : ¬ v.In w p := fun hc => h (c.child_in hw hx h2 hc)
      obtain ⟨r, a1, a2, a3, a4, a5⟩ := ih p h1 (by omega) h7
      refine ⟨r, a1, a2, c.child_in a1 hx h2 a3, a4, ?_⟩
      refine Reach.trans (Reach.edge h4 ⟨x, p, hx, le_refl _, h, h7, h3, h2, h4⟩) ?_
      refine Reach.mono ?_ a5
      rintro j ⟨z, q, b1, b2, b3⟩
      exact ⟨z, q, b1, by omega, b3⟩

theorem Cert.out (c : Cert n E v) {w x : Nat} (hw : w < n) (hx : x < n) (h : ¬ v.In w x) :
    ∃ r, r < n ∧ v.par r = -1 ∧ v.In r x ∧ ¬ v.In w r ∧
      Reach E (fun i => ∃ z p : Nat, z < n ∧ v.pre z ≤ v.pre x ∧ ¬ v.In w z ∧ ¬ v.In w p ∧ v.pe z = i ∧ v.par z = p ∧ Inc E z p i) x r :=
  c.out_path hw (v.pre x).toNat x hx (by omega) h

/-- Every vertex lies in the subtree of a root. -/
theorem Cert.has_root (c : Cert n E v) : ∀ (k : Nat) (x : Nat), x < n → v.pre x ≤ k → ∃ r, r < n ∧ v.par r = -1 ∧ v.In r x := by
  intro k
  induction k with
  | zero =>
    intro x hx hk
    refine ⟨x, hx, ?_, c.in_self hx⟩
    by_contra hc
    obtain ⟨p, i, -, -, -, -, h1, h2⟩ := c.par_of hx hc
    omega
  | succ k ih =>
    intro x hx hk
    by_cases hr : v.par x = -1
    · exact ⟨x, hx, hr, c.in_self hx⟩
    · obtain ⟨p, i, h1, h2, h3, h4, h5, h6⟩ := c.par_of hx hr
      obtain ⟨r, a1, a2, a3⟩ := ih p h1 (by omega)
      exact ⟨r, a1, a2, c.child_in a1 hx h2 a3⟩

theorem Cert.root_of (c : Cert n E v) {x : Nat} (hx : x < n) : ∃ r, r < n ∧ v.par r = -1 ∧ v.In r x :=
  c.has_root (v.pre x).toNat x hx (by omega)

/-- Subtrees are nested or disjoint. -/
theorem Cert.laminar (c : Cert n E v) {w z x : Nat} (h1 : v.In w x) (h2 : v.In z x) : v.In w z ∨ v.In z w := by
  rcases le_total (v.pre w) (v.pre z) with h | h
  · exact .inl ⟨h, by have := h2.1; have := h1.2; omega⟩
  · exact .inr ⟨h, by have := h1.1; have := h2.2; omega⟩

theorem Cert.root_in (c : Cert n E v) {w r : Nat} (hw : w < n) (hr : r < n) (h : v.par r = -1) (hin : v.In w r) : r = w := by
  by_contra hne
  obtain ⟨p, i, -, h1, -⟩ := c.par_in hw hr hin hne
  omega

theorem Cert.root_unique (c : Cert n E v) {r s x : Nat} (hr : r < n) (hs : s < n) (h1 : v.par r = -1) (h2 : v.par s = -1)
    (h3 : v.In r x) (h4 : v.In s x) : r = s := by
  rcases c.laminar h3 h4 with h | h
  · exact (c.root_in hr hs h2 h).symm
  · exact c.root_in hs hr h1 h

theorem Cert.reach_in (c : Cert n E v) {r x y : Nat} {ok : Nat → Prop} (hr : r < n) (h1 : v.par r = -1) (h : Reach E ok x y) (hx : v.In r x) : v.In r y :=
  Reach.closed (S := fun x => v.In r x) (fun _ _ _ h2 _ h3 => c.root_closed hr h1 h2 h3) h hx

/-- The edge above `w` is a bridge by the test of the code. -/
def V.Br (v : V) (n w : Nat) : Prop := ∃ p : Nat, p < n ∧ v.par w = p ∧ v.pre p < v.low w

/-- No edge but the tree edge leaves the subtree if the test succeeds. -/
theorem Cert.br_closed (c : Cert n E v) {w x y i : Nat} (hw : w < n) (hb : v.Br n w) (h : v.In w x) (he : Inc E x y i) (hi : (i : Int) ≠ v.pe w) : v.In w y := by
  by_contra hy
  obtain ⟨p, j, h1, h2, h3, h4, h5, h6⟩ := c.leaving hw h he hy
  obtain ⟨p', -, h7, h8⟩ := hb
  have : p' = p := by rw [h2] at h7; exact_mod_cast h7.symm
  subst this
  have := ((c.done w hw).lows (v.pre p' + 1) (by omega)).mpr ⟨x, y, i, (c.bnd _ _ _ he).1, h.1, h.2, he, hi, by omega⟩
  omega

/-- Some other edge leaves the subtree if the test fails. -/
theorem Cert.not_br (c : Cert n E v) {w p : Nat} (hw : w < n) (hp : v.par w = p) (hb : ¬ v.Br n w) :
    ∃ x y i, v.In w x ∧ Inc E x y i ∧ (i : Int) ≠ v.pe w ∧ ¬ v.In w y ∧ v.pre y < v.pre w := by
  obtain ⟨p', j, h1, h2, h3, h4, h5, h6⟩ := c.par_of hw (by rw [hp]; omega)
  have : p' = p := by rw [hp] at h2; exact_mod_cast h2.symm
  subst this
  have : v.low w < v.pre w := by
    by_contra hc
    exact hb ⟨p', h1, h2, by omega⟩
  obtain ⟨x, y, i, a1, a2, a3, a4, a5, a6⟩ := ((c.done w hw).lows (v.pre w) (le_refl _)).mp this
  exact ⟨x, y, i, ⟨a2, a3⟩, a4, a5, fun h => by have := h.1; omega, a6⟩

/-- **Bridges.** -/
theorem Cert.bridge_iff (c : Cert n E v) {i : Nat} : IsBridge E i ↔ ∃ w, w < n ∧ v.pe w = i ∧ v.Br n w := by
  constructor
  · rintro ⟨x, y, he, hnr⟩
    obtain ⟨hx, hy⟩ := c.bnd _ _ _ he
    obtain ⟨r, hr, hr1, hr2⟩ := c.root_of hx
    have hy2 : v.In r y := c.root_closed hr hr1 hr2 he
    by_cases hw : ∃ w, w < n ∧ v.pe w = i
    · obtain ⟨w, hw, hpe⟩ := hw
      refine ⟨w, hw, hpe, ?_⟩
      by_contra hb
      obtain ⟨p, j, h1, h2, h3, h4, h5, h6⟩ := c.par_of hw (by rw [Ne, ← c.root_iff hw]; omega)
      have hji : j = i := by omega
      subst hji
      obtain ⟨x', y', i', b1, b2, b3, b4, b5⟩ := c.not_br hw h2 hb
      obtain ⟨hx', hy'⟩ := c.bnd _ _ _ b2
      have hpn : ¬ v.In w p := fun h => by have := h.1; omega
      -- w to x' in the subtree
      have r1 : Reach E (· ≠ j) x' w := by
        refine Reach.mono ?_ (c.up hw hx' b1)
        rintro k ⟨z, q, d1, d2, -, -, -, d3, -⟩ rfl
        have := c.pe_inj hw d1 hpe d3
        subst this
        omega
      have r2 : Reach E (· ≠ j) x' y' := Reach.edge b2 (by rintro rfl; exact b3 hpe.symm)
      obtain ⟨r', e1, e2, e3, e4, e5⟩ := c.out hw hy' b4
      obtain ⟨r'', f1, f2, f3, f4, f5⟩ := c.out hw h1 hpn
      have mon : ∀ (q k : Nat), (∃ z p : Nat, z < n ∧ v.pre z ≤ v.pre q ∧ ¬ v.In w z ∧ ¬ v.In w p ∧ v.pe z = k ∧ v.par z = p ∧ Inc E z p k) → k ≠ j := by
        rintro q k ⟨z, p, d1, -, d2, -, d3, -⟩ rfl
        have := c.pe_inj hw d1 hpe d3
        subst this
        exact d2 (c.in_self d1)
      have r3 : Reach E (· ≠ j) y' r' := Reach.mono (mon y') e5
      have r4 : Reach E (· ≠ j) p r'' := Reach.mono (mon p) f5
      have hrr : r' = r'' := by
        have g1 : v.In r' x' := c.root_closed e1 e2 e3 b2.symm
        have g2 : v.In r' w := c.reach_in e1 e2 r1 g1
        have g3 : v.In r' p := c.root_closed e1 e2 g2 h4
        exact c.root_unique e1 f1 e2 f2 g3 f3
      subst hrr
      have r5 : Reach E (· ≠ j) w p := (r1.symm.trans r2).trans (r3.trans r4.symm)
      rcases he.ends h4 with ⟨rfl, rfl⟩ | ⟨rfl, rfl⟩
      · exact hnr r5
      · exact hnr r5.symm
    · exfalso
      have mon : ∀ (q k : Nat), (∃ z p : Nat, z < n ∧ v.pre r < v.pre z ∧ v.pre z ≤ v.pre q ∧ v.In r z ∧ v.In r p ∧ v.pe z = k ∧ v.par z = p ∧ Inc E z p k) → k ≠ i := by
        rintro q k ⟨z, p, d1, -, -, -, -, d2, -⟩ rfl
        exact hw ⟨z, d1, d2⟩
      exact hnr ((Reach.mono (mon x) (c.up hr hx hr2)).trans (Reach.mono (mon y) (c.up hr hy hy2)).symm)
  · rintro ⟨w, hw, hpe, hb⟩
    obtain ⟨p, j, h1, h2, h3, h4, h5, h6⟩ := c.par_of hw (by rw [Ne, ← c.root_iff hw]; omega)
    have hji : j = i := by omega
    subst hji
    refine ⟨w, p, h4, fun hr => ?_⟩
    have := Reach.closed (S := fun x => v.In w x) (fun x y k a b d => c.br_closed hw hb a d (by rw [hpe]; exact_mod_cast b)) hr (c.in_self hw)
    have := this.1
    omega

/-- `is_bridge`: comparison for the end points of an edge. -/
theorem Cert.isBridge_iff (c : Cert n E v) {x y i : Nat} (he : Inc E x y i) (hle : v.pre x ≤ v.pre y) : v.pre x < v.low y ↔ IsBridge E i := by
  obtain ⟨hx, hy⟩ := c.bnd _ _ _ he
  rw [c.bridge_iff]
  constructor
  · intro h
    have hxy : v.pre x < v.pre y := by have := (c.done y hy).lowle; omega
    have hpe : v.pe y = i := by
      by_contra hne
      have := ((c.done y hy).lows (v.pre x + 1) (by omega)).mpr ⟨y, x, i, hy, le_refl _, (c.done y hy).lt, he.symm, fun e => hne e.symm, by omega⟩
      omega
    obtain ⟨p, j, h1, h2, h3, h4, h5, h6⟩ := c.par_of hy (by rw [Ne, ← c.root_iff hy]; omega)
    have hji : j = i := by omega
    subst hji
    rcases he.ends h4 with ⟨e1, e2⟩ | ⟨e1, e2⟩
    · subst e1; omega
    · subst e1
      exact ⟨y, hy, hpe, x, hx, h2, h⟩
  · rintro ⟨w, hw, hpe, p, hp, h2, h3⟩
    obtain ⟨p', j, h1', h2', h3', h4', h5', h6'⟩ := c.par_of hw (by rw [h2]; omega)
    have : p' = p := by rw [h2] at h2'; exact_mod_cast h2'.symm
    subst this
    have hji : j = i := by omega
    subst hji
    rcases he.ends h4' with ⟨rfl, rfl⟩ | ⟨rfl, rfl⟩
    · omega
    · exact h3

/-- The subtree of the child `w` of `u` is cut off by `u`. -/
def V.Sep (v : V) (n u w : Nat) : Prop := w < n ∧ v.par w = u ∧ v.pre u ≤ v.low w

theorem Cert.sep_leave (c : Cert n E v) {u w x y i : Nat} (hs : v.Sep n u w) (h : v.In w x) (he : Inc E x y i) (hy : ¬ v.In w y) : y = u := by
  obtain ⟨hw, h1, h2⟩ := hs
  obtain ⟨p, j, a1, a2, a3, a4, a5, a6⟩ := c.leaving hw h he hy
  have : p = u := by rw [h1] at a2; exact_mod_cast a2.symm
  subst this
  have hyn := (c.bnd _ _ _ he).2
  by_cases hi : (i : Int) = v.pe w
  · have : i = j := by omega
    subst this
    rcases he.ends a4 with ⟨-, e⟩ | ⟨-, e⟩
    · exact e
    · subst e; exact absurd (c.in_self hw) hy
  · refine c.inj _ _ hyn a1 ?_
    by_contra hne
    have := ((c.done w hw).lows (v.pre p) (by omega)).mpr ⟨x, y, i, (c.bnd _ _ _ he).1, h.1, h.2, he, hi, by omega⟩
    omega

theorem Cert.sep_reach (c : Cert n E v) {u w x y : Nat} (hs : v.Sep n u w) (hr : Reach E (Avoid E u) x y) (h : v.In w x) : v.In w y := by
  refine Reach.closed (S := fun x => v.In w x) ?_ hr h
  intro a b i ha hi he
  by_contra hb
  have := c.sep_leave hs ha he hb
  subst this
  exact hi a he.symm

theorem Cert.child_notin (c : Cert n E v) {u w : Nat} (hw : w < n) (hp : v.par w = u) : u < n ∧ v.pre u < v.pre w ∧ ¬ v.In w u ∧ v.In u w := by
  obtain ⟨p, j, a1, a2, a3, a4, a5, a6⟩ := c.par_of hw (by rw [hp]; omega)
  have : p = u := by rw [hp] at a2; exact_mod_cast a2.symm
  subst this
  exact ⟨a1, a6, fun h => by have := h.1; omega, c.child_in a1 hw hp (c.in_self a1)⟩

/-- The children of a root are all cut off. -/
theorem Cert.root_sep (c : Cert n E v) {u w : Nat} (hu : u < n) (hr : v.par u = -1) (hw : w < n) (hp : v.par w = u) : v.Sep n u w := by
  refine ⟨hw, hp, ?_⟩
  by_contra hc
  obtain ⟨-, h1, h2, h3⟩ := c.child_notin hw hp
  obtain ⟨x, y, i, a1, a2, a3, a4, a5, a6⟩ := ((c.done w hw).lows (v.pre u) (by omega)).mp (by omega)
  have hx : v.In u x := by
    have := c.reach_in hu hr (c.up hw a1 ⟨a2, a3⟩).symm h3
    exact this
  have := (c.root_closed hu hr hx a4).1
  omega

/-- The child of `u` above a strict descendant. -/
theorem Cert.child_above (c : Cert n E v) {u : Nat} (hu : u < n) : ∀ (k : Nat) (x : Nat), x < n → v.pre x ≤ k → v.In u x → x ≠ u →
    ∃ w, w < n ∧ v.par w = u ∧ v.In w x := by
  intro k
  induction k with
  | zero =>
    intro x hx hk h hne
    obtain ⟨p, i, h1, h2, h3, h4, h5, h6⟩ := c.par_in hu hx h hne
    have := (c.done p h1).vis
    omega
  | succ k ih =>
    intro x hx hk h hne
    obtain ⟨p, i, h1, h2, h3, h4, h5, h6⟩ := c.par_in hu hx h hne
    by_cases hpu : p = u
    · subst hpu; exact ⟨x, hx, h2, c.in_self hx⟩
    · obtain ⟨w, a1, a2, a3⟩ := ih p h1 (by omega) h5 hpu
      exact ⟨w, a1, a2, c.child_in a1 hx h2 a3⟩

/-- Within the subtree of a child of `u` one gets to the child avoiding `u`. -/
theorem Cert.up_avoid (c : Cert n E v) {u w x : Nat} (hw : w < n) (hp : v.par w = u) (hx : x < n) (h : v.In w x) : Reach E (Avoid E u) x w := by
  obtain ⟨-, -, h2, -⟩ := c.child_notin hw hp
  refine Reach.mono ?_ (c.up hw hx h)
  rintro i ⟨z, q, d1, d2, d3, d4, d5, d6, d7, d8⟩ y hy
  rcases hy.ends d8 with ⟨e, -⟩ | ⟨e, -⟩
  · subst e; exact h2 d4
  · subst e; exact h2 d5

/-- Outside of the subtree of `u` one gets to the root avoiding `u`. -/
theorem Cert.out_avoid (c : Cert n E v) {u x : Nat} (hu : u < n) (hx : x < n) (h : ¬ v.In u x) :
    ∃ r, r < n ∧ v.par r = -1 ∧ v.In r x ∧ r ≠ u ∧ Reach E (Avoid E u) x r := by
  obtain ⟨r, h1, h2, h3, h4, h5⟩ := c.out hu hx h
  refine ⟨r, h1, h2, h3, fun e => h4 (by rw [e]; exact c.in_self hu), Reach.mono ?_ h5⟩
  rintro i ⟨z, q, d1, d2, d3, d4, d5, d6, d7⟩ y hy
  rcases hy.ends d7 with ⟨e, -⟩ | ⟨e, -⟩
  · subst e; exact d3 (c.in_self hu)
  · subst e; exact d4 (c.in_self hu)

/-- Every vertex other than `u` gets, avoiding `u`, to the root or to a child that is cut off. -/
theorem Cert.avoid_rep (c : Cert n E v) {u x : Nat} (hu : u < n) (hx : x < n) (hne : x ≠ u) :
    (∃ w, v.Sep n u w ∧ v.In w x ∧ Reach E (Avoid E u) x w) ∨
    ∃ r, r < n ∧ v.par r = -1 ∧ r ≠ u ∧ v.In r x ∧ Reach E (Avoid E u) x r := by
  by_cases h : v.In u x
  · obtain ⟨w, h1, h2, h3⟩ := c.child_above hu (v.pre x).toNat x hx (by omega) h hne
    by_cases hs : v.pre u ≤ v.low w
    · exact .inl ⟨w, ⟨h1, h2, hs⟩, h3, c.up_avoid h1 h2 hx h3⟩
    · right
      obtain ⟨-, h5, h6, h7⟩ := c.child_notin h1 h2
      obtain ⟨x', y', i, a1, a2, a3, a4, a5, a6⟩ := ((c.done w h1).lows (v.pre u) (by omega)).mp (by omega)
      have hy' : y' < n := (c.bnd _ _ _ a4).2
      obtain ⟨r, b1, b2, b3, b4, b5⟩ := c.out_avoid hu hy' (fun h => by have := h.1; omega)
      have hav : Avoid E u i := by
        intro z hz
        rcases hz.ends a4 with ⟨e, -⟩ | ⟨e, -⟩
        · subst e; omega
        · subst e; omega
      have hr : Reach E (Avoid E u) x r := ((c.up_avoid h1 h2 hx h3).trans (c.up_avoid h1 h2 a1 ⟨a2, a3⟩).symm).trans ((Reach.edge a4 hav).trans b5)
      exact ⟨r, b1, b2, b4, c.reach_in b1 b2 hr.symm (c.in_self b1), hr⟩
  · right
    obtain ⟨r, b1, b2, b3, b4, b5⟩ := c.out_avoid hu hx h
    exact ⟨r, b1, b2, b4, b3, b5⟩

/-- The test for articulation points. -/
def V.Art (v : V) (n x : Nat) : Prop :=
  (v.pe x ≠ -1 ∧ ∃ w, w < n ∧ v.pre x < v.pre w ∧ v.pre w < v.fin x ∧ v.par w = x ∧ v.pre x ≤ v.low w) ∨
  (v.pe x = -1 ∧ ∃ w w', w ≠ w' ∧ (w < n ∧ v.pre x < v.pre w ∧ v.pre w < v.fin x ∧ v.par w = x) ∧
    w' < n ∧ v.pre x < v.pre w' ∧ v.pre w' < v.fin x ∧ v.par w' = x)

/-- **Articulation points.** -/
theorem Cert.art_iff (c : Cert n E v) {u : Nat} (hu : u < n) : v.Art n u ↔ IsCut E u := by
  constructor
  · rintro (⟨h1, w, h2, h3, h4, h5, h6⟩ | ⟨h1, w, w', hne, ⟨h2, h3, h4, h5⟩, h2', h3', h4', h5'⟩)
    · obtain ⟨p, i, a1, a2, a3, a4, a5, a6⟩ := c.par_of hu (by rw [Ne, ← c.root_iff hu]; exact h1)
      obtain ⟨p', i', b1, b2, b3, b4, b5, b6⟩ := c.par_of h2 (by rw [h5]; omega)
      have : p' = u := by rw [h5] at b2; exact_mod_cast b2.symm
      subst this
      refine ⟨w, p, by rintro rfl; omega, by rintro rfl; omega, (Reach.edge b4 trivial).trans (Reach.edge a4 trivial), fun hr => ?_⟩
      have := (c.sep_reach ⟨h2, h5, h6⟩ hr (c.in_self h2)).1
      omega
    · rw [c.root_iff hu] at h1
      obtain ⟨p, i, b1, b2, b3, b4, b5, b6⟩ := c.par_of h2 (by rw [h5]; omega)
      have : p = u := by rw [h5] at b2; exact_mod_cast b2.symm
      subst this
      obtain ⟨p', i', b1', b2', b3', b4', b5', b6'⟩ := c.par_of h2' (by rw [h5']; omega)
      have : p' = p := by rw [h5'] at b2'; exact_mod_cast b2'.symm
      subst this
      refine ⟨w, w', by rintro rfl; omega, by rintro rfl; omega, (Reach.edge b4 trivial).trans (Reach.edge b4'.symm trivial), fun hr => ?_⟩
      have h := c.sep_reach (c.root_sep hu h1 h2 h5) hr (c.in_self h2)
      obtain ⟨q, j, d1, d2, d3, d4, d5, d6⟩ := c.par_in h2 h2' h (fun e => hne e.symm)
      have : q = p' := by rw [h5'] at d2; exact_mod_cast d2.symm
      subst this
      exact (c.child_notin h2 h5).2.2.1 d5
  · rintro ⟨x, y, hx, hy, hr, hnr⟩
    have hb : ∀ a b, a < n → Reach E (fun _ => True) a b → b < n := by
      intro a b ha h
      exact Reach.closed (S := fun x => x < n) (fun _ _ _ _ _ h => (c.bnd _ _ _ h).2) h ha
    have hxn : x < n := by
      unfold Reach at hr
      rcases Relation.ReflTransGen.cases_head hr with e | ⟨z, ⟨i, -, h⟩, -⟩
      · exact absurd (e ▸ Reach.refl x) hnr
      · exact (c.bnd _ _ _ h).1
    have hyn := hb x y hxn hr
    have mk : ∀ w, w < n → v.par w = u → v.pre u < v.pre w ∧ v.pre w < v.fin u := by
      intro w h1 h2
      obtain ⟨-, h3, -, h4⟩ := c.child_notin h1 h2
      exact ⟨h3, h4.2⟩
    by_cases hroot : v.pe u = -1
    · right
      refine ⟨hroot, ?_⟩
      rw [c.root_iff hu] at hroot
      obtain ⟨r, r1, r2, r3⟩ := c.root_of hxn
      have r4 : v.In r y := c.reach_in r1 r2 hr r3
      by_cases hru : r = u
      · subst hru
        obtain ⟨w, a1, a2, a3⟩ := c.child_above hu (v.pre x).toNat x hxn (by omega) r3 hx
        obtain ⟨w', b1, b2, b3⟩ := c.child_above hu (v.pre y).toNat y hyn (by omega) r4 hy
        refine ⟨w, w', ?_, ⟨a1, (mk w a1 a2).1, (mk w a1 a2).2, a2⟩, b1, (mk w' b1 b2).1, (mk w' b1 b2).2, b2⟩
        rintro rfl
        exact hnr ((c.up_avoid a1 a2 hxn a3).trans (c.up_avoid a1 a2 hyn b3).symm)
      · exfalso
        have hd : ∀ z, v.In r z → ¬ v.In u z := fun z h1 h2 => hru (c.root_unique r1 hu r2 hroot h1 h2)
        obtain ⟨s, s1, s2, s3, s4, s5⟩ := c.out_avoid hu hxn (hd x r3)
        obtain ⟨t, t1, t2, t3, t4, t5⟩ := c.out_avoid hu hyn (hd y r4)
        have e1 := c.root_unique r1 s1 r2 s2 r3 s3
        have e2 := c.root_unique r1 t1 r2 t2 r4 t3
        subst e1 e2
        exact hnr (s5.trans t5.symm)
    · left
      refine ⟨hroot, ?_⟩
      by_contra hno
      have hns : ∀ w, ¬ v.Sep n u w := by
        rintro w ⟨h1, h2, h3⟩
        exact hno ⟨w, h1, (mk w h1 h2).1, (mk w h1 h2).2, h2, h3⟩
      rcases c.avoid_rep hu hxn hx with ⟨w, h, -⟩ | ⟨r, a1, a2, a3, a4, a5⟩
      · exact hns w h
      rcases c.avoid_rep hu hyn hy with ⟨w, h, -⟩ | ⟨s, b1, b2, b3, b4, b5⟩
      · exact hns w h
      have := c.root_unique a1 b1 a2 b2 (c.reach_in a1 a2 hr a4) b4
      subst this
      exact hnr (a5.trans b5.symm)

open Classical in
/-- **Number of components.** -/
theorem Cert.count (c : Cert n E v) :
    CompCount n (fun _ => True) (Reach E fun _ => True) ((Finset.range n).filter fun x => v.par x = -1).card := by
  refine ⟨_, rfl, ?_, ?_⟩
  · intro r hr
    rw [Finset.mem_filter, Finset.mem_range] at hr
    exact ⟨hr.1, trivial⟩
  · intro x hx _
    obtain ⟨r, h1, h2, h3⟩ := c.root_of hx
    refine ⟨r, ⟨?_, Reach.mono (fun _ _ => trivial) (c.up h1 hx h3)⟩, ?_⟩
    · rw [Finset.mem_filter, Finset.mem_range]; exact ⟨h1, h2⟩
    · rintro s ⟨h4, h5⟩
      rw [Finset.mem_filter, Finset.mem_range] at h4
      exact c.root_in h1 h4.1 h4.2 (c.reach_in h1 h2 h5 h3)

theorem reach_of_not_bridge {E : List (Nat × Nat)} {i x y : Nat} (h : ¬ IsBridge E i) (hr : Reach E (fun _ => True) x y) : Reach E (· ≠ i) x y := by
  unfold Reach at hr
  induction hr with
  | refl => exact Reach.refl _
  | tail _ h2 ih =>
    obtain ⟨j, -, h3⟩ := h2
    by_cases e : j = i
    · subst e
      by_contra hc
      exact h ⟨_, _, h3, fun h4 => hc (ih.trans h4)⟩
    · exact ih.trans (Reach.edge h3 e)

open Classical in
/-- **Number of components without one edge.** -/
theorem Cert.count_edge (c : Cert n E v) (i : Nat) :
    CompCount n (fun _ => True) (Reach E (· ≠ i)) (((Finset.range n).filter fun x => v.par x = -1).card + if IsBridge E i then 1 else 0) := by
  by_cases hb : IsBridge E i
  · rw [if_pos hb]
    obtain ⟨w, hw, hpe, hbr⟩ := c.bridge_iff.mp hb
    have hroot : v.par w ≠ -1 := by rw [Ne, ← c.root_iff hw]; omega
    have hcl : ∀ x y, Reach E (· ≠ i) x y → v.In w x → v.In w y := by
      intro x y hr hx
      exact Reach.closed (S := fun x => v.In w x) (fun x y k a b d => c.br_closed hw hbr a d (by rw [hpe]; exact_mod_cast b)) hr hx
    refine ⟨insert w ((Finset.range n).filter fun x => v.par x = -1), ?_, ?_, ?_⟩
    · rw [Finset.card_insert_of_notMem]
      rw [Finset.mem_filter]
      exact fun h => hroot h.2
    · intro r hr
      rw [Finset.mem_insert, Finset.mem_filter, Finset.mem_range] at hr
      rcases hr with rfl | hr
      · exact ⟨hw, trivial⟩
      · exact ⟨hr.1, trivial⟩
    · intro x hx _
      by_cases hin : v.In w x
      · refine ⟨w, ⟨Finset.mem_insert_self _ _, ?_⟩, ?_⟩
        · refine Reach.mono ?_ (c.up hw hx hin)
          rintro k ⟨z, q, d1, d2, -, -, -, d3, -⟩ rfl
          have := c.pe_inj hw d1 hpe d3
          subst this
          omega
        · rintro s ⟨h4, h5⟩
          rw [Finset.mem_insert, Finset.mem_filter, Finset.mem_range] at h4
          rcases h4 with h4 | h4
          · exact h4
          · exact c.root_in hw h4.1 h4.2 (hcl _ _ h5 hin)
      · obtain ⟨r, h1, h2, h3, h4, h5⟩ := c.out hw hx hin
        refine ⟨r, ⟨?_, ?_⟩, ?_⟩
        · rw [Finset.mem_insert, Finset.mem_filter, Finset.mem_range]; exact .inr ⟨h1, h2⟩
        · refine Reach.mono ?_ h5
          rintro k ⟨z, p, d1, -, d2, -, d3, -⟩ rfl
          have := c.pe_inj hw d1 hpe d3
          subst this
          exact d2 (c.in_self d1)
        · rintro s ⟨h6, h7⟩
          rw [Finset.mem_insert, Finset.mem_filter, Finset.mem_range] at h6
          rcases h6 with h6 | h6
          · subst h6
            exact absurd (hcl _ _ h7.symm (c.in_self hw)) hin
          · exact c.root_in h1 h6.1 h6.2 (c.reach_in h1 h2 h7 h3)
  · rw [if_neg hb]
    obtain ⟨reps, h1, h2, h3⟩ := c.count
    refine ⟨reps, by rw [h1, Nat.add_zero], h2, fun x hx hp => ?_⟩
    obtain ⟨r, ⟨h4, h5⟩, h6⟩ := h3 x hx hp
    exact ⟨r, ⟨h4, reach_of_not_bridge hb h5⟩, fun s hs => h6 s ⟨hs.1, Reach.mono (fun _ _ => trivial) hs.2⟩⟩

open Classical in
/-- **Number of components without one vertex.** -/
theorem Cert.count_vertex (c : Cert n E v) {u : Nat} (hu : u < n) :
    CompCount n (· ≠ u) (Reach E (Avoid E u))
      (((Finset.range n).filter fun x => v.par x = -1 ∧ x ≠ u).card + ((Finset.range n).filter fun w => v.par w = u ∧ v.pre u ≤ v.low w).card) := by
  refine ⟨((Finset.range n).filter fun x => v.par x = -1 ∧ x ≠ u) ∪ ((Finset.range n).filter fun w => v.par w = u ∧ v.pre u ≤ v.low w), ?_, ?_, ?_⟩
  · refine Finset.card_union_of_disjoint ?_
    rw [Finset.disjoint_left]
    intro x h1 h2
    rw [Finset.mem_filter] at h1 h2
    omega
  · intro r hr
    rw [Finset.mem_union, Finset.mem_filter, Finset.mem_filter, Finset.mem_range] at hr
    rcases hr with hr | hr
    · exact ⟨hr.1, hr.2.2⟩
    · refine ⟨hr.1, ?_⟩
      rintro rfl
      have := (c.child_notin hr.1 hr.2.1).2.1
      omega
  · intro x hx hne
    have key : ∀ s, s ∈ ((Finset.range n).filter fun x => v.par x = -1 ∧ x ≠ u) ∪ ((Finset.range n).filter fun w => v.par w = u ∧ v.pre u ≤ v.low w) →
        (s < n ∧ v.par s = -1) ∨ v.Sep n u s := by
      intro s hs
      rw [Finset.mem_union, Finset.mem_filter, Finset.mem_filter, Finset.mem_range] at hs
      rcases hs with hs | hs
      · exact .inl ⟨hs.1, hs.2.1⟩
      · exact .inr ⟨hs.1, hs.2.1, hs.2.2⟩
    rcases c.avoid_rep hu hx hne with ⟨w, h1, h2, h3⟩ | ⟨r, h1, h2, h3, h4, h5⟩
    · refine ⟨w, ⟨?_, h3⟩, ?_⟩
      · rw [Finset.mem_union, Finset.mem_filter, Finset.mem_filter, Finset.mem_range]
        exact .inr ⟨h1.1, h1.2.1, h1.2.2⟩
      · rintro s ⟨a1, a2⟩
        have hin := c.sep_reach h1 a2 h2
        rcases key s a1 with ⟨b1, b2⟩ | b
        · exact c.root_in h1.1 b1 b2 hin
        · by_contra hsw
          obtain ⟨p, i, d1, d2, d3, d4, d5, d6⟩ := c.par_in h1.1 b.1 hin hsw
          have : p = u := by have := b.2.1; rw [this] at d2; exact_mod_cast d2.symm
          subst this
          exact (c.child_notin h1.1 h1.2.1).2.2.1 d5
    · refine ⟨r, ⟨?_, h5⟩, ?_⟩
      · rw [Finset.mem_union, Finset.mem_filter, Finset.mem_filter, Finset.mem_range]
        exact .inl ⟨h1, h2, h3⟩
      · rintro s ⟨a1, a2⟩
        rcases key s a1 with ⟨b1, b2⟩ | b
        · exact c.root_in h1 b1 b2 (c.reach_in h1 h2 a2 h4)
        · exfalso
          have := c.sep_reach b (a2.symm.trans h5) (c.in_self b.1)
          have := c.root_in b.1 h1 h2 this
          subst this
          have := b.2.1
          omega

end
end LowLink
