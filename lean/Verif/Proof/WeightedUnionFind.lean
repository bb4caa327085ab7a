import Verif.Model.WeightedUnionFind
import Verif.Proof.UnionFind
import Mathlib.Algebra.Group.Basic

namespace WeightedUnionFind
open Cxx
open UnionFind (cls mem_cls link cls_link)

variable {G : Type} [Group G]

/-- Representation invariant: `R` maps a vertex to its root, `W x` is the weight of `x` relative to it, `rk` increases along parent
edges. -/
structure Inv (n : Nat) (R rk : Nat → Nat) (W : Nat → G) (s : State G) : Prop where
  psize : s.par.size = n
  ssize : s.siz.size = n
  vsize : s.value.size = n
  lt : ∀ x, x < n → R x < n
  idem : ∀ x, x < n → R (R x) = R x
  rk_le : ∀ x, x < n → rk x ≤ n
  rk_root : ∀ x, x < n → R x = x → rk x = (cls n R x).card
  root : ∀ x, x < n → R x = x → s.par[x]? = some x ∧ W x = 1 ∧ s.value[x]? = some 1 ∧
    s.siz[x]? = some (cls n R x).card
  par : ∀ x, x < n → R x ≠ x → ∃ p v, p < n ∧ p ≠ x ∧ s.par[x]? = some p ∧ R p = R x ∧ rk x < rk p ∧
    s.value[x]? = some v ∧ W x = W p * v

variable {n : Nat} {R rk : Nat → Nat} {W : Nat → G} {s : State G}

theorem inv_init (n : Nat) : Inv n id (fun _ => 1) (fun _ => 1) (init (1 : G) n) := by
  have hc : ∀ x < n, (cls n id x).card = 1 := by
    intro x hx
    rw [Finset.card_eq_one]; exact ⟨x, by ext y; simp only [mem_cls, id, Finset.mem_singleton]; omega⟩
  constructor
  · simp [init]
  · simp [init]
  · simp [init]
  · intro x hx; exact hx
  · intros; rfl
  · intro x hx; omega
  · intro x hx _; exact (hc x hx).symm
  · intro x hx _; rw [hc x hx]; simp [init, hx]
  · intro x _ h; exact absurd rfl h

/-- Every vertex has a parent entry one step closer to the root (itself, for a root). -/
theorem Inv.up (h : Inv n R rk W s) {x : Nat} (hx : x < n) :
    ∃ p v, p < n ∧ s.par[x]? = some p ∧ R p = R x ∧ rk x ≤ rk p ∧ s.value[x]? = some v ∧ W x = W p * v ∧
      (R x ≠ x → rk x < rk p ∧ p ≠ x) := by
  by_cases hr : R x = x
  · obtain ⟨h1, h2, h3, h4⟩ := h.root x hx hr
    exact ⟨x, 1, hx, h1, rfl, le_rfl, h3, by rw [mul_one], fun h => absurd hr h⟩
  · obtain ⟨p, v, h1, h2, h3, h4, h5, h6, h7⟩ := h.par x hx hr
    exact ⟨p, v, h1, h3, h4, h5.le, h6, h7, fun _ => ⟨h5, h2⟩⟩

/-- Halving the path at a non-root `x` keeps the invariant. -/
theorem Inv.halve (h : Inv n R rk W s) {x p pp : Nat} {vp vx : G} (hx : x < n) (hr : R x ≠ x) (hp : s.par[x]? = some p)
    (hpp : s.par[p]? = some pp) (hvp : s.value[p]? = some vp) (hvx : s.value[x]? = some vx) :
    Inv n R rk W ⟨s.par.setIfInBounds x pp, s.siz, s.value.setIfInBounds x (vp * vx)⟩ ∧ pp < n ∧ R pp = R x ∧
      rk x < rk pp ∧ W x = W pp * (vp * vx) := by
  obtain ⟨p', v, h1, h2, h3, h4, h5, h6, h7⟩ := h.par x hx hr
  obtain rfl : p' = p := by rw [hp] at h3; exact (Option.some.inj h3).symm
  obtain rfl : v = vx := by rw [hvx] at h6; exact (Option.some.inj h6).symm
  obtain ⟨q, w, g1, g2, g3, g4, g5, g6, -⟩ := h.up h1
  obtain rfl : q = pp := by rw [hpp] at g2; exact (Option.some.inj g2).symm
  obtain rfl : w = vp := by rw [hvp] at g5; exact (Option.some.inj g5).symm
  have hrk : rk x < rk q := by omega
  have hW : W x = W q * (w * v) := by rw [h7, g6, mul_assoc]
  have hqx : q ≠ x := by rintro rfl; omega
  refine ⟨?_, g1, by rw [g3, h4], hrk, hW⟩
  constructor
  · simpa using h.psize
  · exact h.ssize
  · simpa using h.vsize
  · exact h.lt
  · exact h.idem
  · exact h.rk_le
  · exact h.rk_root
  · intro y hy hyr
    have : x ≠ y := by rintro rfl; exact hr hyr
    simp only
    rw [get?_set _ _ _ _ (by rw [h.psize]; exact hx), if_neg this, get?_set _ _ _ _ (by rw [h.vsize]; exact hx), if_neg this]
    exact h.root y hy hyr
  · intro y hy hyr
    simp only
    rw [get?_set _ _ _ _ (by rw [h.psize]; exact hx), get?_set _ _ _ _ (by rw [h.vsize]; exact hx)]
    by_cases e : x = y
    · subst e
      exact ⟨q, w * v, g1, hqx, by simp, by rw [g3, h4], hrk, by simp, hW⟩
    · rw [if_neg e, if_neg e]; exact h.par y hy hyr

theorem root_tot (h : Inv n R rk W s) {x : Nat} (hx : x < n) :
    Tot (root (· * ·) s x) fun r => r.2 = R x ∧ Inv n R rk W r.1 := by
  unfold root
  refine Tot.loop (P := fun (t : State G × Nat) => t.2 < n ∧ R t.2 = R x ∧ Inv n R rk W t.1) (fun t => n - rk t.2) ?_
    ⟨hx, rfl, h⟩ (by rw [h.psize]; omega)
  rintro ⟨t, y⟩ ⟨hy, hyr, ht⟩
  simp only at hy hyr ht
  obtain ⟨p, v, h1, h2, h3, h4, h5, h6, h7⟩ := ht.up hy
  simp only [rootStep, rd_some h2, ok_bind]
  by_cases hr : R y = y
  · have : p = y := by have := (ht.root y hy hr).1; rw [h2] at this; exact Option.some.inj this
    rw [if_pos this]
    exact Tot.pure ⟨by rw [← hyr, hr], ht⟩
  · rw [if_neg (h7 hr).2]
    obtain ⟨q, w, g1, g2, g3, g4, g5, g6, -⟩ := ht.up h1
    obtain ⟨i1, i2, i3, i4, i5⟩ := ht.halve hy hr h2 g2 g5 h5
    rw [rd_some g5, ok_bind, rd_some h5, ok_bind, wr_eq (by rw [ht.vsize]; exact hy), ok_bind, rd_some g2, ok_bind,
      wr_eq (by rw [ht.psize]; exact hy), ok_bind]
    refine Tot.pure ⟨⟨i2, by rw [← hyr]; exact i3, i1⟩, ?_⟩
    have := ht.rk_le q g1; simp only; omega

theorem weight_tot (h : Inv n R rk W s) {x : Nat} (hx : x < n) :
    Tot (weight (· * ·) 1 s x) fun r => r.2 = W x ∧ Inv n R rk W r.1 := by
  unfold weight
  refine Tot.bind (P := fun (t : State G × Nat × G) => t.2.2 = W x ∧ Inv n R rk W t.1) ?_ ?_
  · refine Tot.loop (P := fun (t : State G × Nat × G) => t.2.1 < n ∧ R t.2.1 = R x ∧ W t.2.1 * t.2.2 = W x ∧
      Inv n R rk W t.1) (fun t => n - rk t.2.1) ?_ ⟨hx, rfl, by simp, h⟩ (by rw [h.psize]; omega)
    rintro ⟨t, y, res⟩ ⟨hy, hyr, hres, ht⟩
    simp only at hy hyr ht hres
    obtain ⟨p, v, h1, h2, h3, h4, h5, h6, h7⟩ := ht.up hy
    simp only [weightStep, rd_some h2, ok_bind]
    by_cases hr : R y = y
    · have : p = y := by have := (ht.root y hy hr).1; rw [h2] at this; exact Option.some.inj this
      rw [if_pos this]
      refine Tot.pure ⟨?_, ht⟩
      rw [← hres, (ht.root y hy hr).2.1, one_mul]
    · rw [if_neg (h7 hr).2]
      obtain ⟨q, w, g1, g2, g3, g4, g5, g6, -⟩ := ht.up h1
      obtain ⟨i1, i2, i3, i4, i5⟩ := ht.halve hy hr h2 g2 g5 h5
      rw [rd_some g5, ok_bind, rd_some h5, ok_bind, wr_eq (by rw [ht.vsize]; exact hy), ok_bind]
      rw [rd_some (x := w * v) (by rw [get?_set _ _ _ _ (by rw [ht.vsize]; exact hy), if_pos rfl]), ok_bind, rd_some g2, ok_bind,
        wr_eq (by rw [ht.psize]; exact hy), ok_bind]
      refine Tot.pure ⟨⟨i2, by rw [← hyr]; exact i3, ?_, i1⟩, ?_⟩
      · simp only; rw [← mul_assoc, ← i5, hres]
      · have := ht.rk_le q g1; simp only; omega
  · rintro ⟨t, y, res⟩ ⟨h1, h2⟩
    exact Tot.pure ⟨h1, h2⟩

/-- Hanging root `c` below root `p` at distance `r`. -/
theorem Inv.link (h : Inv n R rk W s) {p c : Nat} (hp : p < n) (hc : c < n) (hne : p ≠ c)
    (hpr : R p = p) (hcr : R c = c) (r : G) :
    Inv n (link R p c) (fun z => if z = p then (cls n R p).card + (cls n R c).card else rk z)
      (fun z => if R z = c then r * W z else W z)
      ⟨s.par.setIfInBounds c p, s.siz.setIfInBounds p ((cls n R p).card + (cls n R c).card), s.value.setIfInBounds c r⟩ := by
  have hcp : (cls n (UnionFind.link R p c) p).card = (cls n R p).card + (cls n R c).card := by
    rw [cls_link, Finset.card_union_of_disjoint]
    rw [Finset.disjoint_left]; intro z; simp only [cls, Finset.mem_filter]; rintro ⟨_, rfl⟩ ⟨_, e⟩; exact hne e
  have hce : ∀ x, x ≠ p → x ≠ c → cls n (UnionFind.link R p c) x = cls n R x := by
    intro x h1 h2; ext z; simp only [mem_cls, UnionFind.link]
    grind
  have hpos := UnionFind.card_pos hp hpr
  have hlk : ∀ x, UnionFind.link R p c x = x → x ≠ c ∧ (x ≠ p → R x = x) := by
    intro x hr
    refine ⟨?_, fun e => ?_⟩
    · rintro rfl; simp [UnionFind.link, hcr] at hr; exact hne hr
    · unfold UnionFind.link at hr; split at hr
      · exact absurd hr.symm e
      · exact hr
  have hps := h.psize
  have hss := h.ssize
  have hvs := h.vsize
  constructor
  · simpa using h.psize
  · simpa using h.ssize
  · simpa using h.vsize
  · intro x hx; unfold UnionFind.link; split
    · exact hp
    · exact h.lt x hx
  · intro x hx; unfold UnionFind.link; split
    · rw [if_neg (by rw [hpr]; exact hne), hpr]
    · rename_i hz; rw [h.idem x hx, if_neg hz]
  · intro x hx; split
    · rw [← hcp]; refine (Finset.card_le_card (Finset.filter_subset _ _)).trans (by simp)
    · exact h.rk_le x hx
  · intro x hx hr
    by_cases e : x = p
    · subst e; simp [hcp]
    · obtain ⟨hxc, hxR⟩ := hlk x hr
      rw [if_neg e, hce x e hxc]; exact h.rk_root x hx (hxR e)
  · intro x hx hr
    obtain ⟨hxc, hxR⟩ := hlk x hr
    have hxR : R x = x := by
      by_cases e : x = p
      · rw [e]; exact hpr
      · exact hxR e
    simp only
    rw [get?_set _ _ _ _ (by omega), if_neg (Ne.symm hxc), get?_set _ _ _ _ (by omega), if_neg (Ne.symm hxc),
      get?_set _ _ _ _ (by omega), hxR, if_neg hxc]
    obtain ⟨h1, h2, h3, h4⟩ := h.root x hx hxR
    refine ⟨h1, h2, h3, ?_⟩
    by_cases e : p = x
    · subst e; rw [if_pos rfl, hcp]
    · rw [if_neg e, hce x (Ne.symm e) hxc]; exact h4
  · intro x hx hr
    have hxp : x ≠ p := by
      rintro rfl; exact hr (by simp [UnionFind.link, hpr, hne])
    simp only
    rw [get?_set _ _ _ _ (by omega), get?_set _ _ _ _ (by omega)]
    by_cases e : c = x
    · subst e
      refine ⟨p, r, hp, hne, by simp, ?_, ?_, by simp, ?_⟩
      · simp [UnionFind.link, hpr, hcr]
      · have := h.rk_root c hx hcr
        simp [hxp]; omega
      · have h1 := (h.root p hp hpr).2.1
        have h2 := (h.root c hx hcr).2.1
        simp [hcr, hpr, hne, h1, h2]
    · have hxR : R x ≠ x := by
        intro hR; exact hr (by simp [UnionFind.link, hR, Ne.symm e])
      obtain ⟨q, v, hq, hqx, hd, he, hlt, hv, hW⟩ := h.par x hx hxR
      refine ⟨q, v, hq, hqx, by rw [if_neg e]; exact hd, by simp [UnionFind.link, he], ?_, by rw [if_neg e]; exact hv, ?_⟩
      · rw [if_neg hxp]; split
        · rename_i hqp; subst hqp
          have := h.rk_root q hp hpr; omega
        · exact hlt
      · simp only [he]; split <;> rw [hW]; rw [mul_assoc]

theorem merge_tot (h : Inv n R rk W s) {x y : Nat} {d : G} (hx : x < n) (hy : y < n) :
    Tot (merge (· * ·) 1 (·⁻¹) s x y d) fun t =>
      (R x = R y → t.2 = false ∧ Inv n R rk W t.1) ∧
      (R x ≠ R y → t.2 = true ∧ ∃ p c rk' r, (p = R x ∧ c = R y ∧ r = W x * d * (W y)⁻¹ ∨ p = R y ∧ c = R x ∧ r = (W x * d * (W y)⁻¹)⁻¹) ∧
        Inv n (link R p c) rk' (fun z => if R z = c then r * W z else W z) t.1) := by
  unfold merge
  refine Tot.bind (weight_tot h hx) ?_
  rintro ⟨s1, wx⟩ ⟨h1, i1⟩
  simp only at h1 i1; subst h1
  refine Tot.bind (weight_tot i1 hy) ?_
  rintro ⟨s2, wy⟩ ⟨h2, i2⟩
  simp only at h2 i2; subst h2
  refine Tot.bind (root_tot i2 hx) ?_
  rintro ⟨s3, rx⟩ ⟨h3, i3⟩
  simp only at h3 i3; subst h3
  refine Tot.bind (root_tot i3 hy) ?_
  rintro ⟨s4, ry⟩ ⟨h4, i4⟩
  simp only at h4 i4; subst h4
  by_cases e : R x = R y
  · simp only [e, if_true]
    exact Tot.pure ⟨fun _ => ⟨rfl, i4⟩, fun h => absurd rfl h⟩
  · have hxl := h.lt x hx
    have hyl := h.lt y hy
    have gx := (i4.root _ hxl (h.idem x hx)).2.2.2
    have gy := (i4.root _ hyl (h.idem y hy)).2.2.2
    have hps := i4.psize
    have hss := i4.ssize
    have hvs := i4.vsize
    simp only [e, if_false, rd_some gx, rd_some gy, ok_bind]
    by_cases hs : (cls n R (R x)).card < (cls n R (R y)).card
    · simp only [hs, if_true, rd_some gx, rd_some gy, ok_bind]
      rw [wr_eq (by omega), ok_bind, wr_eq (by omega), ok_bind, wr_eq (by omega), ok_bind]
      exact Tot.pure ⟨fun h => (h : False).elim, fun _ => ⟨rfl, R y, R x, _, _, Or.inr ⟨rfl, rfl, rfl⟩,
        i4.link hyl hxl (Ne.symm e) (h.idem y hy) (h.idem x hx) _⟩⟩
    · simp only [hs, if_false, rd_some gx, rd_some gy, ok_bind]
      rw [wr_eq (by omega), ok_bind, wr_eq (by omega), ok_bind, wr_eq (by omega), ok_bind]
      exact Tot.pure ⟨fun h => (h : False).elim, fun _ => ⟨rfl, R x, R y, _, _, Or.inl ⟨rfl, rfl, rfl⟩,
        i4.link hxl hyl e (h.idem x hx) (h.idem y hy) _⟩⟩

theorem same_tot (h : Inv n R rk W s) {x y : Nat} (hx : x < n) (hy : y < n) :
    Tot (same (· * ·) s x y) fun r => r.2 = decide (R x = R y) ∧ Inv n R rk W r.1 := by
  unfold same
  refine Tot.bind (root_tot h hx) ?_
  rintro ⟨d1, r1⟩ ⟨h1, i1⟩
  simp only at h1 i1; subst h1
  refine Tot.bind (root_tot i1 hy) ?_
  rintro ⟨d2, r2⟩ ⟨h2, i2⟩
  simp only at h2 i2; subst h2
  exact Tot.pure ⟨rfl, i2⟩

theorem diff_tot (h : Inv n R rk W s) {x y : Nat} (hx : x < n) (hy : y < n) (e : R x = R y) :
    Tot (diff (· * ·) 1 (·⁻¹) s x y) fun r => r.2 = (W x)⁻¹ * W y ∧ Inv n R rk W r.1 := by
  unfold diff
  refine Tot.bind (same_tot h hx hy) ?_
  rintro ⟨s1, b⟩ ⟨h1, i1⟩
  simp only at h1 i1; subst h1
  simp only [e, decide_true, check_true, ok_bind]
  refine Tot.bind (weight_tot i1 hx) ?_
  rintro ⟨s2, wx⟩ ⟨h2, i2⟩
  simp only at h2 i2; subst h2
  refine Tot.bind (weight_tot i2 hy) ?_
  rintro ⟨s3, wy⟩ ⟨h3, i3⟩
  simp only at h3 i3; subst h3
  exact Tot.pure ⟨rfl, i3⟩

theorem size_tot (h : Inv n R rk W s) {x : Nat} (hx : x < n) :
    Tot (size (· * ·) s x) fun r => r.2 = (cls n R (R x)).card ∧ Inv n R rk W r.1 := by
  unfold size
  refine Tot.bind (root_tot h hx) ?_
  rintro ⟨d1, r1⟩ ⟨h1, i1⟩
  simp only at h1 i1; subst h1
  simp only [rd_some (i1.root _ (h.lt x hx) (h.idem x hx)).2.2.2, ok_bind]
  exact Tot.pure ⟨by simp, i1⟩

theorem groups_tot (h : Inv n R rk W s) :
    Tot (groups (· * ·) s) fun r => Inv n R rk W r.1 ∧
      r.2 = ((List.range n).map fun x => (List.range n).filter (R · = x)).filter (· ≠ []) := by
  unfold groups
  simp only [h.psize]
  refine Tot.bind (P := fun (s : State G × Array (List Nat)) => Inv n R rk W s.1 ∧ s.2.size = n ∧
      ∀ x < n, s.2[x]? = some ((List.range n).filter (R · = x))) ?_ ?_
  · refine Tot.forUp (P := fun i (s : State G × Array (List Nat)) => Inv n R rk W s.1 ∧ s.2.size = n ∧
      ∀ x < n, s.2[x]? = some ((List.range i).filter (R · = x))) (Nat.zero_le n) ?_ ?_
    · refine ⟨h, by simp, fun x hx => by simp [hx]⟩
    · rintro i ⟨d, res⟩ - hi ⟨hI, hsz, hres⟩
      simp only at hI hsz hres ⊢
      unfold groupStep
      refine Tot.bind (root_tot hI hi) ?_
      rintro ⟨d1, r1⟩ ⟨h1, i1⟩
      simp only at h1 i1; subst h1
      have hl := h.lt i hi
      simp only [rd_some (hres _ hl), ok_bind]
      rw [wr_eq (by rw [hsz]; exact hl), ok_bind]
      refine Tot.pure ⟨i1, by simpa using hsz, fun x hx => ?_⟩
      rw [get?_set _ _ _ _ (by rw [hsz]; exact hl), List.range_succ, List.filter_append]
      by_cases e : R i = x
      · simp [e]
      · simp [e, hres x hx]
  · rintro ⟨d, res⟩ ⟨hI, hsz, hres⟩
    simp only at hI hsz hres
    refine Tot.pure ⟨hI, ?_⟩
    refine congrArg (List.filter _) ?_
    apply List.ext_getElem
    · simp [hsz]
    · intro i h1 h2
      have hi : i < n := by simpa using h2
      have := hres i hi
      rw [Array.getElem?_eq_getElem (by omega)] at this
      simpa using this

end WeightedUnionFind
