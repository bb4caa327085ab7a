import Verif.Model.UnionFind
import Mathlib.Data.Finset.Card
import Mathlib.Order.Interval.Finset.Nat
import Mathlib.Logic.Relation

namespace UnionFind
open Cxx

/-- The vertices whose representative is `r`. -/
def cls (n : Nat) (R : Nat → Nat) (r : Nat) : Finset Nat := (Finset.range n).filter (R · = r)

theorem mem_cls {n : Nat} {R : Nat → Nat} {r z : Nat} : z ∈ cls n R r ↔ z < n ∧ R z = r := by
  simp [cls]

/-- Representation invariant: `R` maps each vertex to its root; `rk` strictly increases along parent edges and is bounded
by `n`. -/
structure Inv (n : Nat) (R rk : Nat → Nat) (dat : Array Int) : Prop where
  size : dat.size = n
  lt : ∀ x, x < n → R x < n
  idem : ∀ x, x < n → R (R x) = R x
  rk_le : ∀ x, x < n → rk x ≤ n
  rk_root : ∀ x, x < n → R x = x → rk x = (cls n R x).card
  root : ∀ x, x < n → R x = x → dat[x]? = some (-((cls n R x).card : Int))
  par : ∀ x, x < n → R x ≠ x → ∃ p, p < n ∧ dat[x]? = some (p : Int) ∧ R p = R x ∧ rk x < rk p

variable {n : Nat} {R rk : Nat → Nat} {dat : Array Int}

theorem card_pos {x : Nat} (hx : x < n) (hr : R x = x) : 0 < (cls n R x).card :=
  Finset.card_pos.mpr ⟨x, by simp [cls, hx, hr]⟩

theorem Inv.rk_lt_root (h : Inv n R rk dat) : ∀ k x, n - rk x ≤ k → x < n → R x ≠ x → rk x < rk (R x) := by
  intro k
  induction k with
  | zero =>
    intro x hk hx hr
    obtain ⟨p, hp, -, -, hlt⟩ := h.par x hx hr
    have := h.rk_le p hp; omega
  | succ k ih =>
    intro x hk hx hr
    obtain ⟨p, hp, -, he, hlt⟩ := h.par x hx hr
    by_cases hpr : R p = p
    · rw [← he, hpr]; exact hlt
    · have := ih p (by have := h.rk_le p hp; omega) hp hpr
      rw [← he]; omega

theorem inv_init (n : Nat) : Inv n id (fun _ => 1) (init n) := by
  have hc : ∀ x < n, (cls n id x).card = 1 := by
    intro x hx
    rw [Finset.card_eq_one]; exact ⟨x, by ext y; simp only [mem_cls, id, Finset.mem_singleton]; omega⟩
  constructor
  · simp [init]
  · intro x hx; exact hx
  · intros; rfl
  · intro x hx; omega
  · intro x hx _; exact (hc x hx).symm
  · intro x hx _; rw [hc x hx]; simp [init, hx]
  · intro x _ h; exact absurd rfl h

/-- Compressing one edge keeps the invariant. -/
theorem Inv.compress (h : Inv n R rk dat) {v : Nat} (hv : v < n) (hr : R v ≠ v) :
    Inv n R rk (dat.setIfInBounds v (R v : Int)) where
  size := by simpa using h.size
  lt := h.lt
  idem := h.idem
  rk_le := h.rk_le
  rk_root := h.rk_root
  root x hx hrx := by
    rw [get?_set _ _ _ _ (by rw [h.size]; exact hv)]
    rw [if_neg (by rintro rfl; exact hr hrx)]
    exact h.root x hx hrx
  par x hx hrx := by
    rw [get?_set _ _ _ _ (by rw [h.size]; exact hv)]
    by_cases e : v = x
    · subst e
      exact ⟨R v, h.lt v hv, by simp, h.idem v hv, h.rk_lt_root _ v le_rfl hv hr⟩
    · rw [if_neg e]; exact h.par x hx hrx

theorem root_tot (h : Inv n R rk dat) {x : Nat} (hx : x < n) :
    Tot (root dat x) fun r => r.2 = R x ∧ Inv n R rk r.1 := by
  unfold root
  refine Tot.bind (P := fun s => s.1 = R x ∧ ∀ v ∈ s.2, v < n ∧ R v = R x ∧ R v ≠ v) ?_ ?_
  · refine Tot.loop (P := fun s => s.1 < n ∧ R s.1 = R x ∧ ∀ v ∈ s.2, v < n ∧ R v = R x ∧ R v ≠ v)
      (fun s => n - rk s.1) ?_ ⟨hx, rfl, by simp⟩ ?_
    · rintro ⟨y, buf⟩ ⟨hy, hyr, hb⟩
      simp only at hy hyr hb
      by_cases hr : R y = y
      · have := h.root y hy hr
        have hpos := card_pos hy hr
        refine ⟨none, ?_, ?_⟩
        · simp only [climbStep, rd_some this, ok_bind]
          rw [if_neg (by omega)]; rfl
        · exact ⟨by rw [← hyr, hr], hb⟩
      · obtain ⟨p, hp, hd, he, hlt⟩ := h.par y hy hr
        refine ⟨some (p, y :: buf), ?_, ?_⟩
        · simp only [climbStep, rd_some hd, ok_bind]
          rw [if_pos (by omega)]; simp
        · refine ⟨⟨hp, by rw [he, hyr], ?_⟩, ?_⟩
          · intro v hv
            rcases List.mem_cons.mp hv with rfl | hv
            · exact ⟨hy, hyr, hr⟩
            · exact hb v hv
          · have := h.rk_le p hp; simp only; omega
    · rw [h.size]; simp
  · rintro ⟨y, buf⟩ ⟨rfl, hb⟩
    refine Tot.bind (P := Inv n R rk) ?_ ?_
    · refine (Tot.forEach (P := fun _ d => Inv n R rk d) h ?_).mono (fun _ h => h)
      rintro pre v post s e hs
      obtain ⟨hv, hvr, hvn⟩ := hb v (by rw [e]; simp)
      refine Tot.wr (by rw [hs.size]; exact hv) ?_
      rw [← hvr]; exact hs.compress hv hvn
    · intro d hd; exact Tot.pure ⟨rfl, hd⟩

/-- The new representative function after linking the root `c` below the root `p`. -/
def link (R : Nat → Nat) (p c : Nat) : Nat → Nat := fun z => if R z = c then p else R z

theorem cls_link {p c : Nat} :
    cls n (link R p c) p = cls n R p ∪ cls n R c := by
  ext z; simp only [mem_cls, link, Finset.mem_union]
  grind

theorem Inv.link (h : Inv n R rk dat) {p c : Nat} (hp : p < n) (hc : c < n) (hne : p ≠ c)
    (hpr : R p = p) (hcr : R c = c) :
    Inv n (link R p c) (fun z => if z = p then (cls n R p).card + (cls n R c).card else rk z)
      ((dat.setIfInBounds p (-((cls n R p).card : Int) + -((cls n R c).card : Int))).setIfInBounds c (p : Int)) := by
  have hcp : (cls n (UnionFind.link R p c) p).card = (cls n R p).card + (cls n R c).card := by
    rw [cls_link, Finset.card_union_of_disjoint]
    rw [Finset.disjoint_left]; intro z; simp only [cls, Finset.mem_filter]; rintro ⟨_, rfl⟩ ⟨_, e⟩; exact hne e
  have hce : ∀ x, x ≠ p → x ≠ c → cls n (UnionFind.link R p c) x = cls n R x := by
    intro x h1 h2; ext z; simp only [mem_cls, UnionFind.link]
    grind
  have hpos := card_pos hp hpr
  have hget : ∀ x : Nat, x < n → x ≠ p → x ≠ c →
      ((dat.setIfInBounds p (-((cls n R p).card : Int) + -((cls n R c).card : Int))).setIfInBounds c (p : Int))[x]?
        = dat[x]? := by
    intro x hx h1 h2
    rw [get?_set _ _ _ _ (by simpa [h.size] using hc), if_neg (Ne.symm h2),
      get?_set _ _ _ _ (by simpa [h.size] using hp), if_neg (Ne.symm h1)]
  constructor
  · simp [h.size]
  · intro x hx; unfold UnionFind.link; split
    · exact hp
    · exact h.lt x hx
  · intro x hx; unfold UnionFind.link; split
    · rw [if_neg (by rw [hpr]; exact hne), hpr]
    · rename_i hz; rw [h.idem x hx, if_neg hz]
  · intro x hx; split
    · rw [← hcp]; refine (Finset.card_le_card (Finset.filter_subset _ _)).trans (by simp)
    · exact h.rk_le x hx
  · intro x hx hr
    by_cases e : x = p
    · subst e; simp [hcp]
    · have hxc : x ≠ c := by
        rintro rfl; simp [UnionFind.link, hcr] at hr; exact hne hr
      have hxR : R x = x := by
        unfold UnionFind.link at hr; split at hr
        · exact absurd hr.symm e
        · exact hr
      rw [if_neg e, hce x e hxc]; exact h.rk_root x hx hxR
  · intro x hx hr
    by_cases e : x = p
    · subst e
      rw [get?_set _ _ _ _ (by simpa [h.size] using hc), if_neg (Ne.symm hne),
        get?_set _ _ _ _ (by simpa [h.size] using hp), if_pos rfl, hcp]
      congr 1; push_cast; omega
    · have hxc : x ≠ c := by
        rintro rfl; simp [UnionFind.link, hcr] at hr; exact hne hr
      have hxR : R x = x := by
        unfold UnionFind.link at hr; split at hr
        · exact absurd hr.symm e
        · exact hr
      rw [hget x hx e hxc, hce x e hxc]; exact h.root x hx hxR
  · intro x hx hr
    have hxp : x ≠ p := by
      rintro rfl; exact hr (by simp [UnionFind.link, hpr, hne])
    by_cases e : x = c
    · subst e
      refine ⟨p, hp, ?_, ?_, ?_⟩
      · rw [get?_set _ _ _ _ (by simpa [h.size] using hc), if_pos rfl]
      · simp [UnionFind.link, hpr, hcr]
      · have := h.rk_root x hx hcr
        simp [hxp]; omega
    · have hxR : R x ≠ x := by
        intro hR; exact hr (by simp [UnionFind.link, hR, e])
      obtain ⟨q, hq, hd, he, hlt⟩ := h.par x hx hxR
      refine ⟨q, hq, by rw [hget x hx hxp e]; exact hd, by simp [UnionFind.link, he], ?_⟩
      rw [if_neg hxp]; split
      · rename_i hqp; subst hqp
        have := h.rk_root q hp hpr; omega
      · exact hlt

/-- `merge` in terms of representative functions. -/
theorem merge_tot (h : Inv n R rk dat) {x y : Nat} (hx : x < n) (hy : y < n) :
    Tot (merge dat x y) fun r =>
      (R x = R y → r.2 = false ∧ Inv n R rk r.1) ∧
      (R x ≠ R y → r.2 = true ∧ ∃ p c rk', (p = R x ∧ c = R y ∨ p = R y ∧ c = R x) ∧
        Inv n (link R p c) rk' r.1) := by
  unfold merge
  refine Tot.bind (root_tot h hx) ?_
  rintro ⟨d1, r1⟩ ⟨h1, i1⟩
  simp only at h1 i1; subst h1
  refine Tot.bind (root_tot i1 hy) ?_
  rintro ⟨d2, r2⟩ ⟨h2, i2⟩
  simp only at h2 i2; subst h2
  by_cases e : R x = R y
  · simp only [e, if_true]
    exact Tot.pure ⟨fun _ => ⟨rfl, i2⟩, fun h => absurd rfl h⟩
  · have hxl := h.lt x hx
    have hyl := h.lt y hy
    have gx := i2.root _ hxl (h.idem x hx)
    have gy := i2.root _ hyl (h.idem y hy)
    simp only [e, if_false, rd_some gx, rd_some gy, ok_bind]
    by_cases hs : -((cls n R (R x)).card : Int) > -((cls n R (R y)).card : Int)
    · simp only [hs, if_true, rd_some gx, rd_some gy, ok_bind]
      rw [wr_eq (by rw [i2.size]; exact hyl), ok_bind, wr_eq (by simpa [i2.size] using hxl), ok_bind]
      exact Tot.pure ⟨fun h => (h : False).elim, fun _ => ⟨rfl, R y, R x, _, Or.inr ⟨rfl, rfl⟩,
        i2.link hyl hxl (Ne.symm e) (h.idem y hy) (h.idem x hx)⟩⟩
    · simp only [hs, if_false, rd_some gx, rd_some gy, ok_bind]
      rw [wr_eq (by rw [i2.size]; exact hxl), ok_bind, wr_eq (by simpa [i2.size] using hyl), ok_bind]
      exact Tot.pure ⟨fun h => (h : False).elim, fun _ => ⟨rfl, R x, R y, _, Or.inl ⟨rfl, rfl⟩,
        i2.link hxl hyl e (h.idem x hx) (h.idem y hy)⟩⟩

theorem same_tot (h : Inv n R rk dat) {x y : Nat} (hx : x < n) (hy : y < n) :
    Tot (same dat x y) fun r => (r.2 = true ↔ R x = R y) ∧ Inv n R rk r.1 := by
  unfold same
  refine Tot.bind (root_tot h hx) ?_
  rintro ⟨d1, r1⟩ ⟨h1, i1⟩
  simp only at h1 i1; subst h1
  refine Tot.bind (root_tot i1 hy) ?_
  rintro ⟨d2, r2⟩ ⟨h2, i2⟩
  simp only at h2 i2; subst h2
  exact Tot.pure ⟨by simp, i2⟩

theorem size_tot (h : Inv n R rk dat) {x : Nat} (hx : x < n) :
    Tot (size dat x) fun r => r.2 = (cls n R (R x)).card ∧ Inv n R rk r.1 := by
  unfold size
  refine Tot.bind (root_tot h hx) ?_
  rintro ⟨d1, r1⟩ ⟨h1, i1⟩
  simp only at h1 i1; subst h1
  simp only [rd_some (i1.root _ (h.lt x hx) (h.idem x hx)), ok_bind]
  exact Tot.pure ⟨by simp, i1⟩

theorem groups_tot (h : Inv n R rk dat) :
    Tot (groups dat) fun r => Inv n R rk r.1 ∧
      r.2 = ((List.range n).map fun x => (List.range n).filter (R · = x)).filter (· ≠ []) := by
  unfold groups
  simp only [h.size]
  refine Tot.bind (P := fun (s : Array Int × Array (List Nat)) => Inv n R rk s.1 ∧ s.2.size = n ∧
      ∀ x < n, s.2[x]? = some ((List.range n).filter (R · = x))) ?_ ?_
  · refine Tot.forUp (P := fun i (s : Array Int × Array (List Nat)) => Inv n R rk s.1 ∧ s.2.size = n ∧
      ∀ x < n, s.2[x]? = some ((List.range i).filter (R · = x))) (Nat.zero_le n) ?_ ?_
    · refine ⟨h, by simp, fun x hx => by simp [hx]⟩
    · rintro i ⟨d, res⟩ - hi ⟨hI, hsz, hres⟩
      simp only at hI hsz hres ⊢
      refine Tot.bind (root_tot hI hi) ?_
      rintro ⟨d1, r1⟩ ⟨h1, i1⟩
      simp only at h1 i1; subst h1
      have hl := h.lt i hi
      simp only [rd_some (hres _ hl), ok_bind]
      rw [wr_eq (by rw [hsz]; exact hl), ok_bind]
      refine Tot.pure ⟨i1, by simpa using hsz, fun x hx => ?_⟩
      rw [get?_set _ _ _ _ (by rw [hsz]; exact hl), List.range_succ, List.filter_append]
      by_cases e : R i = x
      · simp [e]
      · simp [e, hres x hx]
  · rintro ⟨d, res⟩ ⟨hI, hsz, hres⟩
    simp only at hI hsz hres
    refine Tot.pure ⟨hI, ?_⟩
    refine congrArg (List.filter _) ?_
    apply List.ext_getElem
    · simp [hsz]
    · intro i h1 h2
      have hi : i < n := by simpa using h2
      have := hres i hi
      rw [Array.getElem?_eq_getElem (by omega)] at this
      simpa using this

/-! ### Adding one pair to an equivalence closure -/

theorem eqvGen_cons {α} {r : α → α → Prop} {a b z w : α} :
    Relation.EqvGen (fun x y => (x = a ∧ y = b) ∨ r x y) z w ↔
      Relation.EqvGen r z w ∨ (Relation.EqvGen r z a ∧ Relation.EqvGen r b w) ∨
        (Relation.EqvGen r z b ∧ Relation.EqvGen r a w) := by
  constructor
  · intro h
    induction h with
    | rel x y h =>
      rcases h with ⟨rfl, rfl⟩ | h
      · exact Or.inr (Or.inl ⟨.refl _, .refl _⟩)
      · exact Or.inl (.rel _ _ h)
    | refl x => exact Or.inl (.refl _)
    | symm x y _ ih =>
      rcases ih with h | ⟨h1, h2⟩ | ⟨h1, h2⟩
      · exact Or.inl (.symm _ _ h)
      · exact Or.inr (Or.inr ⟨(.symm _ _ h2), (.symm _ _ h1)⟩)
      · exact Or.inr (Or.inl ⟨(.symm _ _ h2), (.symm _ _ h1)⟩)
    | trans x y z _ _ ih1 ih2 =>
      rcases ih1 with h | ⟨h1, h2⟩ | ⟨h1, h2⟩ <;> rcases ih2 with g | ⟨g1, g2⟩ | ⟨g1, g2⟩
      · exact Or.inl (h.trans _ _ _ g)
      · exact Or.inr (Or.inl ⟨h.trans _ _ _ g1, g2⟩)
      · exact Or.inr (Or.inr ⟨h.trans _ _ _ g1, g2⟩)
      · exact Or.inr (Or.inl ⟨h1, h2.trans _ _ _ g⟩)
      · exact Or.inr (Or.inl ⟨h1, g2⟩)
      · exact Or.inl (h1.trans _ _ _ g2)
      · exact Or.inr (Or.inr ⟨h1, h2.trans _ _ _ g⟩)
      · exact Or.inl (h1.trans _ _ _ g2)
      · exact Or.inr (Or.inr ⟨h1, g2⟩)
  · have up : ∀ {x y}, Relation.EqvGen r x y → Relation.EqvGen (fun x y => (x = a ∧ y = b) ∨ r x y) x y :=
      fun h => h.mono fun _ _ h => Or.inr h
    have ab : Relation.EqvGen (fun x y => (x = a ∧ y = b) ∨ r x y) a b := .rel _ _ (Or.inl ⟨rfl, rfl⟩)
    rintro (h | ⟨h1, h2⟩ | ⟨h1, h2⟩)
    · exact up h
    · exact ((up h1).trans _ _ _ ab).trans _ _ _ (up h2)
    · exact ((up h1).trans _ _ _ (.symm _ _ ab)).trans _ _ _ (up h2)

/-- Linking roots matches adding the merged pair to the closure. -/
theorem link_iff {r : Nat → Nat → Prop} {x y p c : Nat} (hx : x < n) (hy : y < n)
    (hR : ∀ z w, z < n → w < n → (R z = R w ↔ Relation.EqvGen r z w))
    (hpc : p = R x ∧ c = R y ∨ p = R y ∧ c = R x) :
    ∀ z w, z < n → w < n →
      (link R p c z = link R p c w ↔ Relation.EqvGen (fun a b => (a = x ∧ b = y) ∨ r a b) z w) := by
  intro z w hz hw
  rw [eqvGen_cons, ← hR z w hz hw, ← hR z x hz hx, ← hR y w hy hw, ← hR z y hz hy, ← hR x w hx hw]
  unfold link
  rcases hpc with ⟨rfl, rfl⟩ | ⟨rfl, rfl⟩ <;> split <;> split <;> grind

end UnionFind
