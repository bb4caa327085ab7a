import Verif.Model.UnionFindVariants
import Verif.Props.UnionFind
import Verif.Props.UndoUnionFind
import Mathlib.Algebra.BigOperators.Group.Finset.Basic

open Cxx
open UnionFind (Inv Sim Connected cls mem_cls link)

namespace ComponentSum

variable {T A : Type} [AddCommMonoid A] {n : Nat} {R : Nat → Nat}

/-- Every root stores (up to the observation `obs`) the sum of the initial values of its class. -/
def SInv (obs : T → A) (w : Nat → A) (n : Nat) (R : Nat → Nat) (sum : Array T) : Prop :=
  sum.size = n ∧ ∀ r, r < n → R r = r → ∃ v, sum[r]? = some v ∧ obs v = ∑ z ∈ cls n R r, w z

theorem sinv_init (obs : T → A) (a : Array T) :
    SInv obs (fun i => (a[i]?.map obs).getD 0) a.size id a := by
  refine ⟨rfl, fun r hr _ => ⟨a[r], by simp [hr], ?_⟩⟩
  have : cls a.size id r = {r} := by
    ext y; simp only [mem_cls, id, Finset.mem_singleton]; omega
  rw [this]; simp [hr]

theorem sinv_link {obs : T → A} {w : Nat → A} {sum sum' : Array T} {p c : Nat} {f : T → T → T}
    (hf : ∀ a b, obs (f a b) = obs a + obs b)
    (h : SInv obs w n R sum) (hp : p < n) (hc : c < n) (hne : p ≠ c) (hpr : R p = p) (hcr : R c = c)
    (hsz : sum'.size = n) (ho : ∀ z, z ≠ p → z ≠ c → sum'[z]? = sum[z]?)
    (hs : ∀ vp vc, sum[p]? = some vp → sum[c]? = some vc → sum'[p]? = some (f vp vc)) :
    SInv obs w n (link R p c) sum' := by
  refine ⟨hsz, fun r hr hrr => ?_⟩
  by_cases e : r = p
  · subst e
    obtain ⟨vp, h1, h2⟩ := h.2 r hp hpr
    obtain ⟨vc, h3, h4⟩ := h.2 c hc hcr
    refine ⟨_, hs vp vc h1 h3, ?_⟩
    rw [hf, h2, h4, UnionFind.cls_link, Finset.sum_union]
    rw [Finset.disjoint_left]; intro z hz hz'
    rw [mem_cls] at hz hz'
    exact hne (hz.2.symm.trans hz'.2)
  · have hrc : r ≠ c := by
      rintro rfl; simp [link, hcr] at hrr; exact hne hrr
    have hR : R r = r := by
      unfold link at hrr; split at hrr
      · exact absurd hrr.symm e
      · exact hrr
    obtain ⟨v, h1, h2⟩ := h.2 r hr hR
    refine ⟨v, by rw [ho r e hrc]; exact h1, ?_⟩
    rw [h2]; congr 1
    ext z; simp only [mem_cls, link]
    grind

/-- The sum over the component of `x`, in terms of the merged pairs. -/
noncomputable def compSum (n : Nat) (es : List (Nat × Nat)) (w : Nat → A) (x : Nat) : A :=
  open Classical in ∑ y ∈ (Finset.range n).filter (fun y => Connected es x y), w y

theorem sum_ans {es : List (Nat × Nat)} {w : Nat → A}
    (hR : ∀ x y, x < n → y < n → (R x = R y ↔ Connected es x y)) {x : Nat} (hx : x < n) :
    ∑ z ∈ cls n R (R x), w z = compSum n es w x := by
  unfold compSum; congr 1
  ext y
  simp only [mem_cls, Finset.mem_filter, Finset.mem_range]
  constructor
  · rintro ⟨hy, e⟩; exact ⟨hy, (hR x y hx hy).mp e.symm⟩
  · rintro ⟨hy, e⟩; exact ⟨hy, ((hR x y hx hy).mpr e).symm⟩

end ComponentSum

namespace UnionFindComponentSum

variable {T A : Type} [AddCommMonoid A] {n : Nat} {R rk : Nat → Nat} {mergeData : T → T → T} {moved : T → T}

theorem merge_tot {obs : T → A} {w : Nat → A} (hf : ∀ a b, obs (mergeData a b) = obs a + obs b) {s : State T}
    (h : Inv n R rk s.dat) (hS : ComponentSum.SInv obs w n R s.sum) {x y : Nat} (hx : x < n) (hy : y < n) :
    Tot (merge mergeData moved s x y) fun r =>
      (R x = R y → r.2 = false ∧ Inv n R rk r.1.dat ∧ ComponentSum.SInv obs w n R r.1.sum) ∧
      (R x ≠ R y → r.2 = true ∧ ∃ p c rk', (p = R x ∧ c = R y ∨ p = R y ∧ c = R x) ∧
        Inv n (link R p c) rk' r.1.dat ∧ ComponentSum.SInv obs w n (link R p c) r.1.sum) := by
  unfold merge
  refine Tot.bind (UnionFind.root_tot h hx) ?_
  rintro ⟨d1, r1⟩ ⟨h1, i1⟩
  simp only at h1 i1; subst h1
  refine Tot.bind (UnionFind.root_tot i1 hy) ?_
  rintro ⟨d2, r2⟩ ⟨h2, i2⟩
  simp only at h2 i2; subst h2
  have hxl := h.lt x hx
  have hyl := h.lt y hy
  have hxi := h.idem x hx
  have hyi := h.idem y hy
  refine Tot.bind (UnionFind.merge_tot i2 hxl hyl) ?_
  rintro ⟨d3, b⟩ ⟨h3, h4⟩
  simp only [hxi, hyi] at h3 h4
  by_cases e : R x = R y
  · obtain ⟨rfl, h3'⟩ := h3 e
    simp only [Bool.false_eq_true, if_false]
    exact Tot.pure ⟨fun _ => ⟨rfl, h3', hS⟩, fun h => absurd e h⟩
  · obtain ⟨rfl, p, c, rk', hpc, h4⟩ := h4 e
    simp only [if_true]
    refine Tot.bind (UnionFind.root_tot h4 hxl) ?_
    rintro ⟨d5, r5⟩ ⟨h5, i5⟩
    simp only at h5 i5; subst h5
    have hpn : p < n := by rcases hpc with ⟨rfl, -⟩ | ⟨rfl, -⟩ <;> assumption
    have hcn : c < n := by rcases hpc with ⟨-, rfl⟩ | ⟨-, rfl⟩ <;> assumption
    have hpR : R p = p := by rcases hpc with ⟨rfl, -⟩ | ⟨rfl, -⟩ <;> assumption
    have hcR : R c = c := by rcases hpc with ⟨-, rfl⟩ | ⟨-, rfl⟩ <;> assumption
    have hne : p ≠ c := by
      rcases hpc with ⟨rfl, rfl⟩ | ⟨rfl, rfl⟩
      · exact e
      · exact Ne.symm e
    have hsw : (if link R p c (R x) = R y then (R y, R x) else (R x, R y)) = (p, c) := by
      rcases hpc with ⟨rfl, rfl⟩ | ⟨rfl, rfl⟩
      · simp [link, hxi, e]
      · simp [link, hxi]
    simp only [hsw]
    have hps : p < s.sum.size := by rw [hS.1]; exact hpn
    have hcs : c < s.sum.size := by rw [hS.1]; exact hcn
    rw [rd_eq hps, ok_bind, rd_eq hcs, ok_bind, wr_eq hps, ok_bind, wr_eq (by simpa using hcs), ok_bind]
    refine Tot.pure ⟨fun h => absurd h e, fun _ => ⟨rfl, p, c, rk', hpc, i5, ?_⟩⟩
    refine ComponentSum.sinv_link hf hS hpn hcn hne hpR hcR (by simp [hS.1]) ?_ ?_
    · intro z h1 h2
      simp only
      rw [get?_set _ _ _ _ (by simpa using hcs), if_neg (Ne.symm h2), get?_set _ _ _ _ hps, if_neg (Ne.symm h1)]
    · intro vp vc h1 h2
      simp only
      rw [get?_set _ _ _ _ (by simpa using hcs), if_neg (Ne.symm hne), get?_set _ _ _ _ hps, if_pos rfl]
      rw [Array.getElem?_eq_getElem hps] at h1
      rw [Array.getElem?_eq_getElem hcs] at h2
      simp only [Option.some.injEq] at h1 h2
      rw [h1, h2]

end UnionFindComponentSum

namespace UndoUnionFindComponentSum

variable {T A : Type} [AddCommMonoid A] {n : Nat} {R rk : Nat → Nat} {mergeData : T → T → T} {undoData : T → T}

theorem merge_eq {obs : T → A} {w : Nat → A} (hf : ∀ a b, obs (mergeData a b) = obs a + obs b) (s : State T)
    (h : Inv n R rk s.base.dat) (hS : ComponentSum.SInv obs w n R s.sum) {x y : Nat} (hx : x < n) (hy : y < n) :
    (R x = R y → merge mergeData s x y = .ok (s, false)) ∧
    (R x ≠ R y → ∃ p c rk' dat' vp vc sum', (p = R x ∧ c = R y ∨ p = R y ∧ c = R x) ∧
        merge mergeData s x y = .ok (⟨⟨dat', (c, vc) :: (p, vp) :: s.base.hist⟩, sum'⟩, true) ∧
        Inv n (link R p c) rk' dat' ∧ ComponentSum.SInv obs w n (link R p c) sum' ∧
        p < n ∧ c < n ∧ p ≠ c ∧ (dat'.setIfInBounds c vc).setIfInBounds p vp = s.base.dat ∧
        ∃ a b, s.sum[p]? = some a ∧ sum' = s.sum.setIfInBounds p (mergeData a b)) := by
  have hxl := h.lt x hx
  have hyl := h.lt y hy
  constructor
  · intro e; simp [merge, UndoUnionFind.root_eq h hx, UndoUnionFind.root_eq h hy, e]
  · intro e
    have gx := h.root _ hxl (h.idem x hx)
    have gy := h.root _ hyl (h.idem y hy)
    have hps : R x < s.sum.size := by rw [hS.1]; exact hxl
    have hcs : R y < s.sum.size := by rw [hS.1]; exact hyl
    by_cases hs : -((cls n R (R x)).card : Int) > -((cls n R (R y)).card : Int)
    · refine ⟨R y, R x, _, _, -((cls n R (R y)).card : Int), -((cls n R (R x)).card : Int),
        s.sum.setIfInBounds (R y) (mergeData s.sum[R y] s.sum[R x]), Or.inr ⟨rfl, rfl⟩, ?_,
        h.link hyl hxl (Ne.symm e) (h.idem y hy) (h.idem x hx), ?_, hyl, hxl, Ne.symm e, ?_,
        s.sum[R y], s.sum[R x], by simp [hcs], rfl⟩
      · simp only [merge, UndoUnionFind.root_eq h hx, UndoUnionFind.root_eq h hy, ok_bind, e, if_false, rd_some gx,
          rd_some gy, hs, if_true]
        rw [wr_eq (by rw [h.size]; exact hyl), ok_bind]
        rw [rd_some (x := -((cls n R (R x)).card : Int)) (by
          rw [get?_set _ _ _ _ (by rw [h.size]; exact hyl), if_neg (Ne.symm e)]; exact gx), ok_bind]
        rw [wr_eq (by simpa [h.size] using hxl), ok_bind, rd_eq hps, rd_eq hcs, ok_bind, ok_bind, wr_eq hcs]
        rfl
      · refine ComponentSum.sinv_link hf hS hyl hxl (Ne.symm e) (h.idem y hy) (h.idem x hx) (by simp [hS.1]) ?_ ?_
        · intro z h1 h2; rw [get?_set _ _ _ _ hcs, if_neg (Ne.symm h1)]
        · intro vp vc h1 h2
          rw [get?_set _ _ _ _ hcs, if_pos rfl]
          rw [Array.getElem?_eq_getElem hcs] at h1
          rw [Array.getElem?_eq_getElem hps] at h2
          simp only [Option.some.injEq] at h1 h2
          rw [h1, h2]
      · exact UndoUnionFind.set_set_restore _ (by rw [h.size]; exact hyl) (by rw [h.size]; exact hxl) (Ne.symm e) _ _ _ _ gy gx
    · refine ⟨R x, R y, _, _, -((cls n R (R x)).card : Int), -((cls n R (R y)).card : Int),
        s.sum.setIfInBounds (R x) (mergeData s.sum[R x] s.sum[R y]), Or.inl ⟨rfl, rfl⟩, ?_,
        h.link hxl hyl e (h.idem x hx) (h.idem y hy), ?_, hxl, hyl, e, ?_,
        s.sum[R x], s.sum[R y], by simp [hps], rfl⟩
      · simp only [merge, UndoUnionFind.root_eq h hx, UndoUnionFind.root_eq h hy, ok_bind, e, if_false, rd_some gx,
          rd_some gy, hs]
        rw [wr_eq (by rw [h.size]; exact hxl), ok_bind]
        rw [rd_some (x := -((cls n R (R y)).card : Int)) (by
          rw [get?_set _ _ _ _ (by rw [h.size]; exact hxl), if_neg e]; exact gy), ok_bind]
        rw [wr_eq (by simpa [h.size] using hyl), ok_bind, rd_eq hps, rd_eq hcs, ok_bind, ok_bind, wr_eq hps]
        rfl
      · refine ComponentSum.sinv_link hf hS hxl hyl e (h.idem x hx) (h.idem y hy) (by simp [hS.1]) ?_ ?_
        · intro z h1 h2; rw [get?_set _ _ _ _ hps, if_neg (Ne.symm h1)]
        · intro vp vc h1 h2
          rw [get?_set _ _ _ _ hps, if_pos rfl]
          rw [Array.getElem?_eq_getElem hps] at h1
          rw [Array.getElem?_eq_getElem hcs] at h2
          simp only [Option.some.injEq] at h1 h2
          rw [h1, h2]
      · exact UndoUnionFind.set_set_restore _ (by rw [h.size]; exact hxl) (by rw [h.size]; exact hyl) e _ _ _ _ gx gy

/-- Simulation at one moment. -/
def SimS (obs : T → A) (w : Nat → A) (n : Nat) (s : State T) (es : List (Nat × Nat)) : Prop :=
  ∃ R rk, Inv n R rk s.base.dat ∧ (∀ x y, x < n → y < n → (R x = R y ↔ Connected es x y)) ∧
    ComponentSum.SInv obs w n R s.sum

/-- The history stack undoes the pairs `stk` one after the other. -/
def Hist (undoData : T → T) (obs : T → A) (w : Nat → A) (n : Nat) (base : List (Nat × Nat)) :
    State T → List (Nat × Nat) → Prop
  | s, [] => s.base.hist = [] ∧ SimS obs w n s base
  | s, e :: stk => SimS obs w n s (e :: stk ++ base) ∧ ∃ c vc p vp h v, s.base.hist = (c, vc) :: (p, vp) :: h ∧
      c < n ∧ p < n ∧ s.sum[p]? = some v ∧
      Hist undoData obs w n base ⟨⟨(s.base.dat.setIfInBounds c vc).setIfInBounds p vp, h⟩,
        s.sum.setIfInBounds p (undoData v)⟩ stk

theorem Hist.sim {obs : T → A} {w : Nat → A} {base : List (Nat × Nat)} {s : State T} {stk : List (Nat × Nat)}
    (h : Hist undoData obs w n base s stk) : SimS obs w n s (stk ++ base) := by
  cases stk with
  | nil => exact h.2
  | cons e stk => exact h.1

theorem undo_eq {d : Array Int} {c p : Nat} {vc vp : Int} {h : List (Nat × Int)} {sum : Array T} {v : T}
    (hc : c < d.size) (hp : p < d.size) (hv : sum[p]? = some v) :
    undo undoData ⟨⟨d, (c, vc) :: (p, vp) :: h⟩, sum⟩ =
      .ok ⟨⟨(d.setIfInBounds c vc).setIfInBounds p vp, h⟩, sum.setIfInBounds p (undoData v)⟩ := by
  have hps : p < sum.size := by
    by_contra hn; rw [Array.getElem?_eq_none (by omega)] at hv; simp at hv
  simp only [undo, List.isEmpty_cons, Bool.not_false, check_true, ok_bind, UndoUnionFind.restore]
  rw [wr_eq hc, ok_bind]
  simp only [pure_eq, ok_bind]
  rw [rd_some hv, ok_bind, wr_eq hps, ok_bind, wr_eq (by simpa using hp), ok_bind]
  rfl

theorem Hist.rollback {obs : T → A} {w : Nat → A} {base : List (Nat × Nat)} :
    ∀ (stk : List (Nat × Nat)) (s : State T), Hist undoData obs w n base s stk →
    ∀ fuel, s.base.hist.length ≤ fuel →
    Tot (loop (fun s : State T => if s.base.hist.isEmpty then return none else do
        let s ← undo undoData s; return some s) fuel s)
      fun s' => Hist undoData obs w n base s' [] := by
  intro stk
  induction stk with
  | nil =>
    intro s h fuel _
    refine ⟨s, ?_, h⟩
    cases fuel <;> simp [loop, h.1]
  | cons e stk ih =>
    rintro ⟨⟨d, hist⟩, sum⟩ h fuel hf
    obtain ⟨⟨R, rk, hI, -⟩, c, vc, p, vp, hh, v, rfl, hc, hp, hv, hrest⟩ := h
    simp only at hI hrest hf hv
    obtain ⟨fuel, rfl⟩ : ∃ k, fuel = k + 1 := ⟨fuel - 1, by simp at hf; omega⟩
    have := ih _ hrest fuel (by simp at hf ⊢; omega)
    simp only [loop, List.isEmpty_cons, Bool.false_eq_true, if_false,
      undo_eq (undoData := undoData) (h := hh) (vc := vc) (vp := vp) (by rw [hI.size]; exact hc) (by rw [hI.size]; exact hp) hv, ok_bind, pure_eq]
    exact this

end UndoUnionFindComponentSum
