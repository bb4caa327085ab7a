import Verif.Model.PersistentTree
import Verif.Proof.SegTree
import Mathlib.Data.Nat.Log
import Mathlib.Algebra.Group.Action.Defs

/-! # Proofs for the persistent segment trees: trees in the pool -/

namespace PTree
open Cxx

variable {T F X : Type}

/-- A tree as a value. -/
inductive PT (T F : Type)
  | leaf (c0 c1 : Option Nat) (d : T) (f : F)
  | node (d : T) (f : F) (a b : PT T F)

def PT.dat : PT T F → T
  | .leaf _ _ d _ => d
  | .node d _ _ _ => d

def PT.laz : PT T F → F
  | .leaf _ _ _ f => f
  | .node _ f _ _ => f

/-- The tree is at `p`, its proper subtrees use nodes in `S`. -/
def Shallow (h : Heap T F) (S : Nat → Prop) : Nat → PT T F → Prop
  | p, .leaf c0 c1 d f => h.nodes[p]? = some ⟨c0, c1, d, f⟩
  | p, .node d f a b => ∃ pa pb, h.nodes[p]? = some ⟨some pa, some pb, d, f⟩ ∧ (S pa ∧ Shallow h S pa a) ∧ S pb ∧ Shallow h S pb b

theorem Shallow.mono {h h' : Heap T F} {S S' : Nat → Prop} (hS : ∀ i, S i → S' i) (he : ∀ i, S i → h'.nodes[i]? = h.nodes[i]?) {t : PT T F} :
    ∀ {p : Nat}, h'.nodes[p]? = h.nodes[p]? → Shallow h S p t → Shallow h' S' p t := by
  induction t with
  | leaf c0 c1 d f =>
    intro p hp hs
    unfold Shallow at hs ⊢
    rw [hp, hs]
  | node d f a b iha ihb =>
    intro p hp hs
    unfold Shallow at hs ⊢
    obtain ⟨pa, pb, h1, ⟨h2, h3⟩, h4, h5⟩ := hs
    exact ⟨pa, pb, by rw [hp, h1], ⟨hS _ h2, iha (he _ h2) h3⟩, hS _ h4, ihb (he _ h4) h5⟩

theorem Shallow.nd {h : Heap T F} {S : Nat → Prop} {p : Nat} {t : PT T F} (hs : Shallow h S p t) :
    ∃ x, h.nodes[p]? = some x ∧ x.dat = t.dat ∧ x.laz = t.laz := by
  cases t with
  | leaf c0 c1 d f => exact ⟨_, hs, rfl, rfl⟩
  | node d f a b =>
    obtain ⟨pa, pb, h1, -⟩ := hs
    exact ⟨_, h1, rfl, rfl⟩

/-- One node was written. -/
structure Put (h : Heap T F) (p : Nat) (x : Nd T F) (h' : Heap T F) : Prop where
  size : h'.nodes.size = h.nodes.size
  top : h'.top = h.top
  self : h'.nodes[p]? = some x
  other : ∀ i, i ≠ p → h'.nodes[i]? = h.nodes[i]?

theorem load_eq {h : Heap T F} {p : Nat} {x : Nd T F} (hp : h.nodes[p]? = some x) : load h (some p) = .ok x := by
  unfold load
  dsimp only
  exact rd_some hp

theorem lt_of_some {h : Heap T F} {p : Nat} {x : Nd T F} (hp : h.nodes[p]? = some x) : p < h.nodes.size := by
  by_contra hc
  rw [Array.getElem?_eq_none (by omega)] at hp
  cases hp

theorem store_tot {h : Heap T F} {p : Nat} (hp : p < h.nodes.size) (x : Nd T F) : Tot (store h p x) (Put h p x) := by
  unfold store
  rw [wr_eq hp, ok_bind]
  refine Tot.pure ⟨?_, rfl, ?_, ?_⟩
  · simp
  · simp [hp]
  · intro i hi
    simp only [Array.getElem?_setIfInBounds]
    rw [if_neg (by omega)]

theorem setC0_tot {h : Heap T F} {p : Nat} {x : Nd T F} (hp : h.nodes[p]? = some x) (c : Option Nat) : Tot (setC0 h p c) (Put h p { x with c0 := c }) := by
  unfold setC0
  rw [load_eq hp, ok_bind]
  exact store_tot (lt_of_some hp) _

theorem setC1_tot {h : Heap T F} {p : Nat} {x : Nd T F} (hp : h.nodes[p]? = some x) (c : Option Nat) : Tot (setC1 h p c) (Put h p { x with c1 := c }) := by
  unfold setC1
  rw [load_eq hp, ok_bind]
  exact store_tot (lt_of_some hp) _

theorem setDat_tot {h : Heap T F} {p : Nat} {x : Nd T F} (hp : h.nodes[p]? = some x) (d : T) : Tot (setDat h p d) (Put h p { x with dat := d }) := by
  unfold setDat
  rw [load_eq hp, ok_bind]
  exact store_tot (lt_of_some hp) _

theorem setLaz_tot {h : Heap T F} {p : Nat} {x : Nd T F} (hp : h.nodes[p]? = some x) (f : F) : Tot (setLaz h p f) (Put h p { x with laz := f }) := by
  unfold setLaz
  rw [load_eq hp, ok_bind]
  exact store_tot (lt_of_some hp) _

theorem update_tot {P : Prm T F} {h : Heap T F} {p pa pb : Nat} {d : T} {f : F} {a b : Nd T F} (hp : h.nodes[p]? = some ⟨some pa, some pb, d, f⟩)
    (ha : h.nodes[pa]? = some a) (hb : h.nodes[pb]? = some b) : Tot (update P h p) (Put h p ⟨some pa, some pb, P.op a.dat b.dat, f⟩) := by
  unfold update
  rw [load_eq hp, ok_bind]
  dsimp only
  rw [load_eq ha, ok_bind, load_eq hb, ok_bind]
  exact setDat_tot hp _

/-- The pool after some calls: only nodes in `W` were written. -/
structure Fr (W : Nat → Prop) (h h' : Heap T F) : Prop where
  size : h'.nodes.size = h.nodes.size
  top : h.top ≤ h'.top
  same : ∀ i, ¬ W i → h'.nodes[i]? = h.nodes[i]?

theorem Fr.refl (W : Nat → Prop) (h : Heap T F) : Fr W h h := ⟨rfl, le_refl _, fun _ _ => rfl⟩

theorem Fr.trans {W Z : Nat → Prop} {h h1 h2 : Heap T F} (a : Fr W h h1) (b : Fr Z h1 h2) : Fr (fun i => W i ∨ Z i) h h2 :=
  ⟨b.size.trans a.size, a.top.trans b.top, fun i hi => (b.same i fun c => hi (Or.inr c)).trans (a.same i fun c => hi (Or.inl c))⟩

theorem Fr.weaken {W Z : Nat → Prop} {h h' : Heap T F} (a : Fr W h h') (hw : ∀ i, W i → Z i) : Fr Z h h' :=
  ⟨a.size, a.top, fun i hi => a.same i fun c => hi (hw i c)⟩

theorem Put.fr {h h' : Heap T F} {p : Nat} {x : Nd T F} (a : Put h p x h') : Fr (· = p) h h' := ⟨a.size, a.top.ge, a.other⟩

theorem Put.trans {h h1 h2 : Heap T F} {p : Nat} {x y : Nd T F} (a : Put h p x h1) (b : Put h1 p y h2) : Put h p y h2 :=
  ⟨b.size.trans a.size, b.top.trans a.top, b.self, fun i hi => (b.other i hi).trans (a.other i hi)⟩

/-- A new node. -/
structure New (h : Heap T F) (x : Nd T F) (r : Heap T F × Nat) : Prop where
  addr : r.2 = h.top
  size : r.1.nodes.size = h.nodes.size
  top : r.1.top = h.top + 1
  self : r.1.nodes[h.top]? = some x
  other : ∀ i, i ≠ h.top → r.1.nodes[i]? = h.nodes[i]?

theorem New.fr {h : Heap T F} {x : Nd T F} {r : Heap T F × Nat} (a : New h x r) : Fr (· = h.top) h r.1 :=
  ⟨a.size, by have := a.top; omega, a.other⟩

theorem clone_tot {h : Heap T F} {p : Nat} {x : Nd T F} (hp : h.nodes[p]? = some x) (hc : h.top < h.nodes.size) : Tot (clone h (some p)) (New h x) := by
  unfold clone alloc
  rw [load_eq hp, ok_bind, if_pos hc]
  refine Tot.bind (Tot.pure (Q := fun r => r = (({ h with top := h.top + 1 } : Heap T F), h.top)) rfl) ?_
  rintro _ rfl
  dsimp only
  refine Tot.bind (store_tot (h := { h with top := h.top + 1 }) hc x) ?_
  intro h' hh
  exact Tot.pure ⟨rfl, hh.size, hh.top, hh.self, hh.other⟩

theorem alloc_tot {h : Heap T F} (hc : h.top < h.nodes.size) : Tot (alloc h) fun r => ∃ x, h.nodes[h.top]? = some x ∧ New h x r := by
  unfold alloc
  rw [if_pos hc]
  have : h.nodes[h.top]? = some h.nodes[h.top] := by simp [hc]
  exact Tot.pure ⟨h.nodes[h.top], this, rfl, rfl, rfl, this, fun _ _ => rfl⟩

/-! ### Meaning of trees -/

/-- How the elements are read off. -/
structure Sem (T F X : Type) where
  lf : Option Nat → Prop
  act : F → X → X
  val : T → F → X
  ok : T → (Nat → X) → Nat → Nat → Prop

/-- The tree holds the elements `l, ..., r-1` of `v`. -/
def Ok (S : Sem T F X) : PT T F → (Nat → X) → Nat → Nat → Prop
  | .leaf c0 _ d f, v, l, r => r = l + 1 ∧ S.lf c0 ∧ v l = S.val d f
  | .node d f a b, v, l, r => l + 2 ≤ r ∧ S.ok d v l r ∧ ∃ w, (∀ i, l ≤ i → i < r → v i = S.act f (w i)) ∧ Ok S a w l ((l + r) / 2) ∧ Ok S b w ((l + r) / 2) r

theorem Ok.lt {S : Sem T F X} {t : PT T F} {v : Nat → X} {l r : Nat} (h : Ok S t v l r) : l < r := by
  cases t with
  | leaf c0 c1 d f =>
    have := h.1
    omega
  | node d f a b =>
    have := h.1
    omega

theorem Ok.congr {S : Sem T F X} (hS : ∀ d v v' l r, (∀ i, l ≤ i → i < r → v i = v' i) → S.ok d v l r → S.ok d v' l r) {t : PT T F} :
    ∀ {v v' : Nat → X} {l r : Nat}, (∀ i, l ≤ i → i < r → v i = v' i) → Ok S t v l r → Ok S t v' l r := by
  cases t with
  | leaf c0 c1 d f =>
    intro v v' l r hv h
    obtain ⟨h1, h2, h3⟩ := h
    exact ⟨h1, h2, by rw [← hv l (le_refl _) (by omega), h3]⟩
  | node d f a b =>
    intro v v' l r hv h
    obtain ⟨h1, h2, w, h3, h4, h5⟩ := h
    exact ⟨h1, hS d v v' l r hv h2, w, fun i a b => by rw [← hv i a b, h3 i a b], h4, h5⟩

theorem clog_half {n : Nat} (hn : 2 ≤ n) : Nat.clog 2 (n - n / 2) + 1 = Nat.clog 2 n := by
  rw [Nat.clog_of_two_le (by omega) hn]
  congr 2
  omega

theorem clog_left {l r : Nat} (h : l + 2 ≤ r) : Nat.clog 2 ((l + r) / 2 - l) + 1 ≤ Nat.clog 2 (r - l) := by
  rw [← clog_half (n := r - l) (by omega)]
  have := Nat.clog_mono_right 2 (show (l + r) / 2 - l ≤ (r - l) - (r - l) / 2 by omega)
  omega

theorem clog_right {l r : Nat} (h : l + 2 ≤ r) : Nat.clog 2 (r - (l + r) / 2) + 1 ≤ Nat.clog 2 (r - l) := by
  rw [← clog_half (n := r - l) (by omega)]
  have := Nat.clog_mono_right 2 (show r - (l + r) / 2 ≤ (r - l) - (r - l) / 2 by omega)
  omega

theorem loop_none {σ : Type} {step : σ → M (Option σ)} {s : σ} (h : step s = .ok none) (k : Nat) : loop step k s = .ok s := by
  cases k <;> · unfold loop; rw [h]; rfl

theorem loop_some {σ : Type} {step : σ → M (Option σ)} {s s' : σ} (h : step s = .ok (some s')) (k : Nat) : loop step (k + 1) s = loop step k s' := by
  conv_lhs => unfold loop
  rw [h]
  rfl

/-- Number of nodes that an update of a range needs, `c` at every node that is divided. -/
def cost (c : Nat) (ql qr : Int) : Nat → Nat → Nat → Nat
  | 0, _, _ => 0
  | k + 1, tl, tr =>
    if (tr : Int) ≤ ql ∨ qr ≤ tl then 0
    else if ql ≤ tl ∧ (tr : Int) ≤ qr then 1
    else c + cost c ql qr k tl ((tl + tr) / 2) + cost c ql qr k ((tl + tr) / 2) tr

theorem cost_out {c : Nat} {ql qr : Int} {tl tr : Nat} (h : (tr : Int) ≤ ql ∨ qr ≤ tl) : ∀ k, cost c ql qr k tl tr = 0
  | 0 => rfl
  | k + 1 => by
    unfold cost
    rw [if_pos h]

theorem cost_in {c : Nat} {ql qr : Int} {tl tr : Nat} (h : ql ≤ tl ∧ (tr : Int) ≤ qr) : ∀ k, cost c ql qr k tl tr ≤ 1
  | 0 => by unfold cost; omega
  | k + 1 => by
    unfold cost
    split
    · omega
    · exact le_refl _

/-- The range contains the left or the right end of the node (or is empty there). -/
theorem cost_side {c : Nat} {ql qr : Int} : ∀ (k : Nat) {tl tr : Nat}, tl < tr → (ql ≤ tl ∨ (tr : Int) ≤ qr) → cost c ql qr k tl tr ≤ (c + 1) * Nat.clog 2 (tr - tl) + 1
  | 0, _, _, _, _ => by unfold cost; omega
  | k + 1, tl, tr, hlt, hs => by
    unfold cost
    split
    · omega
    next h1 =>
      split
      · omega
      next h2 =>
        have h : tl + 2 ≤ tr := by omega
        have hl := clog_left h
        have hr := clog_right h
        obtain ⟨e, he⟩ : ∃ e, Nat.clog 2 (tr - tl) = e + 1 := ⟨Nat.clog 2 (tr - tl) - 1, by omega⟩
        rw [he] at hl hr ⊢
        have ml : (c + 1) * Nat.clog 2 ((tl + tr) / 2 - tl) ≤ (c + 1) * e := Nat.mul_le_mul_left _ (by omega)
        have mr : (c + 1) * Nat.clog 2 (tr - (tl + tr) / 2) ≤ (c + 1) * e := Nat.mul_le_mul_left _ (by omega)
        rw [Nat.mul_succ]
        obtain ⟨tm, hm⟩ : ∃ tm, tm = (tl + tr) / 2 := ⟨_, rfl⟩
        rw [← hm] at ml mr ⊢
        rcases hs with hs | hs
        · by_cases hq : (tm : Int) ≤ qr
          · have := cost_in (c := c) (show ql ≤ tl ∧ (tm : Int) ≤ qr from ⟨hs, hq⟩) k
            have := cost_side (c := c) (ql := ql) (qr := qr) k (tl := tm) (tr := tr) (by omega) (by omega)
            omega
          · have := cost_out (c := c) (ql := ql) (qr := qr) (tl := tm) (tr := tr) (by omega) k
            have := cost_side (c := c) (ql := ql) (qr := qr) k (tl := tl) (tr := tm) (by omega) (by omega)
            omega
        · by_cases hq : ql ≤ (tm : Int)
          · have := cost_in (c := c) (show ql ≤ tm ∧ (tr : Int) ≤ qr from ⟨hq, hs⟩) k
            have := cost_side (c := c) (ql := ql) (qr := qr) k (tl := tl) (tr := tm) (by omega) (by omega)
            omega
          · have := cost_out (c := c) (ql := ql) (qr := qr) (tl := tl) (tr := tm) (by omega) k
            have := cost_side (c := c) (ql := ql) (qr := qr) k (tl := tm) (tr := tr) (by omega) (by omega)
            omega

theorem cost_le {c : Nat} {ql qr : Int} : ∀ (k : Nat) {tl tr : Nat}, tl < tr → cost c ql qr k tl tr ≤ 2 * (c + 1) * Nat.clog 2 (tr - tl) + 1
  | 0, _, _, _ => by unfold cost; omega
  | k + 1, tl, tr, hlt => by
    unfold cost
    split
    · omega
    next h1 =>
      split
      · omega
      next h2 =>
        have h : tl + 2 ≤ tr := by omega
        have hl := clog_left h
        have hr := clog_right h
        obtain ⟨e, he⟩ : ∃ e, Nat.clog 2 (tr - tl) = e + 1 := ⟨Nat.clog 2 (tr - tl) - 1, by omega⟩
        rw [he] at hl hr ⊢
        have ml : (c + 1) * Nat.clog 2 ((tl + tr) / 2 - tl) ≤ (c + 1) * e := Nat.mul_le_mul_left _ (by omega)
        have mr : (c + 1) * Nat.clog 2 (tr - (tl + tr) / 2) ≤ (c + 1) * e := Nat.mul_le_mul_left _ (by omega)
        obtain ⟨tm, hm⟩ : ∃ tm, tm = (tl + tr) / 2 := ⟨_, rfl⟩
        rw [← hm] at ml mr ⊢
        have e2 : 2 * (c + 1) * (e + 1) = (c + 1) * e + (c + 1) * e + 2 * (c + 1) := by ring
        rw [e2]
        by_cases hq : (tm : Int) ≤ ql
        · have := cost_out (c := c) (ql := ql) (qr := qr) (tl := tl) (tr := tm) (by omega) k
          have := cost_le (c := c) (ql := ql) (qr := qr) k (tl := tm) (tr := tr) (by omega)
          have e3 : 2 * (c + 1) * Nat.clog 2 (tr - tm) = (c + 1) * Nat.clog 2 (tr - tm) + (c + 1) * Nat.clog 2 (tr - tm) := by ring
          omega
        · by_cases hq2 : qr ≤ (tm : Int)
          · have := cost_out (c := c) (ql := ql) (qr := qr) (tl := tm) (tr := tr) (by omega) k
            have := cost_le (c := c) (ql := ql) (qr := qr) k (tl := tl) (tr := tm) (by omega)
            have e3 : 2 * (c + 1) * Nat.clog 2 (tm - tl) = (c + 1) * Nat.clog 2 (tm - tl) + (c + 1) * Nat.clog 2 (tm - tl) := by ring
            omega
          · have := cost_side (c := c) (ql := ql) (qr := qr) k (tl := tm) (tr := tr) (by omega) (by omega)
            have := cost_side (c := c) (ql := ql) (qr := qr) k (tl := tl) (tr := tm) (by omega) (by omega)
            omega

end PTree
