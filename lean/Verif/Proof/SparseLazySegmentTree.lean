import Verif.Spec.SparseLazySegmentTree
import Verif.Proof.SegTree
import Mathlib.Tactic.Tauto
import Mathlib.Tactic.Ring

namespace SparseLazySegmentTree
open Cxx
open SegTree (P_empty P_append P_one P_congr)

variable {T F : Type} [Monoid T]

/-- The laws of the template arguments. -/
structure Lawful (P : Prm T F) (x : Nat → T) : Prop where
  op : ∀ a b, P.op a b = a * b
  e : P.e = 1
  init : ∀ l r, l ≤ r → P.init l r = SegTree.P x l r
  map_id : ∀ v l r, l < r → P.map P.id v l r = v
  map_comp : ∀ f g v l r, l < r → P.map (P.comp f g) v l r = P.map f (P.map g v l r) l r
  map_mul : ∀ f v w l m r, l < m → m < r → P.map f (v * w) l r = P.map f v l m * P.map f w m r

theorem P_map {P : Prm T F} {x : Nat → T} (L : Lawful P x) (φ : F) (f : Nat → T) (l d : Nat) :
    P.map φ (SegTree.P f l (l + d + 1)) l (l + d + 1) = SegTree.P (fun k => P.map φ (f k) k (k + 1)) l (l + d + 1) := by
  induction d with
  | zero => rw [Nat.add_zero, P_one, P_one]
  | succ d ih =>
    rw [P_append f (show l ≤ l + d + 1 by omega) (show l + d + 1 ≤ l + (d + 1) + 1 by omega), P_append _ (show l ≤ l + d + 1 by omega) (show l + d + 1 ≤ l + (d + 1) + 1 by omega),
      L.map_mul φ _ _ l (l + d + 1) _ (by omega) (by omega), ih, show l + (d + 1) + 1 = l + d + 1 + 1 by omega, P_one, P_one]

theorem P_map' {P : Prm T F} {x : Nat → T} (L : Lawful P x) (φ : F) (f : Nat → T) {l r : Nat} (h : l < r) :
    P.map φ (SegTree.P f l r) l r = SegTree.P (fun k => P.map φ (f k) k (k + 1)) l r := by
  obtain ⟨d, rfl⟩ : ∃ d, r = l + d + 1 := ⟨r - l - 1, by omega⟩
  exact P_map L φ f l d

/-! ## Nodes of the pool -/

section
variable {T F : Type}

/-- Node `q` of the pool. -/
def nd (P : Prm T F) (h : Pool T F) (q : Nat) : Node T F := at' ⟨0, 0, P.e, P.id⟩ h q

theorem rd_nd (P : Prm T F) {h : Pool T F} {q : Nat} (hq : q < h.size) : rd h q = .ok (nd P h q) := rd_at _ hq

theorem nd_set (P : Prm T F) {h : Pool T F} {q : Nat} (hq : q < h.size) (y : Node T F) (j : Nat) : nd P (h.setIfInBounds q y) j = if q = j then y else nd P h j := at_set _ hq y j

theorem nd_push (P : Prm T F) {h : Pool T F} (y : Node T F) {j : Nat} (hj : j < h.size) : nd P (h.push y) j = nd P h j := by
  unfold nd at'
  rw [Array.getElem?_push, if_neg (by omega)]

theorem nd_push_self (P : Prm T F) {h : Pool T F} (y : Node T F) : nd P (h.push y) h.size = y := by
  unfold nd at'
  rw [Array.getElem?_push, if_pos rfl]
  rfl

end

/-! ## Trees -/

/-- The shape of a tree with the indices of its nodes. -/
inductive Tr
  | nil
  | node (q : Nat) (a b : Tr)

/-- The index of the root. -/
def Tr.idx : Tr → Nat
  | .nil => 0
  | .node q _ _ => q

/-- The indices of the nodes. -/
def Tr.mem : Tr → Nat → Prop
  | .nil, _ => False
  | .node q a b, j => j = q ∨ a.mem j ∨ b.mem j

/-- The tree represents the values `f` on `[l, r)`. -/
def Rep (P : Prm T F) (x : Nat → T) (h : Pool T F) : Tr → Nat → Nat → (Nat → T) → Prop
  | .nil, l, r, f => ∀ k, l ≤ k → k < r → f k = x k
  | .node q a b, l, r, f => q ≠ 0 ∧ q < h.size ∧ (nd P h q).dat = SegTree.P f l r ∧ (nd P h q).c0 = a.idx ∧ (nd P h q).c1 = b.idx ∧ ¬ a.mem q ∧ ¬ b.mem q ∧ (∀ j, a.mem j → b.mem j → False) ∧
      (2 ≤ r - l → ∃ fa fb, Rep P x h a l ((l + r) / 2) fa ∧ Rep P x h b ((l + r) / 2) r fb ∧ (∀ k, l ≤ k → k < (l + r) / 2 → f k = P.map (nd P h q).laz (fa k) k (k + 1)) ∧
        ∀ k, (l + r) / 2 ≤ k → k < r → f k = P.map (nd P h q).laz (fb k) k (k + 1)) ∧
      (r - l < 2 → a = .nil ∧ b = .nil)

theorem Rep.frame {P : Prm T F} {x : Nat → T} {h h' : Pool T F} (hs : h.size ≤ h'.size) : ∀ {t : Tr} {l r : Nat} {f : Nat → T}, Rep P x h t l r f → (∀ j, t.mem j → nd P h' j = nd P h j) → Rep P x h' t l r f
  | .nil, _, _, _, hr, _ => hr
  | .node q a b, l, r, f, hr, hj => by
    obtain ⟨r1, r2, r3, r4, r5, r6, r7, r8, r9, r10⟩ := hr
    have e := hj q (.inl rfl)
    refine ⟨r1, by omega, by rw [e]; exact r3, by rw [e]; exact r4, by rw [e]; exact r5, r6, r7, r8, fun hw => ?_, r10⟩
    obtain ⟨fa, fb, ra, rb, ea, eb⟩ := r9 hw
    exact ⟨fa, fb, ra.frame hs fun j hm => hj j (.inr (.inl hm)), rb.frame hs fun j hm => hj j (.inr (.inr hm)), by rw [e]; exact ea, by rw [e]; exact eb⟩

theorem Rep.bound {P : Prm T F} {x : Nat → T} {h : Pool T F} : ∀ {t : Tr} {l r : Nat} {f : Nat → T}, Rep P x h t l r f → ∀ {j}, t.mem j → j ≠ 0 ∧ j < h.size
  | .nil, _, _, _, _, _, hj => hj.elim
  | .node q a b, l, r, f, hr, j, hj => by
    obtain ⟨r1, r2, r3, r4, r5, r6, r7, r8, r9, r10⟩ := hr
    by_cases hw : 2 ≤ r - l
    · obtain ⟨fa, fb, ra, rb, ea, eb⟩ := r9 hw
      rcases hj with rfl | hj | hj
      · exact ⟨r1, r2⟩
      · exact ra.bound hj
      · exact rb.bound hj
    · obtain ⟨rfl, rfl⟩ := r10 (by omega)
      rcases hj with rfl | hj | hj
      · exact ⟨r1, r2⟩
      · exact hj.elim
      · exact hj.elim

theorem Rep.congr {P : Prm T F} {x : Nat → T} {h : Pool T F} {t : Tr} {l r : Nat} {f g : Nat → T} (hr : Rep P x h t l r f) (e : ∀ k, l ≤ k → k < r → g k = f k) : Rep P x h t l r g := by
  cases t with
  | nil => exact fun k h1 h2 => (e k h1 h2).trans (hr k h1 h2)
  | node q a b =>
    obtain ⟨r1, r2, r3, r4, r5, r6, r7, r8, r9, r10⟩ := hr
    refine ⟨r1, r2, r3.trans (P_congr fun k h1 h2 => (e k h1 h2).symm), r4, r5, r6, r7, r8, fun hw => ?_, r10⟩
    obtain ⟨fa, fb, ra, rb, ea, eb⟩ := r9 hw
    exact ⟨fa, fb, ra, rb, fun k h1 h2 => (e k h1 (by omega)).trans (ea k h1 h2), fun k h1 h2 => (e k (by omega) h2).trans (eb k h1 h2)⟩

/-- What a call on the tree `t` may change. -/
structure Ext (P : Prm T F) (h : Pool T F) (t : Tr) (h' : Pool T F) (t' : Tr) : Prop where
  le : h.size ≤ h'.size
  idx : t.idx ≠ 0 → t'.idx = t.idx
  mem : ∀ j, t'.mem j → t.mem j ∨ h.size ≤ j
  frame : ∀ j, j < h.size → ¬ t.mem j → nd P h' j = nd P h j

theorem Ext.refl (P : Prm T F) (h : Pool T F) (t : Tr) : Ext P h t h t := ⟨le_rfl, fun _ => rfl, fun _ => .inl, fun _ _ _ => rfl⟩

theorem Ext.trans {P : Prm T F} {h h' h'' : Pool T F} {t t' t'' : Tr} (A : Ext P h t h' t') (B : Ext P h' t' h'' t'') : Ext P h t h'' t'' := by
  have := A.le
  refine ⟨A.le.trans B.le, fun hi => ?_, fun j hj => ?_, fun j hj hn => ?_⟩
  · rw [B.idx (by rw [A.idx hi]; exact hi), A.idx hi]
  · rcases B.mem j hj with hh | hh
    · exact A.mem j hh
    · exact .inr (by omega)
  · rw [B.frame j (by omega) ?_, A.frame j hj hn]
    intro hm
    rcases A.mem j hm with hh | hh
    · exact hn hh
    · omega

theorem Ext.left {P : Prm T F} {h h' h'' : Pool T F} {t a a' b : Tr} {q : Nat} (A : Ext P h t h' (.node q a b)) (B : Ext P h' a h'' a') : Ext P h t h'' (.node q a' b) := by
  refine A.trans ⟨B.le, fun _ => rfl, fun j hj => ?_, fun j hj hn => B.frame j hj fun hm => hn (.inr (.inl hm))⟩
  rcases hj with rfl | hj | hj
  · exact .inl (.inl rfl)
  · rcases B.mem j hj with hh | hh
    · exact .inl (.inr (.inl hh))
    · exact .inr hh
  · exact .inl (.inr (.inr hj))

theorem Ext.right {P : Prm T F} {h h' h'' : Pool T F} {t a b b' : Tr} {q : Nat} (A : Ext P h t h' (.node q a b)) (B : Ext P h' b h'' b') : Ext P h t h'' (.node q a b') := by
  refine A.trans ⟨B.le, fun _ => rfl, fun j hj => ?_, fun j hj hn => B.frame j hj fun hm => hn (.inr (.inr hm))⟩
  rcases hj with rfl | hj | hj
  · exact .inl (.inl rfl)
  · exact .inl (.inr (.inl hj))
  · rcases B.mem j hj with hh | hh
    · exact .inl (.inr (.inr hh))
    · exact .inr hh

theorem Ext.set {P : Prm T F} {h h' : Pool T F} {t a b : Tr} {q : Nat} (A : Ext P h t h' (.node q a b)) (hq : q < h'.size) (y : Node T F) : Ext P h t (h'.setIfInBounds q y) (.node q a b) := by
  refine A.trans ⟨by simp, fun _ => rfl, fun j => .inl, fun j hj hn => ?_⟩
  rw [nd_set P hq, if_neg (fun e => hn (.inl e.symm))]

theorem applyNode_tot {P : Prm T F} {x : Nat → T} (L : Lawful P x) {h : Pool T F} {q : Nat} {a b : Tr} {l r : Nat} {f : Nat → T} (hr : Rep P x h (.node q a b) l r f) (hlr : l < r) (φ : F) :
    Tot (applyNode P h q φ l r) fun h' => Rep P x h' (.node q a b) l r (fun k => P.map φ (f k) k (k + 1)) ∧ Ext P h (.node q a b) h' (.node q a b) ∧ h'.size = h.size ∧ ∀ j, j ≠ q → nd P h' j = nd P h j := by
  obtain ⟨r1, r2, r3, r4, r5, r6, r7, r8, r9, r10⟩ := hr
  unfold applyNode
  rw [rd_nd P r2, ok_bind, wr_eq r2]
  have hn : ∀ j, j ≠ q → nd P (h.setIfInBounds q { nd P h q with dat := P.map φ (nd P h q).dat l r, laz := P.comp φ (nd P h q).laz }) j = nd P h j := fun j hj => by rw [nd_set P r2, if_neg (Ne.symm hj)]
  refine ⟨_, rfl, ⟨r1, by simpa using r2, ?_, ?_, ?_, r6, r7, r8, fun hw => ?_, r10⟩, (Ext.refl P h (.node q a b)).set r2 _, by simp, hn⟩
  · rw [nd_set P r2, if_pos rfl]
    dsimp only
    rw [r3, P_map' L φ f hlr]
  · rw [nd_set P r2, if_pos rfl]; exact r4
  · rw [nd_set P r2, if_pos rfl]; exact r5
  · obtain ⟨fa, fb, ra, rb, ea, eb⟩ := r9 hw
    refine ⟨fa, fb, ra.frame (by simp) fun j hm => hn j fun e => r6 (e ▸ hm), rb.frame (by simp) fun j hm => hn j fun e => r7 (e ▸ hm), fun k h1 h2 => ?_, fun k h1 h2 => ?_⟩
    · dsimp only
      rw [nd_set P r2, if_pos rfl, ea k h1 h2]
      exact (L.map_comp _ _ _ _ _ (by omega)).symm
    · dsimp only
      rw [nd_set P r2, if_pos rfl, eb k h1 h2]
      exact (L.map_comp _ _ _ _ _ (by omega)).symm

/-- A node with no pending map and both children. -/
structure Kids (P : Prm T F) (x : Nat → T) (h : Pool T F) (q : Nat) (a b : Tr) (l r : Nat) (f g : Nat → T) : Prop where
  q0 : q ≠ 0
  lt : q < h.size
  c0 : (nd P h q).c0 = a.idx
  c1 : (nd P h q).c1 = b.idx
  na : ¬ a.mem q
  nb : ¬ b.mem q
  disj : ∀ j, a.mem j → b.mem j → False
  ra : Rep P x h a l ((l + r) / 2) f
  rb : Rep P x h b ((l + r) / 2) r g
  a0 : a.idx ≠ 0
  b0 : b.idx ≠ 0
  laz : (nd P h q).laz = P.id

theorem Kids.rep {P : Prm T F} {x : Nat → T} (L : Lawful P x) {h : Pool T F} {q : Nat} {a b : Tr} {l r : Nat} {f g w : Nat → T} (K : Kids P x h q a b l r f g) (hw : 2 ≤ r - l)
    (hd : (nd P h q).dat = SegTree.P w l r) (e1 : ∀ k, l ≤ k → k < (l + r) / 2 → w k = f k) (e2 : ∀ k, (l + r) / 2 ≤ k → k < r → w k = g k) : Rep P x h (.node q a b) l r w := by
  refine ⟨K.q0, K.lt, hd, K.c0, K.c1, K.na, K.nb, K.disj, fun _ => ⟨f, g, K.ra, K.rb, fun k h1 h2 => ?_, fun k h1 h2 => ?_⟩, fun hh => by omega⟩
  · rw [K.laz, L.map_id _ _ _ (by omega), e1 k h1 h2]
  · rw [K.laz, L.map_id _ _ _ (by omega), e2 k h1 h2]

theorem Kids.left {P : Prm T F} {x : Nat → T} {h h' : Pool T F} {q : Nat} {a a' b : Tr} {l r : Nat} {f g f' : Nat → T} (K : Kids P x h q a b l r f g) (E : Ext P h a h' a')
    (R : Rep P x h' a' l ((l + r) / 2) f') : Kids P x h' q a' b l r f' g ∧ nd P h' q = nd P h q := by
  have e := E.frame q K.lt K.na
  have := E.le
  have := K.lt
  refine ⟨⟨K.q0, by omega, by rw [e, E.idx K.a0]; exact K.c0, by rw [e]; exact K.c1, fun hm => ?_, K.nb, fun j h1 h2 => ?_, R, K.rb.frame E.le fun j hm => ?_, by rw [E.idx K.a0]; exact K.a0, K.b0, by rw [e]; exact K.laz⟩, e⟩
  · rcases E.mem q hm with hh | hh
    · exact K.na hh
    · omega
  · have := (K.rb.bound h2).2
    rcases E.mem j h1 with hh | hh
    · exact K.disj j hh h2
    · omega
  · exact E.frame j (K.rb.bound hm).2 fun hh => K.disj j hh hm

theorem Kids.right {P : Prm T F} {x : Nat → T} {h h' : Pool T F} {q : Nat} {a b b' : Tr} {l r : Nat} {f g g' : Nat → T} (K : Kids P x h q a b l r f g) (E : Ext P h b h' b')
    (R : Rep P x h' b' ((l + r) / 2) r g') : Kids P x h' q a b' l r f g' ∧ nd P h' q = nd P h q := by
  have e := E.frame q K.lt K.nb
  have := E.le
  have := K.lt
  refine ⟨⟨K.q0, by omega, by rw [e]; exact K.c0, by rw [e, E.idx K.b0]; exact K.c1, K.na, fun hm => ?_, fun j h1 h2 => ?_, K.ra.frame E.le fun j hm => ?_, R, K.a0, by rw [E.idx K.b0]; exact K.b0, by rw [e]; exact K.laz⟩, e⟩
  · rcases E.mem q hm with hh | hh
    · exact K.nb hh
    · omega
  · have := (K.ra.bound h1).2
    rcases E.mem j h2 with hh | hh
    · exact K.disj j h1 hh
    · omega
  · exact E.frame j (K.ra.bound hm).2 fun hh => K.disj j hm hh

theorem Kids.set {P : Prm T F} {x : Nat → T} {h : Pool T F} {q : Nat} {a b : Tr} {l r : Nat} {f g : Nat → T} (K : Kids P x h q a b l r f g) (v : T) :
    Kids P x (h.setIfInBounds q { nd P h q with dat := v }) q a b l r f g ∧ (nd P (h.setIfInBounds q { nd P h q with dat := v }) q).dat = v := by
  have hn : ∀ j, j ≠ q → nd P (h.setIfInBounds q { nd P h q with dat := v }) j = nd P h j := fun j hj => by rw [nd_set P K.lt, if_neg (Ne.symm hj)]
  have hs : nd P (h.setIfInBounds q { nd P h q with dat := v }) q = { nd P h q with dat := v } := by rw [nd_set P K.lt, if_pos rfl]
  refine ⟨⟨K.q0, by simpa using K.lt, by rw [hs]; exact K.c0, by rw [hs]; exact K.c1, K.na, K.nb, K.disj, K.ra.frame (by simp) fun j hm => hn j fun e => K.na (e ▸ hm),
    K.rb.frame (by simp) fun j hm => hn j fun e => K.nb (e ▸ hm), K.a0, K.b0, by rw [hs]; exact K.laz⟩, by rw [hs]⟩

theorem Rep.dat {P : Prm T F} {x : Nat → T} {h : Pool T F} {t : Tr} {l r : Nat} {f : Nat → T} (R : Rep P x h t l r f) (h0 : t.idx ≠ 0) : t.idx < h.size ∧ (nd P h t.idx).dat = SegTree.P f l r := by
  cases t with
  | nil => exact absurd rfl h0
  | node q a b => exact ⟨R.2.1, R.2.2.1⟩

theorem update_tot {P : Prm T F} {x : Nat → T} (L : Lawful P x) {h : Pool T F} {q : Nat} {a b : Tr} {l r : Nat} {f g w : Nat → T} (K : Kids P x h q a b l r f g) (hw : 2 ≤ r - l)
    (e1 : ∀ k, l ≤ k → k < (l + r) / 2 → w k = f k) (e2 : ∀ k, (l + r) / 2 ≤ k → k < r → w k = g k) :
    Tot (update P h q) fun h' => Rep P x h' (.node q a b) l r w ∧ h'.size = h.size ∧ ∀ h0 t0, Ext P h0 t0 h (.node q a b) → Ext P h0 t0 h' (.node q a b) := by
  obtain ⟨a1, a2⟩ := K.ra.dat K.a0
  obtain ⟨b1, b2⟩ := K.rb.dat K.b0
  unfold update
  rw [← K.c0] at a1 a2
  rw [← K.c1] at b1 b2
  rw [rd_nd P K.lt, ok_bind, rd_nd P a1, ok_bind, rd_nd P b1, ok_bind, wr_eq K.lt]
  obtain ⟨K', hd⟩ := K.set (P.op (nd P h (nd P h q).c0).dat (nd P h (nd P h q).c1).dat)
  refine ⟨_, rfl, K'.rep L hw ?_ e1 e2, by simp, fun h0 t0 E => E.set K.lt _⟩
  rw [hd, L.op, a2, b2, P_append w (show l ≤ (l + r) / 2 by omega) (show (l + r) / 2 ≤ r by omega), P_congr (fun k h1 h2 => (e1 k h1 h2).symm), P_congr (fun k h1 h2 => (e2 k h1 h2).symm)]

/-! ## `push` -/

theorem setCh_ch (y : Node T F) (b b' : Bool) (c : Nat) : (y.setCh b c).ch b' = if b' = b then c else y.ch b' := by cases b <;> cases b' <;> rfl

/-- One half of `push`. -/
theorem half_tot {P : Prm T F} {x : Nat → T} (L : Lawful P x) {h : Pool T F} {q : Nat} (hq : q < h.size) {b : Bool} {c : Tr} {l r : Nat} {f : Nat → T} (hc : (nd P h q).ch b = c.idx) (nc : ¬ c.mem q)
    (hr : Rep P x h c l r f) (hlr : l < r) (hu : h.size + 1 ≤ 2 ^ 32) (φ : F) {B : Type} (k : Pool T F → M B) {Q : B → Prop}
    (hk : ∀ h' c', nd P h' q = (nd P h q).setCh b c'.idx → c'.idx ≠ 0 → ¬ c'.mem q → Rep P x h' c' l r (fun k => P.map φ (f k) k (k + 1)) → h'.size ≤ h.size + 1 → h.size ≤ h'.size →
      (∀ j, c'.mem j → c.mem j ∨ h.size ≤ j) → (∀ j, j < h.size → j ≠ q → ¬ c.mem j → nd P h' j = nd P h j) → Tot (k h') Q) :
    Tot (child P h q b l r >>= fun y => applyNode P y.1 y.2 φ l r >>= k) Q := by
  cases c with
  | nil =>
    unfold child newNode
    rw [rd_nd P hq, ok_bind, hc, if_neg (fun e => e rfl)]
    dsimp only
    rw [Nat.mod_eq_of_lt (by omega)]
    obtain ⟨y, hy⟩ : ∃ y : Node T F, y = ⟨0, 0, P.init l r, P.id⟩ := ⟨_, rfl⟩
    rw [← hy]
    have hq' : q < (h.push y).size := by rw [Array.size_push]; omega
    rw [rd_nd P hq', ok_bind, wr_eq hq', ok_bind, pure_eq, ok_bind, nd_push P y hq]
    obtain ⟨h2, hh2⟩ : ∃ h2, h2 = (h.push y).setIfInBounds q ((nd P h q).setCh b h.size) := ⟨_, rfl⟩
    dsimp only
    rw [← hh2]
    have hs2 : h2.size = h.size + 1 := by rw [hh2]; simp
    have n1 : nd P h2 q = (nd P h q).setCh b h.size := by rw [hh2, nd_set P hq', if_pos rfl]
    have n2 : nd P h2 h.size = y := by rw [hh2, nd_set P hq', if_neg (by omega), nd_push_self]
    have n3 : ∀ j, j < h.size → j ≠ q → nd P h2 j = nd P h j := fun j h1 h3 => by rw [hh2, nd_set P hq', if_neg (Ne.symm h3), nd_push P y h1]
    have R2 : Rep P x h2 (.node h.size .nil .nil) l r f := by
      refine ⟨by omega, by omega, ?_, by rw [n2, hy]; rfl, by rw [n2, hy]; rfl, id, id, fun _ h => h.elim, fun hw => ⟨x, x, fun _ _ _ => rfl, fun _ _ _ => rfl, fun k h1 h2 => ?_, fun k h1 h2 => ?_⟩, fun _ => ⟨rfl, rfl⟩⟩
      · rw [n2, hy]
        dsimp only
        rw [L.init _ _ (by omega)]
        exact P_congr fun k h1 h2 => (hr k h1 h2).symm
      · rw [n2, hy, hr k h1 (by omega)]
        exact (L.map_id _ _ _ (by omega)).symm
      · rw [n2, hy, hr k (by omega) h2]
        exact (L.map_id _ _ _ (by omega)).symm
    refine Tot.bind (applyNode_tot L R2 hlr φ) ?_
    rintro h3 ⟨R3, E3, s3, n4⟩
    refine hk h3 (.node h.size .nil .nil) (by rw [n4 q (by omega), n1]; rfl) (show h.size ≠ 0 by omega) ?_ R3 (by omega) (by omega) ?_ ?_
    · rintro (e | e | e)
      · omega
      · exact e
      · exact e
    · rintro j (rfl | e | e)
      · exact .inr le_rfl
      · exact e.elim
      · exact e.elim
    · intro j h1 h4 _
      rw [n4 j (by omega), n3 j h1 h4]
  | node p a' b' =>
    unfold child
    have hc' : (nd P h q).ch b = p := hc
    rw [rd_nd P hq, ok_bind, hc', if_pos hr.1, pure_eq, ok_bind]
    dsimp only
    refine Tot.bind (applyNode_tot L hr hlr φ) ?_
    rintro h3 ⟨R3, E3, s3, n4⟩
    have hpq : q ≠ p := fun e => nc (.inl e)
    refine hk h3 (.node p a' b') ?_ hr.1 nc R3 (by omega) (by omega) (fun j => .inl) fun j h1 h2 h3 => n4 j fun e => h3 (.inl e)
    rw [n4 q hpq]
    have : p = (nd P h q).ch b := hc.symm
    show _ = (nd P h q).setCh b p
    rw [this]
    cases b <;> rfl

theorem mid_eq {P : Prm T F} {l r : Nat} (h : l + r ≤ P.max) : mid P l r = .ok ((l + r) / 2) := by
  unfold mid
  rw [if_pos h]
  rfl

theorem push_tot {P : Prm T F} {x : Nat → T} (L : Lawful P x) {h : Pool T F} {q : Nat} {a b : Tr} {l r : Nat} {f : Nat → T} (hr : Rep P x h (.node q a b) l r f) (hw : 2 ≤ r - l) (hm : l + r ≤ P.max)
    (hu : h.size + 2 ≤ 2 ^ 32) : Tot (push P h q l r) fun h' => ∃ a' b', Kids P x h' q a' b' l r f f ∧ (nd P h' q).dat = SegTree.P f l r ∧ h'.size ≤ h.size + 2 ∧ Ext P h (.node q a b) h' (.node q a' b') := by
  obtain ⟨r1, r2, r3, r4, r5, r6, r7, r8, r9, r10⟩ := hr
  obtain ⟨fa, fb, ra, rb, ea, eb⟩ := r9 hw
  unfold push
  rw [mid_eq hm, ok_bind, rd_nd P r2, ok_bind]
  obtain ⟨φ, hφ⟩ : ∃ φ, φ = (nd P h q).laz := ⟨_, rfl⟩
  rw [← hφ] at ea eb
  dsimp only
  rw [← hφ]
  refine half_tot L r2 (b := false) r4 r6 ra (by omega) (by omega) φ _ fun h1 a' m1 m2 m3 R1 m4 m5 m6 m7 => ?_
  have hc1 : (nd P h1 q).ch true = b.idx := by rw [m1]; exact r5
  have rb1 : Rep P x h1 b ((l + r) / 2) r fb := rb.frame m5 fun j hm => m7 j (rb.bound hm).2 (fun e => r7 (e ▸ hm)) fun hh => r8 j hh hm
  refine half_tot L (show q < h1.size by omega) (b := true) hc1 r7 rb1 (by omega) (by omega) φ _ fun h2 b' p1 p2 p3 R2 p4 p5 p6 p7 => ?_
  have hq2 : q < h2.size := by omega
  rw [rd_nd P hq2, ok_bind, wr_eq hq2]
  obtain ⟨h3, hh3⟩ : ∃ h3, h3 = h2.setIfInBounds q { nd P h2 q with laz := P.id } := ⟨_, rfl⟩
  rw [← hh3]
  have s3 : h3.size = h2.size := by rw [hh3]; simp
  have n3 : ∀ j, j ≠ q → nd P h3 j = nd P h2 j := fun j hj => by rw [hh3, nd_set P hq2, if_neg (Ne.symm hj)]
  have nq : nd P h3 q = { nd P h2 q with laz := P.id } := by rw [hh3, nd_set P hq2, if_pos rfl]
  have hdis : ∀ j, a'.mem j → b.mem j → False := fun j ha hb => by
    have := (rb.bound hb).2
    rcases m6 j ha with hh | hh
    · exact r8 j hh hb
    · omega
  have R1' : Rep P x h2 a' l ((l + r) / 2) fun k => P.map φ (fa k) k (k + 1) := R1.frame p5 fun j hm => p7 j (R1.bound hm).2 (fun e => m3 (e ▸ hm)) fun hb => hdis j hm hb
  refine ⟨h3, rfl, a', b', ⟨r1, by omega, ?_, ?_, m3, p3, fun j ha hb => ?_, ?_, ?_, m2, p2, by rw [nq]⟩, ?_, by omega, ⟨by omega, fun _ => rfl, fun j hj => ?_, fun j hj hn => ?_⟩⟩
  · rw [nq, p1, m1]; rfl
  · rw [nq, p1]; rfl
  · have := (R1.bound ha).2
    rcases p6 j hb with hh | hh
    · exact hdis j ha hh
    · omega
  · exact (R1'.frame (by omega) fun j hm => n3 j fun e => m3 (e ▸ hm)).congr ea
  · exact (R2.frame (by omega) fun j hm => n3 j fun e => p3 (e ▸ hm)).congr eb
  · rw [nq, p1, m1]
    exact r3
  · rcases hj with rfl | hj | hj
    · exact .inl (.inl rfl)
    · rcases m6 j hj with hh | hh
      · exact .inl (.inr (.inl hh))
      · exact .inr hh
    · rcases p6 j hj with hh | hh
      · exact .inl (.inr (.inr hh))
      · exact .inr (by omega)
  · have hjq : j ≠ q := fun e => hn (.inl e)
    rw [n3 j hjq, p7 j (by omega) hjq fun hh => hn (.inr (.inr hh)), m7 j hj hjq fun hh => hn (.inr (.inl hh))]

/-! ## Queries and range updates -/

/-- How many of the ends of the range are inside of the interval. -/
def bc (ql qr l r : Nat) : Nat := (if l < ql ∧ ql < r then 1 else 0) + if l < qr ∧ qr < r then 1 else 0

/-- A bound on the number of new nodes. -/
def cost (ql qr l r : Nat) : Nat := bc ql qr l r * (2 * Nat.clog 2 (r - l))

theorem clog_half {n : Nat} (h : 2 ≤ n) : Nat.clog 2 (n - n / 2) + 1 = Nat.clog 2 n := by
  rw [Nat.clog_of_two_le (by omega) h]
  congr 2
  omega

theorem clog_left {l r : Nat} (h : 2 ≤ r - l) : Nat.clog 2 ((l + r) / 2 - l) + 1 ≤ Nat.clog 2 (r - l) := by
  rw [← clog_half h]
  have := Nat.clog_mono_right 2 (show (l + r) / 2 - l ≤ r - l - (r - l) / 2 by omega)
  omega

theorem clog_right {l r : Nat} (h : 2 ≤ r - l) : Nat.clog 2 (r - (l + r) / 2) + 1 ≤ Nat.clog 2 (r - l) := by
  rw [← clog_half h]
  have := Nat.clog_mono_right 2 (show r - (l + r) / 2 ≤ r - l - (r - l) / 2 by omega)
  omega

theorem cost_split {ql qr l r : Nat} (h : 2 ≤ r - l) (hb : 1 ≤ bc ql qr l r) : 2 + cost ql qr l ((l + r) / 2) + cost ql qr ((l + r) / 2) r ≤ cost ql qr l r := by
  have h1 := clog_left h
  have h2 := clog_right h
  have h3 : bc ql qr l ((l + r) / 2) + bc ql qr ((l + r) / 2) r ≤ bc ql qr l r := by
    unfold bc
    split <;> split <;> split <;> split <;> split <;> split <;> omega
  unfold cost
  obtain ⟨C, hC⟩ : ∃ C, Nat.clog 2 (r - l) = C + 1 := ⟨Nat.clog 2 (r - l) - 1, by omega⟩
  rw [hC] at h1 h2 ⊢
  have i1 := Nat.mul_le_mul_left (bc ql qr l ((l + r) / 2)) (show 2 * Nat.clog 2 ((l + r) / 2 - l) ≤ 2 * C by omega)
  have i2 := Nat.mul_le_mul_left (bc ql qr ((l + r) / 2) r) (show 2 * Nat.clog 2 (r - (l + r) / 2) ≤ 2 * C by omega)
  have i3 := Nat.mul_le_mul_right (2 * C) h3
  rw [Nat.add_mul] at i3
  have i4 : bc ql qr l r * (2 * (C + 1)) = bc ql qr l r * (2 * C) + 2 * bc ql qr l r := by ring
  omega

theorem bc_pos {ql qr l r : Nat} (hq : ql ≤ qr) (h1 : ¬ (r ≤ ql ∨ qr ≤ l)) (h2 : ¬ (ql ≤ l ∧ r ≤ qr)) : 1 ≤ bc ql qr l r := by
  unfold bc
  split <;> split <;> omega

theorem P_split (f : Nat → T) {l m r ql qr : Nat} (hl : l ≤ m) (hr : m ≤ r) (hq : ql ≤ qr) (h1 : ¬ (r ≤ ql ∨ qr ≤ l)) :
    SegTree.P f (max ql l) (min qr m) * SegTree.P f (max ql m) (min qr r) = SegTree.P f (max ql l) (min qr r) := by
  by_cases a1 : qr ≤ m
  · rw [P_empty _ (show min qr r ≤ max ql m by omega), mul_one]
    congr 1
    omega
  · by_cases a2 : m ≤ ql
    · rw [P_empty _ (show min qr m ≤ max ql l by omega), one_mul]
      congr 1
      omega
    · rw [show min qr m = m by omega, show max ql m = m by omega]
      exact (P_append _ (by omega) (by omega)).symm

theorem query_tot {P : Prm T F} {x : Nat → T} (L : Lawful P x) {ql qr n : Nat} (hn : 2 * n ≤ P.max + 1) (hq : ql ≤ qr) (k : Nat) : ∀ (h : Pool T F) (t : Tr) (l r : Nat) (f : Nat → T), Rep P x h t l r f →
    t.idx ≠ 0 → l < r → r ≤ n → r - l ≤ k → h.size + cost ql qr l r ≤ 2 ^ 32 →
    Tot (query P ql qr (k + 1) h t.idx l r) fun y => y.2 = SegTree.P f (max ql l) (min qr r) ∧ ∃ t', Rep P x y.1 t' l r f ∧ Ext P h t y.1 t' ∧ y.1.size ≤ h.size + cost ql qr l r := by
  induction k with
  | zero => intros; omega
  | succ k ih =>
    intro h t l r f R h0 hlr hrn hk hu
    unfold query
    by_cases h1 : r ≤ ql ∨ qr ≤ l
    · rw [if_pos h1]
      exact Tot.pure ⟨by rw [P_empty _ (by omega)]; exact L.e, t, R, Ext.refl P h t, by dsimp only; omega⟩
    · rw [if_neg h1]
      by_cases h2 : ql ≤ l ∧ r ≤ qr
      · rw [if_pos h2]
        obtain ⟨d1, d2⟩ := R.dat h0
        rw [rd_nd P d1, ok_bind]
        exact Tot.pure ⟨by rw [show max ql l = l by omega, show min qr r = r by omega]; exact d2, t, R, Ext.refl P h t, by dsimp only; omega⟩
      · rw [if_neg h2]
        have hw : 2 ≤ r - l := by omega
        have hc := cost_split hw (bc_pos hq h1 h2)
        cases t with
        | nil => exact absurd rfl h0
        | node q a b =>
          refine Tot.bind (push_tot L R hw (by omega) (by omega)) ?_
          rintro h1' ⟨a1, b1, K, hd, hs, E⟩
          rw [mid_eq (by omega), ok_bind, rd_nd P K.lt, ok_bind, K.c0]
          refine Tot.bind (ih h1' a1 l _ f K.ra K.a0 (by omega) (by omega) (by omega) (by omega)) ?_
          rintro ⟨h2', v1⟩ ⟨hv1, a2, R2, E2, s2⟩
          dsimp only at hv1 R2 E2 s2 ⊢
          obtain ⟨K2, n2⟩ := K.left E2 R2
          rw [rd_nd P K2.lt, ok_bind, K2.c1]
          refine Tot.bind (ih h2' b1 _ r f K2.rb K2.b0 (by omega) (by omega) (by omega) (by omega)) ?_
          rintro ⟨h3', v2⟩ ⟨hv2, b2, R3, E3, s3⟩
          dsimp only at hv2 R3 E3 s3 ⊢
          obtain ⟨K3, n3⟩ := K2.right E3 R3
          refine Tot.pure ⟨?_, .node q a2 b2, K3.rep L hw (by rw [n3, n2]; exact hd) (fun _ _ _ => rfl) fun _ _ _ => rfl, (E.left E2).right E3, by dsimp only; omega⟩
          dsimp only
          rw [L.op, hv1, hv2]
          exact P_split f (by omega) (by omega) hq h1

theorem applyRec_tot {P : Prm T F} {x : Nat → T} (L : Lawful P x) (φ : F) {ql qr n : Nat} (hn : 2 * n ≤ P.max + 1) (hq : ql ≤ qr) (k : Nat) : ∀ (h : Pool T F) (t : Tr) (l r : Nat) (f : Nat → T), Rep P x h t l r f →
    t.idx ≠ 0 → l < r → r ≤ n → r - l ≤ k → h.size + cost ql qr l r ≤ 2 ^ 32 →
    Tot (applyRec P φ ql qr (k + 1) h t.idx l r) fun h' => ∃ t', Rep P x h' t' l r (fun k => if ql ≤ k ∧ k < qr then P.map φ (f k) k (k + 1) else f k) ∧ Ext P h t h' t' ∧ h'.size ≤ h.size + cost ql qr l r := by
  induction k with
  | zero => intros; omega
  | succ k ih =>
    intro h t l r f R h0 hlr hrn hk hu
    unfold applyRec
    by_cases h1 : r ≤ ql ∨ qr ≤ l
    · rw [if_pos h1]
      exact Tot.pure ⟨t, R.congr fun k h1 h2 => if_neg (by omega), Ext.refl P h t, by omega⟩
    · rw [if_neg h1]
      by_cases h2 : ql ≤ l ∧ r ≤ qr
      · rw [if_pos h2]
        cases t with
        | nil => exact absurd rfl h0
        | node q a b =>
          refine (applyNode_tot L R hlr φ).mono ?_
          rintro h' ⟨R', E', s', -⟩
          exact ⟨_, R'.congr fun k h1 h2 => if_pos (by omega), E', by omega⟩
      · rw [if_neg h2]
        have hw : 2 ≤ r - l := by omega
        have hc := cost_split hw (bc_pos hq h1 h2)
        cases t with
        | nil => exact absurd rfl h0
        | node q a b =>
          rw [mid_eq (by omega), ok_bind]
          refine Tot.bind (push_tot L R hw (by omega) (by omega)) ?_
          rintro h1' ⟨a1, b1, K, hd, hs, E⟩
          rw [rd_nd P K.lt, ok_bind, K.c0]
          refine Tot.bind (ih h1' a1 l _ f K.ra K.a0 (by omega) (by omega) (by omega) (by omega)) ?_
          rintro h2' ⟨a2, R2, E2, s2⟩
          obtain ⟨K2, n2⟩ := K.left E2 R2
          rw [rd_nd P K2.lt, ok_bind, K2.c1]
          refine Tot.bind (ih h2' b1 _ r f K2.rb K2.b0 (by omega) (by omega) (by omega) (by omega)) ?_
          rintro h3' ⟨b2, R3, E3, s3⟩
          obtain ⟨K3, n3⟩ := K2.right E3 R3
          refine (update_tot L K3 hw (fun _ _ _ => rfl) fun _ _ _ => rfl).mono ?_
          rintro h4' ⟨R4, s4, E4⟩
          exact ⟨_, R4, E4 _ _ ((E.left E2).right E3), by omega⟩

/-! ## `apply_fun` -/

/-- `apply_fun` with a recursion in place of the stack. -/
def funRec (P : Prm T F) (i : Nat) (g : T → T) : Nat → Pool T F → Nat → Nat → Nat → M (Pool T F)
  | 0, _, _, _, _ => .error .diverge
  | k + 1, h, cur, l, r => do
    if r - l > 1 then
      let m ← mid P l r
      let h ← push P h cur l r
      let x ← rd h cur
      let h ← if i ≥ m then funRec P i g k h x.c1 m r else funRec P i g k h x.c0 l m
      update P h cur
    else
      let x ← rd h cur
      wr h cur { x with dat := g x.dat }

theorem down_eq (P : Prm T F) (i : Nat) (g : T → T) (k : Nat) : ∀ h path cur l r,
    (down P i k h path cur l r >>= fun y => rd y.1 y.2.2 >>= fun x => wr y.1 y.2.2 { x with dat := g x.dat } >>= fun h => forEach y.2.1 h fun h q => update P h q) =
      (funRec P i g k h cur l r >>= fun h => forEach path h fun h q => update P h q) := by
  induction k with
  | zero => intros; rfl
  | succ k ih =>
    intro h path cur l r
    unfold down funRec
    by_cases c : r - l > 1
    · rw [if_pos c, if_pos c]
      simp only [bind_assoc]
      congr 1
      funext m
      congr 1
      funext h
      congr 1
      funext x
      by_cases d : i ≥ m
      · rw [if_pos d, if_pos d, ih]
        simp only [Cxx.forEach, bind_assoc]
      · rw [if_neg d, if_neg d, ih]
        simp only [Cxx.forEach, bind_assoc]
    · rw [if_neg c, if_neg c, pure_eq, ok_bind]
      simp only [bind_assoc]

theorem funRec_tot {P : Prm T F} {x : Nat → T} (L : Lawful P x) (g : T → T) {i n : Nat} (hn : 2 * n ≤ P.max + 1) (k : Nat) : ∀ (h : Pool T F) (t : Tr) (l r : Nat) (f : Nat → T), Rep P x h t l r f →
    t.idx ≠ 0 → l ≤ i → i < r → r ≤ n → r - l ≤ k → h.size + 2 * Nat.clog 2 (r - l) ≤ 2 ^ 32 →
    Tot (funRec P i g (k + 1) h t.idx l r) fun h' => ∃ t', Rep P x h' t' l r (fun k => if k = i then g (f k) else f k) ∧ Ext P h t h' t' ∧ h'.size ≤ h.size + 2 * Nat.clog 2 (r - l) := by
  induction k with
  | zero => intros; omega
  | succ k ih =>
    intro h t l r f R h0 hli hir hrn hk hu
    unfold funRec
    cases t with
    | nil => exact absurd rfl h0
    | node q a b =>
      by_cases c : r - l > 1
      · rw [if_pos c]
        have c1 := clog_left c
        have c2 := clog_right c
        rw [mid_eq (by omega), ok_bind]
        dsimp only [Tr.idx]
        refine Tot.bind (push_tot L R c (by omega) (by omega)) ?_
        rintro h1' ⟨a1, b1, K, hd, hs, E⟩
        rw [rd_nd P K.lt, ok_bind]
        by_cases d : i ≥ (l + r) / 2
        · rw [if_pos d, K.c1]
          refine Tot.bind (ih h1' b1 _ r f K.rb K.b0 (by omega) (by omega) (by omega) (by omega) (by omega)) ?_
          rintro h3' ⟨b2, R3, E3, s3⟩
          obtain ⟨K3, n3⟩ := K.right E3 R3
          refine (update_tot L K3 c (w := fun k => if k = i then g (f k) else f k) (fun k _ _ => if_neg (by omega)) fun _ _ _ => rfl).mono ?_
          rintro h4' ⟨R4, s4, E4⟩
          exact ⟨_, R4, E4 _ _ (E.right E3), by omega⟩
        · rw [if_neg d, K.c0]
          refine Tot.bind (ih h1' a1 l _ f K.ra K.a0 (by omega) (by omega) (by omega) (by omega) (by omega)) ?_
          rintro h3' ⟨a2, R3, E3, s3⟩
          obtain ⟨K3, n3⟩ := K.left E3 R3
          refine (update_tot L K3 c (w := fun k => if k = i then g (f k) else f k) (fun _ _ _ => rfl) fun k _ _ => if_neg (by omega)).mono ?_
          rintro h4' ⟨R4, s4, E4⟩
          exact ⟨_, R4, E4 _ _ (E.left E3), by omega⟩
      · rw [if_neg c]
        obtain ⟨r1, r2, r3, r4, r5, r6, r7, r8, r9, r10⟩ := R
        dsimp only [Tr.idx]
        rw [rd_nd P r2, ok_bind, wr_eq r2]
        refine ⟨_, rfl, .node q a b, ⟨r1, by simpa using r2, ?_, ?_, ?_, r6, r7, r8, fun hw => by omega, r10⟩, (Ext.refl P h (.node q a b)).set r2 _, by simp⟩
        · rw [nd_set P r2, if_pos rfl]
          dsimp only
          rw [r3, show l = i by omega, show r = i + 1 by omega, P_one, P_one]
          exact (if_pos rfl).symm
        · rw [nd_set P r2, if_pos rfl]; exact r4
        · rw [nd_set P r2, if_pos rfl]; exact r5

/-! ## `get` -/

theorem getLoop_tot {P : Prm T F} {x : Nat → T} (L : Lawful P x) {i n : Nat} (hn : 2 * n ≤ P.max + 1) {h : Pool T F} (k : Nat) : ∀ (t : Tr) (l r : Nat) (f : Nat → T) (φ : F), Rep P x h t l r f →
    l ≤ i → i < r → r ≤ n → r - l ≤ k →
    Tot (getLoop P h i (k + 1) φ t.idx l r) fun y => (y.2 = 0 → P.map y.1 (x i) i (i + 1) = P.map φ (f i) i (i + 1)) ∧ (y.2 ≠ 0 → y.2 < h.size ∧ P.map y.1 (nd P h y.2).dat i (i + 1) = P.map φ (f i) i (i + 1)) := by
  induction k with
  | zero => intros; omega
  | succ k ih =>
    intro t l r f φ R hli hir hrn hk
    unfold getLoop
    cases t with
    | nil =>
      rw [if_neg (fun e => e.1 rfl)]
      exact Tot.pure ⟨fun _ => by rw [R i hli hir], fun e => absurd rfl e⟩
    | node q a b =>
      obtain ⟨r1, r2, r3, r4, r5, r6, r7, r8, r9, r10⟩ := R
      by_cases c : r - l > 1
      · rw [if_pos ⟨r1, c⟩, mid_eq (by omega), ok_bind]
        dsimp only [Tr.idx]
        rw [rd_nd P r2, ok_bind]
        obtain ⟨fa, fb, ra, rb, ea, eb⟩ := r9 c
        by_cases d : i ≥ (l + r) / 2
        · rw [if_pos d, r5]
          have := ih b _ r fb (P.comp φ (nd P h q).laz) rb (by omega) (by omega) (by omega) (by omega)
          rw [L.map_comp _ _ _ _ _ (by omega), ← eb i d hir] at this
          exact this
        · rw [if_neg d, r4]
          have := ih a l _ fa (P.comp φ (nd P h q).laz) ra (by omega) (by omega) (by omega) (by omega)
          rw [L.map_comp _ _ _ _ _ (by omega), ← ea i hli (by omega)] at this
          exact this
      · rw [if_neg (fun e => c e.2)]
        refine Tot.pure ⟨fun e => absurd e r1, fun _ => ⟨r2, ?_⟩⟩
        dsimp only [Tr.idx]
        rw [r3, show l = i by omega, show r = i + 1 by omega, P_one]

/-! ## The family of objects -/

/-- The pool and the objects represent the arrays. -/
def Sim (P : Prm T F) (x : Nat → T) (s : State T F) (t : Spec.St T) : Prop :=
  ∃ Ts : Nat → Tr, 0 < s.pool.size ∧ s.pool.size ≤ t.used ∧ s.objs.size = t.objs.length ∧
    (∀ a, a < t.trees.length → Rep P x s.pool (Ts a) 0 (t.trees.getD a (0, fun _ => 1)).1 (t.trees.getD a (0, fun _ => 1)).2 ∧ (Ts a).idx ≠ 0 ∧ 2 * (t.trees.getD a (0, fun _ => 1)).1 ≤ P.max + 1) ∧
    (∀ a a', a < t.trees.length → a' < t.trees.length → a ≠ a' → ∀ j, (Ts a).mem j → (Ts a').mem j → False) ∧
    ∀ o, o < t.objs.length → t.objs.getD o 0 < t.trees.length ∧ at' ⟨0, 0⟩ s.objs o = ⟨(t.arr o).1, (Ts (t.objs.getD o 0)).idx⟩

theorem sim_start (P : Prm T F) (x : Nat → T) : Sim P x ⟨pool0 P, #[]⟩ Spec.start := by
  refine ⟨fun _ => .nil, by simp [pool0], by simp [pool0, Spec.start], by simp [Spec.start], ?_, ?_, ?_⟩
  · intro a h; simp [Spec.start] at h
  · intro a a' h; simp [Spec.start] at h
  · intro a h; simp [Spec.start] at h

theorem getD_append_lt {α : Type} {l : List α} {y d : α} {a : Nat} (h : a < l.length) : (l ++ [y]).getD a d = l.getD a d := by
  simp [List.getD, List.getElem?_append_left h]

theorem getD_append_self {α : Type} {l : List α} {y d : α} : (l ++ [y]).getD l.length d = y := by simp [List.getD]

theorem make_sim {P : Prm T F} {x : Nat → T} (L : Lawful P x) {s : State T F} {t : Spec.St T} (S : Sim P x s t) {n : Nat} (hn : 2 * n ≤ P.max + 1) (hu : t.used < 2 ^ 32) :
    Sim P x ⟨(make P s.pool n).1, s.objs.push (make P s.pool n).2⟩ ⟨t.used + 1, t.trees ++ [(n, x)], t.objs ++ [t.trees.length]⟩ := by
  obtain ⟨Ts, hpos, hsz, hos, htr, hdj, hob⟩ := S
  unfold make newNode
  dsimp only
  rw [Nat.mod_eq_of_lt (by omega)]
  obtain ⟨y, hy⟩ : ∃ y : Node T F, y = ⟨0, 0, P.init 0 n, P.id⟩ := ⟨_, rfl⟩
  rw [← hy]
  have hgd : ∀ a, a < t.trees.length → (t.trees ++ [(n, x)]).getD a (0, fun _ => 1) = t.trees.getD a (0, fun _ => 1) := fun a ha => getD_append_lt ha
  obtain ⟨Ts', hT⟩ : ∃ Ts' : Nat → Tr, Ts' = fun a => if a = t.trees.length then .node s.pool.size .nil .nil else Ts a := ⟨_, rfl⟩
  have hself : Ts' t.trees.length = .node s.pool.size .nil .nil := by rw [hT]; exact if_pos rfl
  have hs : ∀ a, a ≠ t.trees.length → Ts' a = Ts a := fun a hh => by rw [hT]; exact if_neg hh
  have hfresh : ∀ a j, a < t.trees.length → (Ts a).mem j → j < s.pool.size := fun a j ha hm => ((htr a ha).1.bound hm).2
  refine ⟨Ts', by simp, by simp; omega, by simp [hos], ?_, ?_, ?_⟩
  · intro a ha
    rw [List.length_append, List.length_singleton] at ha
    by_cases e : a = t.trees.length
    · subst e
      rw [hself, getD_append_self]
      refine ⟨⟨by omega, by simp, ?_, by rw [nd_push_self, hy]; rfl, by rw [nd_push_self, hy]; rfl, id, id, fun _ h => h.elim, fun hw => ⟨x, x, fun _ _ _ => rfl, fun _ _ _ => rfl, fun k h1 h2 => ?_, fun k h1 h2 => ?_⟩, fun _ => ⟨rfl, rfl⟩⟩, ?_, hn⟩
      · rw [nd_push_self, hy]
        exact L.init _ _ (Nat.zero_le _)
      · rw [nd_push_self, hy]
        exact (L.map_id _ _ _ (by omega)).symm
      · rw [nd_push_self, hy]
        exact (L.map_id _ _ _ (by omega)).symm
      · exact (by omega : s.pool.size ≠ 0)
    · rw [hs a e, hgd a (by omega)]
      obtain ⟨q1, q2, q3⟩ := htr a (by omega)
      exact ⟨q1.frame (by simp) fun j hm => nd_push P y (q1.bound hm).2, q2, q3⟩
  · intro a a' ha ha' hne j h1 h2
    rw [List.length_append, List.length_singleton] at ha ha'
    by_cases e : a = t.trees.length
    · subst e
      rw [hself] at h1
      rw [hs a' (Ne.symm hne)] at h2
      have := hfresh a' j (by omega) h2
      rcases h1 with h1 | h1 | h1
      · omega
      · exact h1
      · exact h1
    · rw [hs a e] at h1
      by_cases e' : a' = t.trees.length
      · subst e'
        rw [hself] at h2
        have := hfresh a j (by omega) h1
        rcases h2 with h2 | h2 | h2
        · omega
        · exact h2
        · exact h2
      · rw [hs a' e'] at h2
        exact hdj a a' (by omega) (by omega) hne j h1 h2
  · intro o ho
    rw [List.length_append, List.length_singleton] at ho
    unfold Spec.St.arr
    dsimp only
    by_cases e : o = t.objs.length
    · subst e
      rw [getD_append_self, getD_append_self, hself, ← hos]
      refine ⟨by simp, by simp [at', Tr.idx]⟩
    · have ho' : o < t.objs.length := by omega
      have := hob o ho'
      rw [getD_append_lt ho', hgd _ this.1, hs _ (by omega)]
      refine ⟨by rw [List.length_append]; omega, ?_⟩
      have e2 := this.2
      unfold at' at e2 ⊢
      rw [Array.getElem?_push, if_neg (by omega), e2]
      rfl

theorem Sim.focus {P : Prm T F} {x : Nat → T} {s : State T F} {t : Spec.St T} (S : Sim P x s t) {o : Nat} (ho : o < t.objs.length) :
    ∃ tr : Tr, rd s.objs o = .ok ⟨(t.arr o).1, tr.idx⟩ ∧ Rep P x s.pool tr 0 (t.arr o).1 (t.arr o).2 ∧ tr.idx ≠ 0 ∧ 2 * (t.arr o).1 ≤ P.max + 1 ∧ s.pool.size ≤ t.used ∧
      ∀ h' tr' f' c, Rep P x h' tr' 0 (t.arr o).1 f' → Ext P s.pool tr h' tr' → h'.size ≤ s.pool.size + c →
        Sim P x { s with pool := h' } { t with used := t.used + c, trees := t.trees.set (t.objs.getD o 0) ((t.arr o).1, f') } := by
  obtain ⟨Ts, hpos, hsz, hos, htr, hdj, hob⟩ := S
  obtain ⟨ha, hobj⟩ := hob o ho
  obtain ⟨a, hae⟩ : ∃ a, a = t.objs.getD o 0 := ⟨_, rfl⟩
  have harr : t.arr o = t.trees.getD a (0, fun _ => 1) := by rw [hae]; rfl
  rw [← hae] at ha hobj
  obtain ⟨q1, q2, q3⟩ := htr a ha
  rw [← harr] at q1 q3
  refine ⟨Ts a, by rw [rd_at ⟨0, 0⟩ (by omega), hobj], q1, q2, q3, hsz, fun h' tr' f' c R E hs => ?_⟩
  rw [← hae]
  have hset : ∀ a', (t.trees.set a ((t.arr o).1, f')).getD a' (0, fun _ => 1) = if a' = a then ((t.arr o).1, f') else t.trees.getD a' (0, fun _ => 1) := by
    intro a'
    rw [List.getD, List.getElem?_set]
    by_cases e : a = a'
    · subst e; simp [ha]
    · rw [if_neg e, if_neg (Ne.symm e)]; rfl
  obtain ⟨Ts', hT⟩ : ∃ Ts' : Nat → Tr, Ts' = fun a' => if a' = a then tr' else Ts a' := ⟨_, rfl⟩
  have hself : Ts' a = tr' := by rw [hT]; exact if_pos rfl
  have hns : ∀ a', a' ≠ a → Ts' a' = Ts a' := fun a hh => by rw [hT]; exact if_neg hh
  have hle := E.le
  have hnew : ∀ a' j, a' < t.trees.length → a' ≠ a → (Ts a').mem j → tr'.mem j → False := fun a' j h1 h2 h3 h4 => by
    have := ((htr a' h1).1.bound h3).2
    rcases E.mem j h4 with hh | hh
    · exact hdj a' a h1 ha h2 j h3 hh
    · omega
  refine ⟨Ts', by dsimp only; omega, by dsimp only; omega, hos, ?_, ?_, ?_⟩
  · intro a' ha'
    rw [List.length_set] at ha'
    dsimp only
    rw [hset]
    by_cases e : a' = a
    · subst e
      rw [if_pos rfl, hself]
      exact ⟨R, by rw [E.idx q2]; exact q2, q3⟩
    · rw [if_neg e, hns a' e]
      obtain ⟨p1, p2, p3⟩ := htr a' ha'
      exact ⟨p1.frame E.le fun j hm => E.frame j (p1.bound hm).2 fun hh => hdj a' a ha' ha e j hm hh, p2, p3⟩
  · intro a1 a2 h1 h2 hne j m1 m2
    rw [List.length_set] at h1 h2
    by_cases e1 : a1 = a
    · subst e1
      rw [hself] at m1
      rw [hns a2 (Ne.symm hne)] at m2
      exact hnew a2 j h2 (Ne.symm hne) m2 m1
    · rw [hns a1 e1] at m1
      by_cases e2 : a2 = a
      · subst e2
        rw [hself] at m2
        exact hnew a1 j h1 e1 m1 m2
      · rw [hns a2 e2] at m2
        exact hdj a1 a2 h1 h2 hne j m1 m2
  · intro o' ho'
    obtain ⟨p1, p2⟩ := hob o' ho'
    dsimp only
    refine ⟨by rw [List.length_set]; exact p1, ?_⟩
    rw [p2]
    have e := hset (t.objs.getD o' 0)
    unfold Spec.St.arr at e ⊢
    dsimp only
    rw [e]
    by_cases e1 : t.objs.getD o' 0 = a
    · rw [if_pos e1, e1, hself, E.idx q2]
      unfold Spec.St.arr at harr
      rw [harr]
    · rw [if_neg e1, hns _ e1]

theorem cost_le (ql qr n : Nat) : cost ql qr 0 n ≤ 2 * Spec.cost n := by
  unfold cost Spec.cost
  rw [Nat.sub_zero]
  refine Nat.mul_le_mul_right _ ?_
  unfold bc
  split <;> split <;> omega

theorem applyFun_tot {P : Prm T F} {x : Nat → T} (L : Lawful P x) {h : Pool T F} {tr : Tr} {n : Nat} {f : Nat → T} (R : Rep P x h tr 0 n f) (h0 : tr.idx ≠ 0) (hn : 2 * n ≤ P.max + 1) {i : Int} (hi : 0 ≤ i)
    (hin : i < n) (hu : h.size + Spec.cost n ≤ 2 ^ 32) (g : T → T) :
    Tot (applyFun P h ⟨n, tr.idx⟩ i g) fun h' => ∃ t', Rep P x h' t' 0 n (fun k => if k = i.toNat then g (f k) else f k) ∧ Ext P h tr h' t' ∧ h'.size ≤ h.size + Spec.cost n := by
  unfold applyFun
  dsimp only
  rw [decide_eq_true (show 0 ≤ i ∧ i < (n : Int) from ⟨hi, hin⟩), check_true, ok_bind]
  have e := down_eq P i.toNat g (n + 1) h [] tr.idx 0 n
  refine Tot.mono ?_ fun _ hh => hh
  show Tot (down P i.toNat (n + 1) h [] tr.idx 0 n >>= fun y => rd y.1 y.2.2 >>= fun x => wr y.1 y.2.2 { x with dat := g x.dat } >>= fun h => forEach y.2.1 h fun h q => update P h q) _
  rw [e]
  have key := funRec_tot L g (i := i.toNat) hn n h tr 0 n f R h0 (Nat.zero_le _) (by omega) le_rfl (by omega) (by unfold Spec.cost at hu; rw [Nat.sub_zero]; omega)
  refine Tot.bind key ?_
  rintro h' ⟨t', R', E', s'⟩
  exact ⟨h', rfl, t', R', E', by unfold Spec.cost; rw [Nat.sub_zero] at s'; exact s'⟩

theorem step_tot {P : Prm T F} {x : Nat → T} (L : Lawful P x) (s : State T F) (t : Spec.St T) (i : Op T F) (S : Sim P x s t) (hp : Spec.Pre P.max t i) :
    Tot (step P s i) fun r => Sim P x r.1 (Spec.next x (fun f v k => P.map f v k (k + 1)) t i) ∧ Spec.Ans t i r.2 := by
  cases i with
  | make n => exact Tot.pure ⟨make_sim L S hp.1 hp.2, rfl⟩
  | copy o =>
    obtain ⟨tr, hrd, -⟩ := S.focus hp
    dsimp only [step]
    rw [hrd, ok_bind]
    refine Tot.pure ⟨?_, rfl⟩
    obtain ⟨Ts, hpos, hsz, hos, htr, hdj, hob⟩ := S
    have hp' : o < t.objs.length := hp
    refine ⟨Ts, hpos, hsz, by simp [Spec.next, hos], htr, hdj, fun o' ho' => ?_⟩
    simp only [Spec.next, List.length_append, List.length_singleton] at ho'
    have hobj := (hob o hp').2
    rw [rd_at ⟨0, 0⟩ (by omega), hobj] at hrd
    unfold Spec.St.arr
    dsimp only [Spec.next]
    by_cases e : o' = t.objs.length
    · subst e
      rw [getD_append_self]
      refine ⟨(hob o hp').1, ?_⟩
      rw [← hos]
      have e2 : (⟨(t.arr o).1, (Ts (t.objs.getD o 0)).idx⟩ : Obj) = ⟨(t.arr o).1, tr.idx⟩ := by injection hrd
      unfold Spec.St.arr at e2
      rw [← e2]
      simp only [at', Array.getElem?_push_size, Option.getD_some]
    · rw [getD_append_lt (by omega)]
      have := hob o' (by omega)
      refine ⟨this.1, ?_⟩
      have e2 := this.2
      unfold at' at e2 ⊢
      rw [Array.getElem?_push, if_neg (by omega), e2]
      rfl
  | get o i =>
    obtain ⟨ho, h0, hi⟩ := hp
    obtain ⟨tr, hrd, R, hne, hm, -, -⟩ := S.focus ho
    dsimp only [step]
    rw [hrd, ok_bind]
    unfold get
    dsimp only
    rw [decide_eq_true ⟨h0, hi⟩, check_true, ok_bind]
    have key := getLoop_tot L (i := i.toNat) hm (t.arr o).1 tr 0 _ _ P.id R (Nat.zero_le _) (by omega) le_rfl (by omega)
    rw [bind_assoc]
    refine Tot.bind key ?_
    rintro ⟨φ, q⟩ ⟨q1, q2⟩
    dsimp only at q1 q2 ⊢
    rw [L.map_id _ _ _ (by omega)] at q1 q2
    by_cases e : q ≠ 0
    · rw [if_pos e, rd_nd P (q2 e).1, ok_bind, pure_eq, ok_bind, (q2 e).2, pure_eq, ok_bind]
      exact Tot.pure ⟨S, rfl⟩
    · rw [if_neg e, pure_eq, ok_bind, L.init _ _ (by omega), P_one, q1 (by omega), pure_eq, ok_bind]
      exact Tot.pure ⟨S, rfl⟩
  | applyFun o i g =>
    obtain ⟨ho, h0, hi, hu⟩ := hp
    obtain ⟨tr, hrd, R, hne, hm, hs, hk⟩ := S.focus ho
    dsimp only [step]
    rw [hrd, ok_bind]
    refine Tot.bind (applyFun_tot L R hne hm h0 hi (by omega) g) ?_
    rintro h' ⟨t', R', E', s'⟩
    exact Tot.pure ⟨hk _ _ _ _ R' E' s', rfl⟩
  | set o i v =>
    obtain ⟨ho, h0, hi, hu⟩ := hp
    obtain ⟨tr, hrd, R, hne, hm, hs, hk⟩ := S.focus ho
    dsimp only [step, set]
    rw [hrd, ok_bind]
    refine Tot.bind (applyFun_tot L R hne hm h0 hi (by omega) _) ?_
    rintro h' ⟨t', R', E', s'⟩
    exact Tot.pure ⟨hk _ _ _ _ R' E' s', rfl⟩
  | applyAt o i f =>
    obtain ⟨ho, h0, hi, hu⟩ := hp
    obtain ⟨tr, hrd, R, hne, hm, hs, hk⟩ := S.focus ho
    dsimp only [step, applyAt]
    rw [hrd, ok_bind]
    refine Tot.bind (applyFun_tot L R hne hm h0 hi (by omega) _) ?_
    rintro h' ⟨t', R', E', s'⟩
    refine Tot.pure ⟨hk _ _ _ _ (R'.congr fun k _ _ => ?_) E' s', rfl⟩
    by_cases e : k = i.toNat
    · subst e; simp
    · simp [e]
  | prod o l r =>
    obtain ⟨ho, h0, hlr, hr, hu⟩ := hp
    obtain ⟨tr, hrd, R, hne, hm, hs, hk⟩ := S.focus ho
    dsimp only [step]
    rw [hrd, ok_bind]
    unfold prod
    dsimp only
    rw [decide_eq_true ⟨h0, hlr, hr⟩, check_true, ok_bind]
    have hc := cost_le l.toNat r.toNat (t.arr o).1
    have hself : t.trees.set (t.objs.getD o 0) ((t.arr o).1, (t.arr o).2) = t.trees := by
      obtain ⟨Ts, -, -, -, -, -, hob⟩ := S
      have := (hob o ho).1
      show t.trees.set (t.objs.getD o 0) (t.arr o) = t.trees
      unfold Spec.St.arr
      generalize t.objs.getD o 0 = a at this
      rw [List.getD, List.getElem?_eq_getElem this]
      simp
    have fin : ∀ h' tr', Rep P x h' tr' 0 (t.arr o).1 (t.arr o).2 → Ext P s.pool tr h' tr' → h'.size ≤ s.pool.size + 2 * Spec.cost (t.arr o).1 →
        Sim P x { s with pool := h' } { t with used := t.used + 2 * Spec.cost (t.arr o).1 } := fun h' tr' R' E' s' => by
      have := hk h' tr' (t.arr o).2 _ R' E' s'
      rw [hself] at this
      exact this
    by_cases hz : 0 < (t.arr o).1
    · refine Tot.bind (query_tot L hm (ql := l.toNat) (qr := r.toNat) (by omega) (t.arr o).1 s.pool tr 0 _ _ R hne hz le_rfl (by omega) (by omega)) ?_
      rintro ⟨h', v⟩ ⟨hv, t', R', E', s'⟩
      dsimp only at hv R' E' s' ⊢
      refine Tot.pure ⟨fin h' t' R' E' (by omega), ?_⟩
      show some v = _
      rw [hv, show max l.toNat 0 = l.toNat by omega, show min r.toNat (t.arr o).1 = r.toNat by omega]
      rfl
    · unfold query
      rw [if_pos (by omega), pure_eq, ok_bind]
      refine Tot.pure ⟨fin s.pool tr R (Ext.refl P _ _) (by omega), ?_⟩
      show some P.e = some (SegTree.P _ _ _)
      rw [P_empty _ (by omega), L.e]
  | prodAll o =>
    obtain ⟨tr, hrd, R, hne, hm, hs, hk⟩ := S.focus hp
    dsimp only [step]
    rw [hrd, ok_bind]
    unfold prodAll
    obtain ⟨d1, d2⟩ := R.dat hne
    rw [rd_nd P d1, ok_bind, pure_eq, ok_bind, d2]
    exact Tot.pure ⟨S, rfl⟩
  | apply o l r f =>
    obtain ⟨ho, h0, hlr, hr, hu⟩ := hp
    obtain ⟨tr, hrd, R, hne, hm, hs, hk⟩ := S.focus ho
    dsimp only [step]
    rw [hrd, ok_bind]
    unfold apply
    dsimp only
    rw [decide_eq_true ⟨h0, hlr, hr⟩, check_true, ok_bind]
    have hc := cost_le l.toNat r.toNat (t.arr o).1
    by_cases hz : 0 < (t.arr o).1
    · refine Tot.bind (applyRec_tot L f hm (ql := l.toNat) (qr := r.toNat) (by omega) (t.arr o).1 s.pool tr 0 _ _ R hne hz le_rfl (by omega) (by omega)) ?_
      rintro h' ⟨t', R', E', s'⟩
      exact Tot.pure ⟨hk _ _ _ _ R' E' (by omega), rfl⟩
    · unfold applyRec
      rw [if_pos (by omega), pure_eq, ok_bind]
      exact Tot.pure ⟨hk _ _ _ _ (R.congr fun k _ _ => by omega) (Ext.refl P _ _) (by omega), rfl⟩
  | applyAll o f =>
    obtain ⟨ho, hz⟩ := hp
    obtain ⟨tr, hrd, R, hne, hm, hs, hk⟩ := S.focus ho
    dsimp only [step]
    rw [hrd, ok_bind]
    unfold applyAll
    cases tr with
    | nil => exact absurd rfl hne
    | node q a b =>
      refine Tot.bind (applyNode_tot L R hz f) ?_
      rintro h' ⟨R', E', s', -⟩
      exact Tot.pure ⟨hk _ _ _ _ R' E' (by omega), rfl⟩

end SparseLazySegmentTree
