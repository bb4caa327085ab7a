import Verif.Proof.PersistentTree
import Verif.Spec.PersistentTree
import Mathlib.Algebra.Group.PUnit

/-! # Proofs for `persistent_lazy_segment_tree.hpp` -/

namespace PTree
open Cxx SegTree

variable {T F : Type} [Monoid T] [Monoid F] [MulAction F T]

/-- Elements of a tree with products and pending maps. -/
def lazySem (T F : Type) [Monoid T] [Monoid F] [MulAction F T] (lf : Option Nat → Prop) : Sem T F T :=
  ⟨lf, (· • ·), fun d _ => d, fun d v l r => d = P v l r⟩

theorem lazySem_congr (lf : Option Nat → Prop) (d : T) (v v' : Nat → T) (l r : Nat) (h : ∀ i, l ≤ i → i < r → v i = v' i)
    (hs : (lazySem T F lf).ok d v l r) : (lazySem T F lf).ok d v' l r := by
  show d = P v' l r
  rw [← P_congr h]
  exact hs

theorem Ok.dat {lf : Option Nat → Prop} {t : PT T F} {v : Nat → T} {l r : Nat} (h : Ok (lazySem T F lf) t v l r) : t.dat = P v l r := by
  cases t with
  | leaf c0 c1 d f =>
    obtain ⟨rfl, -, h3⟩ := h
    rw [P_one]
    exact h3.symm
  | node d f a b => exact h.2.1

theorem P_smul (hd : ∀ (φ : F) (a b : T), φ • (a * b) = φ • a * φ • b) (f : F) (v : Nat → T) {l r : Nat} (h : l < r) : P (fun i => f • v i) l r = f • P v l r := by
  obtain ⟨k, rfl⟩ := Nat.exists_eq_add_of_lt h
  induction k with
  | zero => rw [Nat.add_zero, P_one, P_one]
  | succ k ih =>
    rw [show l + (k + 1) + 1 = (l + k + 1) + 1 by omega, P_right _ (show l ≤ l + k + 1 by omega), P_right v (show l ≤ l + k + 1 by omega), ih (by omega), hd]

/-- `apply_all` on trees. -/
def PT.app (P : Prm T F) (f : F) : PT T F → PT T F
  | .leaf c0 c1 d g => .leaf c0 c1 (P.mapping f d) (P.composition f g)
  | .node d g a b => .node (P.mapping f d) (P.composition f g) a b

theorem Ok.app (hd : ∀ (φ : F) (a b : T), φ • (a * b) = φ • a * φ • b) {lf : Option Nat → Prop} {t : PT T F} {v : Nat → T} {l r : Nat}
    (h : Ok (lazySem T F lf) t v l r) (f : F) : Ok (lazySem T F lf) (t.app (prm T F) f) (fun i => f • v i) l r := by
  cases t with
  | leaf c0 c1 d g =>
    obtain ⟨h1, h2, h3⟩ := h
    refine ⟨h1, h2, ?_⟩
    show f • v l = _
    rw [h3]
    rfl
  | node d g a b =>
    obtain ⟨h1, h2, w, h3, h4, h5⟩ := h
    refine ⟨h1, ?_, w, fun i hl hr => ?_, h4, h5⟩
    · show f • d = P (fun i => f • v i) l r
      rw [P_smul hd f v (by omega)]
      exact congrArg _ h2
    · show f • v i = (f * g) • w i
      rw [h3 i hl hr, mul_smul]
      rfl

theorem buildRec_tot (lz : Bool) (hlz : lz = true ∨ ∀ (f : F) (x : T), f • x = x) (dat : Array T) {lf : Option Nat → Prop} :
    ∀ (n k l r : Nat) (h : Heap T F), r - l ≤ n → r - l ≤ k → l < r → r ≤ dat.size → h.top + (2 * (r - l) - 1) ≤ h.nodes.size →
      (∀ i x, h.top ≤ i → h.nodes[i]? = some x → lf x.c0) →
      Tot (buildRec (prm T F) lz dat k h l r) fun p => Fr (fun i => h.top ≤ i ∧ i < p.1.top) h p.1 ∧ p.1.top = h.top + (2 * (r - l) - 1) ∧
        ∃ t, (h.top ≤ p.2 ∧ p.2 < p.1.top) ∧ Shallow p.1 (fun i => h.top ≤ i ∧ i < p.1.top) p.2 t ∧ Ok (lazySem T F lf) t (fun i => dat[i]?.getD 1) l r := by
  intro n
  induction n with
  | zero => intros; omega
  | succ n ih =>
    intro k l r h hn hk hlr hr hc hf
    obtain ⟨k, rfl⟩ : ∃ k', k = k' + 1 := ⟨k - 1, by omega⟩
    unfold buildRec
    refine Tot.bind (alloc_tot (h := h) (by omega)) ?_
    rintro ⟨h1, res⟩ ⟨x, hx, n1⟩
    have e1 := n1.addr
    dsimp only at e1 ⊢
    subst e1
    have f1 := n1.fr
    have t1 := n1.top
    have s1 := n1.self
    dsimp only at f1 t1 s1
    have z1 := f1.size
    have hfin : ∀ (y : Nd T F) (h2 : Heap T F), h2.nodes[h.top]? = some y → Tot (if lz then setLaz h2 h.top (prm T F).id else return h2 : M (Heap T F)) fun h3 =>
        ∃ f, Put h2 h.top { y with laz := f } h3 ∧ ∀ x : T, f • x = x := by
      intro y h2 hy
      cases lz with
      | false =>
        refine Tot.pure ⟨y.laz, ⟨rfl, rfl, hy, fun _ _ => rfl⟩, ?_⟩
        rcases hlz with h | h
        · cases h
        · exact h _
      | true =>
        rw [if_pos rfl]
        exact (setLaz_tot hy _).mono fun h3 p3 => ⟨1, p3, fun x => one_smul F x⟩
    by_cases c : r - l = 1
    · rw [if_pos c]
      obtain rfl : r = l + 1 := by omega
      rw [rd_at 1 (by omega), ok_bind]
      refine Tot.bind (setDat_tot s1 _) ?_
      intro h2 p2
      refine Tot.bind (hfin _ _ p2.self) ?_
      rintro h3 ⟨f, p3, -⟩
      have p3 := p2.trans p3
      have t3 := p3.top
      refine Tot.pure ⟨(f1.trans p3.fr).weaken ?_, ?_, .leaf x.c0 x.c1 (at' 1 dat l) f, ⟨le_refl _, ?_⟩, p3.self, rfl, hf _ _ (le_refl _) hx, rfl⟩
      · intro i hi
        dsimp only
        omega
      · dsimp only
        omega
      · dsimp only
        omega
    · rw [if_neg c]
      obtain ⟨m, hm⟩ : ∃ m, m = (l + r) / 2 := ⟨_, rfl⟩
      rw [← hm]
      refine Tot.bind (ih k l m h1 (by omega) (by omega) (by omega) (by omega) (by omega) (fun i y hi hy => hf i y (by omega) (by
        rw [← f1.same i (by omega)]; exact hy))) ?_
      rintro ⟨h2, pa⟩ ⟨f2, t2, ta, ha, sa, oa⟩
      dsimp only at f2 t2 ha sa ⊢
      have z2 := f2.size
      have s2 : h2.nodes[h.top]? = some x := by rw [f2.same _ (by omega), s1]
      refine Tot.bind (setC0_tot s2 _) ?_
      intro h3 p3
      have t3 := p3.top
      have z3 := p3.size
      refine Tot.bind (ih k m r h3 (by omega) (by omega) (by omega) (by omega) (by omega) (fun i y hi hy => hf i y (by omega) (by
        rw [← f1.same i (by omega), ← f2.same i (by omega), ← p3.other i (by omega)]; exact hy))) ?_
      rintro ⟨h4, pb⟩ ⟨f4, t4, tb, hb, sb, ob⟩
      dsimp only at f4 t4 hb sb ⊢
      have s4 := (f4.same h.top (by omega)).trans p3.self
      refine Tot.bind (setC1_tot s4 _) ?_
      intro h5 p5
      have t5 := p5.top
      obtain ⟨na, hna, da, -⟩ := sa.nd
      obtain ⟨nb, hnb, db, -⟩ := sb.nd
      have hna5 : h5.nodes[pa]? = some na := by rw [p5.other _ (by omega), f4.same _ (by omega), p3.other _ (by omega), hna]
      have hnb5 : h5.nodes[pb]? = some nb := by rw [p5.other _ (by omega), hnb]
      refine Tot.bind (update_tot p5.self hna5 hnb5) ?_
      intro h6 p6
      refine Tot.bind (hfin _ _ p6.self) ?_
      rintro h7 ⟨f, p7, hf1⟩
      have p7 := (p5.trans p6).trans p7
      have t7 := p7.top
      refine Tot.pure ⟨(((f1.trans f2).trans p3.fr).trans (f4.trans p7.fr)).weaken ?_, ?_, .node (na.dat * nb.dat) f ta tb, ⟨le_refl _, ?_⟩, ?_, ?_⟩
      · intro i hi
        dsimp only
        omega
      · dsimp only
        omega
      · dsimp only
        omega
      · refine ⟨pa, pb, p7.self, ⟨⟨?_, ?_⟩, ?_⟩, ⟨?_, ?_⟩, ?_⟩
        · omega
        · dsimp only
          omega
        · refine sa.mono (fun i hi => ?_) (fun i hi => ?_) ?_
          · dsimp only
            omega
          · dsimp only
            rw [p7.other _ (by omega), f4.same _ (by omega), p3.other _ (by omega)]
          · dsimp only
            rw [p7.other _ (by omega), f4.same _ (by omega), p3.other _ (by omega)]
        · omega
        · dsimp only
          omega
        · refine sb.mono (fun i hi => ?_) (fun i hi => ?_) ?_
          · dsimp only
            omega
          · dsimp only
            rw [p7.other _ (by omega)]
          · dsimp only
            rw [p7.other _ (by omega)]
      · refine ⟨by omega, ?_, _, fun i _ _ => (hf1 _).symm, ?_, ?_⟩
        · show na.dat * nb.dat = P _ l r
          rw [P_append _ (show l ≤ m by omega) (show m ≤ r by omega), da, db, oa.dat, ob.dat]
        · rw [← hm]
          exact oa
        · rw [← hm]
          exact ob

end PTree

namespace PersistentLazySegmentTree
open Cxx PTree SegTree

variable {T F : Type} [Monoid T] [Monoid F] [MulAction F T]

theorem applyAllN_tot (P : Prm T F) {h : Heap T F} {S : Nat → Prop} {p : Nat} {t : PT T F} (hs : Shallow h S p t) (hS : ∀ i, S i → i < h.top) (hc : h.top < h.nodes.size) (f : F) :
    Tot (applyAllN P h (some p) f) fun r => r.2 = some h.top ∧ r.1.top = h.top + 1 ∧ Fr (· = h.top) h r.1 ∧ Shallow r.1 S h.top (t.app P f) := by
  unfold applyAllN
  dsimp only
  obtain ⟨x, hx, hxd, hxl⟩ := hs.nd
  refine Tot.bind (clone_tot hx hc) ?_
  rintro ⟨h1, q⟩ n1
  have e1 := n1.addr
  have f1 := n1.fr
  have t1 := n1.top
  have s1 := n1.self
  dsimp only at e1 f1 t1 s1 ⊢
  subst e1
  rw [load_eq s1, ok_bind]
  refine Tot.bind (setDat_tot s1 _) ?_
  intro h2 p2
  refine Tot.bind (setLaz_tot p2.self _) ?_
  intro h3 p3
  have p3 := p2.trans p3
  have t3 := p3.top
  refine Tot.pure ⟨rfl, by dsimp only; omega, (f1.trans p3.fr).weaken (fun i hi => by omega), ?_⟩
  dsimp only
  have hsame : ∀ i, S i → h3.nodes[i]? = h.nodes[i]? := fun i hi => by
    have := hS i hi
    rw [p3.other _ (by omega), f1.same _ (by omega)]
  cases t with
  | leaf c0 c1 d g =>
    have e : h.nodes[p]? = some ⟨c0, c1, d, g⟩ := hs
    rw [hx] at e
    cases e
    exact p3.self
  | node d g a b =>
    obtain ⟨pa, pb, e, ⟨ha, sa⟩, hb, sb⟩ := hs
    rw [hx] at e
    cases e
    exact ⟨pa, pb, p3.self, ⟨ha, sa.mono (fun _ h => h) hsame (hsame _ ha)⟩, hb, sb.mono (fun _ h => h) hsame (hsame _ hb)⟩

theorem pushAt_tot (P : Prm T F) {h : Heap T F} {S : Nat → Prop} {p : Nat} {d : T} {f : F} {a b : PT T F} (hs : Shallow h S p (.node d f a b)) (hS : ∀ i, S i → i < h.top) (hp : ¬ S p)
    (hpt : p < h.top) (hc : h.top + 2 ≤ h.nodes.size) :
    Tot (pushAt P h p) fun h' => h'.top = h.top + 2 ∧ Fr (fun i => i = p ∨ i = h.top ∨ i = h.top + 1) h h' ∧ h'.nodes[p]? = some ⟨some h.top, some (h.top + 1), d, P.id⟩ ∧
      Shallow h' S h.top (a.app P f) ∧ Shallow h' S (h.top + 1) (b.app P f) := by
  obtain ⟨pa, pb, e, ⟨ha, sa⟩, hb, sb⟩ := hs
  unfold pushAt
  rw [load_eq e, ok_bind]
  dsimp only
  refine Tot.bind (applyAllN_tot P sa hS (by omega) f) ?_
  rintro ⟨h1, q⟩ ⟨rfl, t1, f1, s1⟩
  dsimp only at t1 f1 s1 ⊢
  have z1 := f1.size
  have e1 : h1.nodes[p]? = _ := (f1.same p (by omega)).trans e
  refine Tot.bind (setC0_tot e1 _) ?_
  intro h2 p2
  dsimp only at p2
  have t2 := p2.top
  have z2 := p2.size
  rw [load_eq p2.self, ok_bind]
  dsimp only
  have hne : ∀ i, S i → i ≠ p := fun i hi c => hp (c ▸ hi)
  have sb2 : Shallow h2 S pb b := by
    refine sb.mono (fun _ h => h) (fun i hi => ?_) ?_
    · have := hS i hi
      rw [p2.other _ (hne i hi), f1.same _ (by omega)]
    · have := hS _ hb
      rw [p2.other _ (hne _ hb), f1.same _ (by omega)]
  refine Tot.bind (applyAllN_tot P sb2 (fun i hi => by have := hS i hi; omega) (by omega) f) ?_
  rintro ⟨h3, q⟩ ⟨rfl, t3, f3, s3⟩
  dsimp only at t3 f3 s3 ⊢
  have e3 := (f3.same p (by omega)).trans p2.self
  refine Tot.bind (setC1_tot e3 _) ?_
  intro h4 p4
  refine (setLaz_tot p4.self _).mono ?_
  intro h5 p5
  have p5 := p4.trans p5
  dsimp only at p5
  have t5 := p5.top
  have et : h2.top = h.top + 1 := by omega
  rw [et] at p5 s3 f3
  refine ⟨by omega, ((f1.trans p2.fr).trans (f3.trans p5.fr)).weaken (fun i hi => by omega), p5.self, ?_, ?_⟩
  · refine s1.mono (fun _ h => h) (fun i hi => ?_) ?_
    · have := hS i hi
      rw [p5.other _ (hne i hi), f3.same _ (by omega), p2.other _ (hne i hi)]
    · rw [p5.other _ (by omega), f3.same _ (by omega), p2.other _ (by omega)]
  · refine s3.mono (fun _ h => h) (fun i hi => ?_) ?_
    · rw [p5.other _ (hne i hi)]
    · rw [p5.other _ (by omega)]

/-- What an update of a range makes of the elements. -/
def upd (ql qr : Int) (f : F) (v : Nat → T) (i : Nat) : T := if ql ≤ i ∧ (i : Int) < qr then f • v i else v i

theorem applyRec_tot (hd : ∀ (φ : F) (a b : T), φ • (a * b) = φ • a * φ • b) {lf : Option Nat → Prop} (ql qr : Int) (f : F) :
    ∀ (k : Nat) (h : Heap T F) (S : Nat → Prop) (p : Nat) (t : PT T F) (v : Nat → T) (tl tr : Nat), tr - tl ≤ k → S p → Shallow h S p t → (∀ i, S i → i < h.top) →
      Ok (lazySem T F lf) t v tl tr → h.top + cost 3 ql qr k tl tr ≤ h.nodes.size →
      Tot (applyRec (prm T F) ql qr f k h (some p) tl tr) fun r => Fr (fun i => h.top ≤ i ∧ i < r.1.top) h r.1 ∧ r.1.top ≤ h.top + cost 3 ql qr k tl tr ∧
        ∃ q t', r.2 = some q ∧ (S q ∨ (h.top ≤ q ∧ q < r.1.top)) ∧ Shallow r.1 (fun i => S i ∨ (h.top ≤ i ∧ i < r.1.top)) q t' ∧ Ok (lazySem T F lf) t' (upd ql qr f v) tl tr := by
  intro k
  induction k with
  | zero =>
    intro h S p t v tl tr hk _ _ _ ho
    have := ho.lt
    omega
  | succ k ih =>
    intro h S p t v tl tr hk hp hs hS ho hc
    have hlt := ho.lt
    unfold applyRec
    unfold cost at hc ⊢
    by_cases c1 : (tr : Int) ≤ ql ∨ qr ≤ tl
    · rw [if_pos c1] at hc ⊢
      rw [if_pos c1]
      refine Tot.pure ⟨Fr.refl _ h, by dsimp only; omega, p, t, rfl, Or.inl hp, hs.mono (fun i hi => Or.inl hi) (fun _ _ => rfl) rfl, ho.congr (lazySem_congr lf) fun i h1 h2 => ?_⟩
      unfold upd
      rw [if_neg (by omega)]
    rw [if_neg c1] at hc ⊢
    rw [if_neg c1]
    by_cases c2 : ql ≤ tl ∧ (tr : Int) ≤ qr
    · rw [if_pos c2] at hc ⊢
      rw [if_pos c2]
      refine (applyAllN_tot (prm T F) hs hS (by omega) f).mono ?_
      rintro ⟨h1, q⟩ ⟨rfl, t1, f1, s1⟩
      dsimp only at t1 f1 s1 ⊢
      refine ⟨f1.weaken (fun i hi => by omega), by omega, h.top, _, rfl, Or.inr (by omega), s1.mono (fun i hi => Or.inl hi) (fun _ _ => rfl) rfl, (ho.app hd f).congr (lazySem_congr lf) fun i h1 h2 => ?_⟩
      unfold upd
      rw [if_pos (by omega)]
    rw [if_neg c2] at hc ⊢
    rw [if_neg c2]
    cases t with
    | leaf c0 c1' d g =>
      have := ho.1
      omega
    | node d g a b =>
      obtain ⟨x, hx, hxd, hxl⟩ := hs.nd
      refine Tot.bind (clone_tot hx (by omega)) ?_
      rintro ⟨h1, res⟩ n1
      have e1 := n1.addr
      have f1 := n1.fr
      have t1 := n1.top
      have s1 := n1.self
      dsimp only at e1 f1 t1 s1 ⊢
      subst e1
      have z1 := f1.size
      have sh1 : Shallow h1 S h.top (.node d g a b) := by
        obtain ⟨pa, pb, e, ⟨ha, sa⟩, hb, sb⟩ := hs
        rw [hx] at e
        cases e
        have hsame : ∀ i, S i → h1.nodes[i]? = h.nodes[i]? := fun i hi => f1.same _ (by have := hS i hi; omega)
        exact ⟨pa, pb, s1, ⟨ha, sa.mono (fun _ h => h) hsame (hsame _ ha)⟩, hb, sb.mono (fun _ h => h) hsame (hsame _ hb)⟩
      refine Tot.bind (pushAt_tot (prm T F) sh1 (fun i hi => by have := hS i hi; omega) (fun hi => by have := hS _ hi; omega) (by omega) (by omega)) ?_
      intro h2 ⟨t2, f2, e2, sa2, sb2⟩
      have z2 := f2.size
      rw [load_eq e2, ok_bind]
      dsimp only
      obtain ⟨o1, -, w, ow, oa, ob⟩ := ho
      obtain ⟨tm, hm⟩ : ∃ tm, tm = (tl + tr) / 2 := ⟨_, rfl⟩
      rw [← hm] at oa ob hc ⊢
      -- the left child
      refine Tot.bind (ih h2 (fun i => S i ∨ i = h1.top) h1.top _ _ tl tm (by omega) (Or.inr rfl) (sa2.mono (fun i hi => Or.inl hi) (fun _ _ => rfl) rfl)
        (fun i hi => hi.elim (fun hi => by have := hS i hi; omega) (fun hi => by omega)) (oa.app hd g) (by omega)) ?_
      rintro ⟨h3, q3⟩ ⟨f3, t3, qa, ta, rfl, hqa, sa3, oa3⟩
      dsimp only at f3 t3 hqa sa3 ⊢
      have e3 : h3.nodes[h.top]? = _ := (f3.same h.top (by omega)).trans e2
      have z3 := f3.size
      have g3 := f3.top
      refine Tot.bind (setC0_tot e3 _) ?_
      intro h4 p4
      dsimp only at p4
      have t4 := p4.top
      have z4 := p4.size
      rw [load_eq p4.self, ok_bind]
      dsimp only
      -- the right child
      have sb4 : Shallow h4 S (h1.top + 1) (b.app (prm T F) g) := by
        refine sb2.mono (fun _ h => h) (fun i hi => ?_) ?_
        · have := hS i hi
          rw [p4.other _ (by omega), f3.same _ (by omega)]
        · rw [p4.other _ (by omega), f3.same _ (by omega)]
      refine Tot.bind (ih h4 (fun i => S i ∨ i = h1.top + 1) (h1.top + 1) _ _ tm tr (by omega) (Or.inr rfl) (sb4.mono (fun i hi => Or.inl hi) (fun _ _ => rfl) rfl)
        (fun i hi => hi.elim (fun hi => by have := hS i hi; omega) (fun hi => by omega)) (ob.app hd g) (by omega)) ?_
      rintro ⟨h5, q5⟩ ⟨f5, t5, qb, tb, rfl, hqb, sb5, ob5⟩
      dsimp only at f5 t5 hqb sb5 ⊢
      have e5 := (f5.same h.top (by omega)).trans p4.self
      have g5 := f5.top
      refine Tot.bind (setC1_tot e5 _) ?_
      intro h6 p6
      dsimp only at p6
      have t6 := p6.top
      have hS' : ∀ i, S i → i ≠ h.top := fun i hi => by have := hS i hi; omega
      have sa6 : Shallow h6 (fun i => S i ∨ (h.top < i ∧ i < h6.top)) qa ta := by
        refine sa3.mono (fun i hi => ?_) (fun i hi => ?_) ?_
        · rcases hi with (hi | hi) | hi
          · exact Or.inl hi
          · right; omega
          · right; omega
        · have : i ≠ h.top ∧ ¬ (h4.top ≤ i ∧ i < h5.top) := by
            rcases hi with (hi | hi) | hi
            · have := hS i hi
              omega
            · omega
            · omega
          rw [p6.other _ this.1, f5.same _ this.2, p4.other _ this.1]
        · have : qa ≠ h.top ∧ ¬ (h4.top ≤ qa ∧ qa < h5.top) := by
            rcases hqa with (hi | hi) | hi
            · have := hS _ hi
              omega
            · omega
            · omega
          rw [p6.other _ this.1, f5.same _ this.2, p4.other _ this.1]
      have sb6 : Shallow h6 (fun i => S i ∨ (h.top < i ∧ i < h6.top)) qb tb := by
        refine sb5.mono (fun i hi => ?_) (fun i hi => ?_) ?_
        · rcases hi with (hi | hi) | hi
          · exact Or.inl hi
          · right; omega
          · right; omega
        · refine p6.other _ ?_
          rcases hi with (hi | hi) | hi
          · exact hS' i hi
          · omega
          · omega
        · refine p6.other _ ?_
          rcases hqb with (hi | hi) | hi
          · exact hS' _ hi
          · omega
          · omega
      obtain ⟨na, hna, da, -⟩ := sa6.nd
      obtain ⟨nb, hnb, db, -⟩ := sb6.nd
      refine Tot.bind (update_tot p6.self hna hnb) ?_
      intro h7 p7
      have t7 := p7.top
      have hfr : Fr (fun i => h.top ≤ i ∧ i < h7.top) h h7 := ((((f1.trans f2).trans f3).trans p4.fr).trans ((f5.trans p6.fr).trans p7.fr)).weaken (fun i hi => by omega)
      have m7 : ∀ {q : Nat} {t : PT T F}, (S q ∨ (h.top < q ∧ q < h6.top)) → (Shallow h6 (fun i => S i ∨ (h.top < i ∧ i < h6.top)) q t) → Shallow h7 (fun i => S i ∨ (h.top ≤ i ∧ i < h7.top)) q t := by
        intro q t hq hs
        refine hs.mono (fun i hi => ?_) (fun i hi => ?_) ?_
        · rcases hi with hi | hi
          · exact Or.inl hi
          · right; omega
        · refine p7.other _ ?_
          rcases hi with hi | hi
          · exact hS' i hi
          · omega
        · refine p7.other _ ?_
          rcases hq with hi | hi
          · exact hS' _ hi
          · omega
      have hqa6 : S qa ∨ (h.top < qa ∧ qa < h6.top) := by
        rcases hqa with (hi | hi) | hi
        · exact Or.inl hi
        · right; omega
        · right; omega
      have hqb6 : S qb ∨ (h.top < qb ∧ qb < h6.top) := by
        rcases hqb with (hi | hi) | hi
        · exact Or.inl hi
        · right; omega
        · right; omega
      have up : ∀ {q : Nat}, (S q ∨ (h.top < q ∧ q < h6.top)) → (S q ∨ (h.top ≤ q ∧ q < h7.top)) := by
        rintro q (hi | hi)
        · exact Or.inl hi
        · right; omega
      have hv : ∀ i, tl ≤ i → i < tr → upd ql qr f (fun i => g • w i) i = upd ql qr f v i := by
        intro i h1 h2
        unfold upd
        rw [ow i h1 h2]
        rfl
      have oa3 := oa3.congr (lazySem_congr lf) (v' := upd ql qr f v) (fun i h1 h2 => hv i h1 (by omega))
      have ob5 := ob5.congr (lazySem_congr lf) (v' := upd ql qr f v) (fun i h1 h2 => hv i (by omega) h2)
      refine Tot.pure ⟨hfr, by dsimp only; omega, h.top, .node (na.dat * nb.dat) 1 ta tb, rfl, Or.inr (by dsimp only; omega), ⟨qa, qb, p7.self, ⟨up hqa6, m7 hqa6 sa6⟩, up hqb6, m7 hqb6 sb6⟩, o1, ?_, upd ql qr f v, fun i _ _ => (one_smul F _).symm, ?_, ?_⟩
      · show na.dat * nb.dat = P _ tl tr
        rw [P_append _ (show tl ≤ tm by omega) (show tm ≤ tr by omega), da, db, oa3.dat, ob5.dat]
      · rw [← hm]
        exact oa3
      · rw [← hm]
        exact ob5

/-- The loop of `update_leaf` from a new node on, with the updates of the nodes on the way back. -/
theorem walk_eq (hd : ∀ (φ : F) (a b : T), φ • (a * b) = φ • a * φ • b) {lf : Option Nat → Prop} (g : T → T) (i : Nat) :
    ∀ (k : Nat) (h : Heap T F) (S : Nat → Prop) (cur : Nat) (t : PT T F) (v : Nat → T) (l r : Nat) (path : List Nat), r - l ≤ k → ¬ S cur → cur < h.top → Shallow h S cur t → (∀ i, S i → i < h.top) →
      Ok (lazySem T F lf) t v l r → l ≤ i → i < r → h.top + 2 * Nat.clog 2 (r - l) ≤ h.nodes.size →
      ∃ h' t', (loop (walkStep (prm T F) i) k ⟨h, cur, l, r, path⟩ >>= finish (prm T F) g) = forEach path h' (fun h p => update (prm T F) h p) ∧
        Fr (fun j => j = cur ∨ (h.top ≤ j ∧ j < h'.top)) h h' ∧ h'.top ≤ h.top + 2 * Nat.clog 2 (r - l) ∧
        Shallow h' (fun j => S j ∨ (h.top ≤ j ∧ j < h'.top)) cur t' ∧ Ok (lazySem T F lf) t' (Function.update v i (g (v i))) l r := by
  intro k
  induction k with
  | zero =>
    intro h S cur t v l r path hk _ _ _ _ ho
    have := ho.lt
    omega
  | succ k ih =>
    intro h S cur t v l r path hk hcur hct hs hS ho hil hir hc
    cases t with
    | leaf c0 c1 d f =>
      obtain ⟨rfl, h2, h3⟩ := ho
      obtain rfl : i = l := by omega
      have hs : h.nodes[cur]? = some ⟨c0, c1, d, f⟩ := hs
      rw [loop_none (s := (⟨h, cur, i, i + 1, path⟩ : Walk T F)) (by unfold walkStep; rw [if_neg (by dsimp only; omega)]; rfl), ok_bind]
      unfold finish
      dsimp only
      rw [load_eq hs, ok_bind]
      obtain ⟨h', e', p'⟩ := setDat_tot hs (g d)
      rw [e', ok_bind]
      have t' := p'.top
      refine ⟨h', .leaf c0 c1 (g d) f, rfl, p'.fr.weaken (fun _ h => Or.inl h), by omega, p'.self, rfl, h2, ?_⟩
      rw [Function.update_self, h3]
      rfl
    | node d f a b =>
      obtain ⟨o1, o2, w, ow, oa, ob⟩ := ho
      have hl := clog_left o1
      have hr := clog_right o1
      obtain ⟨h1, e1, t1, f1, s1, sa1, sb1⟩ := pushAt_tot (prm T F) hs hS hcur hct (by omega)
      have z1 := f1.size
      obtain ⟨m, hm⟩ : ∃ m, m = (l + r) / 2 := ⟨_, rfl⟩
      rw [← hm] at oa ob hl hr
      have hS' : ∀ j, S j → j ≠ cur := fun j hj c => hcur (c ▸ hj)
      have hv : ∀ (c : Nat → T), (∀ j, c j = f • w j) → ∀ j, l ≤ j → j < r → Function.update c i (g (c i)) j = Function.update v i (g (v i)) j := by
        intro c hcw j h1 h2
        by_cases e : j = i
        · subst e
          rw [Function.update_self, Function.update_self, ow j h1 h2, hcw]
          rfl
        · rw [Function.update_of_ne e, Function.update_of_ne e, ow j h1 h2, hcw]
          rfl
      have hnc : ∀ j, l ≤ j → j < r → j ≠ i → v j = f • w j := fun j h1 h2 _ => ow j h1 h2
      by_cases c : i < m
      · have estep : walkStep (prm T F) i ⟨h, cur, l, r, path⟩ = .ok (some ⟨h1, h.top, l, m, cur :: path⟩) := by
          unfold walkStep
          dsimp only
          rw [if_pos (by omega), e1, ok_bind, load_eq s1, ok_bind, ← hm, if_pos c]
          rfl
        rw [loop_some estep]
        obtain ⟨h2, t2, e2, f2, b2, s2, ok2⟩ := ih h1 S h.top _ _ l m (cur :: path) (by omega) (fun hj => by have := hS _ hj; omega) (by omega) sa1 (fun j hj => by have := hS j hj; omega) (oa.app hd f) hil c (by omega)
        have g2 := f2.top
        have s1' := (f2.same cur (by omega)).trans s1
        obtain ⟨na, hna, da, -⟩ := s2.nd
        have sb2 : Shallow h2 S (h.top + 1) (b.app (prm T F) f) := by
          refine sb1.mono (fun _ h => h) (fun j hj => ?_) ?_
          · have := hS j hj
            rw [f2.same _ (by omega)]
          · rw [f2.same _ (by omega)]
        obtain ⟨nb, hnb, db, -⟩ := sb2.nd
        obtain ⟨h3, e3, p3⟩ := update_tot (P := prm T F) s1' hna hnb
        have t3 := p3.top
        have ok2 := ok2.congr (lazySem_congr lf) (v' := Function.update v i (g (v i))) (fun j h1 h2 => hv _ (fun _ => rfl) j h1 (by omega))
        have okb := (ob.app hd f).congr (lazySem_congr lf) (v' := Function.update v i (g (v i))) (fun j h1 h2 => by
          rw [Function.update_of_ne (by omega), ow j (by omega) h2]
          rfl)
        refine ⟨h3, .node (na.dat * nb.dat) 1 t2 (b.app (prm T F) f), ?_, ((f1.trans f2).trans p3.fr).weaken (fun j hj => by omega), by omega, ⟨h.top, h.top + 1, p3.self, ⟨Or.inr (by omega), ?_⟩, Or.inr (by omega), ?_⟩, o1, ?_, _, fun _ _ _ => (one_smul F _).symm, ?_, ?_⟩
        · rw [e2]
          show (update (prm T F) h2 cur >>= fun h => forEach path h _) = _
          rw [e3, ok_bind]
        · refine s2.mono (fun j hj => ?_) (fun j hj => ?_) ?_
          · rcases hj with hj | hj
            · exact Or.inl hj
            · right; omega
          · refine p3.other _ ?_
            rcases hj with hj | hj
            · exact hS' j hj
            · omega
          · exact p3.other _ (by omega)
        · refine sb2.mono (fun j hj => Or.inl hj) (fun j hj => p3.other _ (hS' j hj)) (p3.other _ (by omega))
        · show na.dat * nb.dat = P _ l r
          rw [P_append _ (show l ≤ m by omega) (show m ≤ r by omega), da, db, ok2.dat, okb.dat]
        · rw [← hm]
          exact ok2
        · rw [← hm]
          exact okb
      · have estep : walkStep (prm T F) i ⟨h, cur, l, r, path⟩ = .ok (some ⟨h1, h.top + 1, m, r, cur :: path⟩) := by
          unfold walkStep
          dsimp only
          rw [if_pos (by omega), e1, ok_bind, load_eq s1, ok_bind, ← hm, if_neg c]
          rfl
        rw [loop_some estep]
        obtain ⟨h2, t2, e2, f2, b2, s2, ok2⟩ := ih h1 S (h.top + 1) _ _ m r (cur :: path) (by omega) (fun hj => by have := hS _ hj; omega) (by omega) sb1 (fun j hj => by have := hS j hj; omega) (ob.app hd f) (by omega) hir (by omega)
        have g2 := f2.top
        have s1' := (f2.same cur (by omega)).trans s1
        obtain ⟨nb, hnb, db, -⟩ := s2.nd
        have sa2 : Shallow h2 S h.top (a.app (prm T F) f) := by
          refine sa1.mono (fun _ h => h) (fun j hj => ?_) ?_
          · have := hS j hj
            rw [f2.same _ (by omega)]
          · rw [f2.same _ (by omega)]
        obtain ⟨na, hna, da, -⟩ := sa2.nd
        obtain ⟨h3, e3, p3⟩ := update_tot (P := prm T F) s1' hna hnb
        have t3 := p3.top
        have ok2 := ok2.congr (lazySem_congr lf) (v' := Function.update v i (g (v i))) (fun j h1 h2 => hv _ (fun _ => rfl) j (by omega) h2)
        have oka := (oa.app hd f).congr (lazySem_congr lf) (v' := Function.update v i (g (v i))) (fun j h1 h2 => by
          rw [Function.update_of_ne (by omega), ow j h1 (by omega)]
          rfl)
        refine ⟨h3, .node (na.dat * nb.dat) 1 (a.app (prm T F) f) t2, ?_, ((f1.trans f2).trans p3.fr).weaken (fun j hj => by omega), by omega, ⟨h.top, h.top + 1, p3.self, ⟨Or.inr (by omega), ?_⟩, Or.inr (by omega), ?_⟩, o1, ?_, _, fun _ _ _ => (one_smul F _).symm, ?_, ?_⟩
        · rw [e2]
          show (update (prm T F) h2 cur >>= fun h => forEach path h _) = _
          rw [e3, ok_bind]
        · refine sa2.mono (fun j hj => Or.inl hj) (fun j hj => p3.other _ (hS' j hj)) (p3.other _ (by omega))
        · refine s2.mono (fun j hj => ?_) (fun j hj => ?_) ?_
          · rcases hj with hj | hj
            · exact Or.inl hj
            · right; omega
          · refine p3.other _ ?_
            rcases hj with hj | hj
            · exact hS' j hj
            · omega
          · exact p3.other _ (by omega)
        · show na.dat * nb.dat = P _ l r
          rw [P_append _ (show l ≤ m by omega) (show m ≤ r by omega), da, db, oka.dat, ok2.dat]
        · rw [← hm]
          exact oka
        · rw [← hm]
          exact ok2

/-! ### Queries -/

/-- The part of a range in a node is the part in the left child and the part in the right one. -/
theorem P_clip (A : Nat → T) {tl tm tr : Nat} (h1 : tl ≤ tm) (h2 : tm ≤ tr) (ql qr : Nat) :
    P A (max tl ql) (min tr qr) = P A (max tl ql) (min tm qr) * P A (max tm ql) (min tr qr) := by
  by_cases c1 : tm ≤ ql
  · rw [P_empty A (show min tm qr ≤ max tl ql by omega), one_mul, show max tm ql = max tl ql by omega]
  · by_cases c2 : qr ≤ tm
    · rw [P_empty A (show min tr qr ≤ max tm ql by omega), mul_one, show min tm qr = min tr qr by omega]
    · rw [show min tm qr = tm by omega, show max tm ql = tm by omega]
      exact P_append A (by omega) (by omega)

theorem prodRec_eq (hd : ∀ (φ : F) (a b : T), φ • (a * b) = φ • a * φ • b) {lf : Option Nat → Prop} {h : Heap T F} {S : Nat → Prop} (ql qr : Nat) (A : Nat → T) {t : PT T F} :
    ∀ {k p : Nat} {v : Nat → T} {tl tr : Nat} {f : F}, tr - tl ≤ k → Shallow h S p t → Ok (lazySem T F lf) t v tl tr → (∀ i, tl ≤ i → i < tr → A i = f • v i) →
      prodRec (prm T F) h ql qr k (some p) tl tr f = .ok (P A (max tl ql) (min tr qr)) := by
  induction t with
  | leaf c0 c1 d g =>
    intro k p v tl tr f hk hs ho hA
    obtain ⟨k, rfl⟩ : ∃ k', k = k' + 1 := ⟨k - 1, by have := ho.lt; omega⟩
    unfold prodRec
    have hsx : h.nodes[p]? = some ⟨c0, c1, d, g⟩ := hs
    obtain ⟨rfl, h2, h3⟩ := ho
    by_cases c1 : ((tl + 1 : Nat) : Int) ≤ ql ∨ (qr : Int) ≤ tl
    · rw [if_pos c1, P_empty A (by omega)]
      rfl
    · rw [if_neg c1, if_pos (by omega), load_eq hsx, ok_bind, show max tl ql = tl by omega, show min (tl + 1) qr = tl + 1 by omega, P_one, hA tl (le_refl _) (by omega), h3]
      rfl
  | node d g a b iha ihb =>
    intro k p v tl tr f hk hs ho hA
    obtain ⟨k, rfl⟩ : ∃ k', k = k' + 1 := ⟨k - 1, by have := ho.lt; omega⟩
    unfold prodRec
    obtain ⟨pa, pb, e, ⟨ha, sa⟩, hb, sb⟩ := hs
    have hdat := ho.dat
    obtain ⟨o1, o2, w, ow, oa, ob⟩ := ho
    by_cases c1 : (tr : Int) ≤ ql ∨ (qr : Int) ≤ tl
    · rw [if_pos c1, P_empty A (by omega)]
      rfl
    · rw [if_neg c1]
      by_cases c2 : (ql : Int) ≤ tl ∧ (tr : Int) ≤ qr
      · rw [if_pos c2, load_eq e, ok_bind, show max tl ql = tl by omega, show min tr qr = tr by omega, P_congr hA, P_smul hd f v (by omega), ← hdat]
        rfl
      · rw [if_neg c2]
        dsimp only
        rw [load_eq e, ok_bind]
        dsimp only
        have hA' : ∀ i, tl ≤ i → i < tr → A i = ((prm T F).composition f g) • w i := by
          intro i h1 h2
          show A i = (f * g) • w i
          rw [hA i h1 h2, ow i h1 h2, mul_smul]
          rfl
        rw [iha (by omega) sa oa (fun i h1 h2 => hA' i h1 (by omega)), ok_bind, ihb (by omega) sb ob (fun i h1 h2 => hA' i (by omega) h2), ok_bind,
          P_clip A (show tl ≤ (tl + tr) / 2 by omega) (show (tl + tr) / 2 ≤ tr by omega)]
        rfl

theorem get_tot {lf : Option Nat → Prop} {h : Heap T F} {S : Nat → Prop} {p : Nat} {t : PT T F} {v : Nat → T} {n : Nat} (hs : Shallow h S p t) (ho : Ok (lazySem T F lf) t v 0 n) {i : Nat} (hi : i < n) :
    Tot (loop (getStep (prm T F) h i) n (some p, 0, n, (prm T F).id)) fun s => ∃ x, load h s.1 = .ok x ∧ (prm T F).mapping s.2.2.2 x.dat = v i := by
  refine Tot.loop (P := fun (s : Option Nat × Nat × Nat × F) => ∃ q t w, s.1 = some q ∧ Shallow h S q t ∧ Ok (lazySem T F lf) t w s.2.1 s.2.2.1 ∧ s.2.1 ≤ i ∧ i < s.2.2.1 ∧ s.2.2.2 • w i = v i)
    (Q := fun (s : Option Nat × Nat × Nat × F) => ∃ x, load h s.1 = .ok x ∧ (prm T F).mapping s.2.2.2 x.dat = v i) (fun s => s.2.2.1 - s.2.1 - 1) ?_ ⟨p, t, v, rfl, hs, ho, Nat.zero_le _, hi, one_smul F _⟩ (by dsimp only; omega)
  rintro ⟨_, l, r, f⟩ ⟨q, t, w, rfl, hs, ho, h1, h2, h3⟩
  dsimp only at ho h1 h2 h3
  unfold getStep
  dsimp only
  cases t with
  | leaf c0 c1 d g =>
    have hsx : h.nodes[q]? = some ⟨c0, c1, d, g⟩ := hs
    obtain ⟨rfl, -, h5⟩ := ho
    rw [if_neg (by omega)]
    obtain rfl : i = l := by omega
    refine Tot.pure ⟨_, load_eq hsx, ?_⟩
    rw [← h3, h5]
    rfl
  | node d g a b =>
    obtain ⟨pa, pb, e, ⟨ha, sa⟩, hb, sb⟩ := hs
    obtain ⟨o1, o2, w', ow, oa, ob⟩ := ho
    rw [if_pos (by omega), load_eq e, ok_bind]
    have h6 : (f * g) • w' i = v i := by
      rw [← h3, ow i h1 h2, mul_smul]
      rfl
    by_cases c : i < (l + r) / 2
    · rw [if_pos c]
      exact Tot.pure ⟨⟨pa, a, w', rfl, sa, oa, h1, c, h6⟩, by dsimp only; omega⟩
    · rw [if_neg c]
      exact Tot.pure ⟨⟨pb, b, w', rfl, sb, ob, by dsimp only; omega, h2, h6⟩, by dsimp only; omega⟩

theorem maxRightRec_tot (hd : ∀ (φ : F) (a b : T), φ • (a * b) = φ • a * φ • b) {lf : Option Nat → Prop} {h : Heap T F} {S : Nat → Prop} (l : Nat) (pr : T → Bool) (A : Nat → T) {t : PT T F} :
    ∀ {k p : Nat} {v : Nat → T} {tl tr : Nat} {f : F}, tr - tl ≤ k → Shallow h S p t → Ok (lazySem T F lf) t v tl tr → (∀ i, tl ≤ i → i < tr → A i = f • v i) → pr (P A l tl) = true →
      Tot (maxRightRec (prm T F) h l pr k (some p) tl tr (P A l tl) f) fun s =>
        (s.1 = tr ∧ s.2 = P A l tr ∧ pr (P A l tr) = true) ∨ (s.1 < tr ∧ l ≤ s.1 ∧ tl ≤ s.1 ∧ pr (P A l s.1) = true ∧ pr (P A l (s.1 + 1)) = false) := by
  induction t with
  | leaf c0 c1 d g =>
    intro k p v tl tr f hk hs ho hA hpr
    obtain ⟨k, rfl⟩ : ∃ k', k = k' + 1 := ⟨k - 1, by have := ho.lt; omega⟩
    unfold maxRightRec
    have hsx : h.nodes[p]? = some ⟨c0, c1, d, g⟩ := hs
    obtain ⟨rfl, h2, h3⟩ := ho
    dsimp only
    by_cases c1 : tl + 1 ≤ l
    · rw [if_pos c1]
      refine Tot.pure (Or.inl ?_)
      have e1 : P A l tl = 1 := P_empty A (by omega)
      have e2 : P A l (tl + 1) = 1 := P_empty A (by omega)
      rw [e1] at hpr ⊢
      rw [e2]
      exact ⟨rfl, rfl, hpr⟩
    · rw [if_neg c1, if_pos (by omega), load_eq hsx, ok_bind]
      have e : (prm T F).op (P A l tl) ((prm T F).mapping f d) = P A l (tl + 1) := by
        rw [P_right A (by omega), hA tl (le_refl _) (by omega), h3]
        rfl
      dsimp only
      rw [e]
      by_cases c : pr (P A l (tl + 1)) = true
      · rw [if_pos c]
        exact Tot.pure (Or.inl ⟨rfl, rfl, c⟩)
      · rw [if_neg c, if_pos (by omega)]
        exact Tot.pure (Or.inr ⟨by dsimp only; omega, by dsimp only; omega, le_refl _, hpr, by simpa using c⟩)
  | node d g a b iha ihb =>
    intro k p v tl tr f hk hs ho hA hpr
    obtain ⟨k, rfl⟩ : ∃ k', k = k' + 1 := ⟨k - 1, by have := ho.lt; omega⟩
    unfold maxRightRec
    obtain ⟨pa, pb, e, ⟨ha, sa⟩, hb, sb⟩ := hs
    have hdat := ho.dat
    obtain ⟨o1, o2, w, ow, oa, ob⟩ := ho
    obtain ⟨tm, hm⟩ : ∃ tm, tm = (tl + tr) / 2 := ⟨_, rfl⟩
    rw [← hm] at oa ob
    dsimp only
    have hA' : ∀ i, tl ≤ i → i < tr → A i = ((prm T F).composition f g) • w i := by
      intro i h1 h2
      show A i = (f * g) • w i
      rw [hA i h1 h2, ow i h1 h2, mul_smul]
      rfl
    have hgo : tl < tr → l < tr → Tot (do
        let x ← load h (some p)
        let (resL, sum) ← maxRightRec (prm T F) h l pr k x.c0 tl ((tl + tr) / 2) (P A l tl) ((prm T F).composition f x.laz)
        if resL ≠ (tl + tr) / 2 then return (resL, sum)
        else maxRightRec (prm T F) h l pr k x.c1 ((tl + tr) / 2) tr sum ((prm T F).composition f x.laz) : M (Nat × T)) fun s =>
        (s.1 = tr ∧ s.2 = P A l tr ∧ pr (P A l tr) = true) ∨ (s.1 < tr ∧ l ≤ s.1 ∧ tl ≤ s.1 ∧ pr (P A l s.1) = true ∧ pr (P A l (s.1 + 1)) = false) := by
      intro _ _
      rw [← hm, load_eq e, ok_bind]
      dsimp only
      refine Tot.bind (iha (by omega) sa oa (fun i h1 h2 => hA' i h1 (by omega)) hpr) ?_
      rintro ⟨rl, sum⟩ hr
      dsimp only at hr ⊢
      rcases hr with ⟨rfl, rfl, hr⟩ | ⟨h1, h2, h3, h4, h5⟩
      · rw [if_neg (by simp)]
        refine (ihb (by omega) sb ob (fun i h1 h2 => hA' i (by omega) h2) hr).mono ?_
        rintro ⟨rr, sum⟩ hr
        dsimp only at hr ⊢
        rcases hr with hr | ⟨h1, h2, h3, h4, h5⟩
        · exact Or.inl hr
        · exact Or.inr ⟨h1, h2, by omega, h4, h5⟩
      · rw [if_pos (by omega)]
        exact Tot.pure (Or.inr ⟨by dsimp only; omega, h2, h3, h4, h5⟩)
    by_cases c1 : tr ≤ l
    · rw [if_pos c1]
      refine Tot.pure (Or.inl ?_)
      have e1 : P A l tl = 1 := P_empty A (by omega)
      have e2 : P A l tr = 1 := P_empty A (by omega)
      rw [e1] at hpr ⊢
      rw [e2]
      exact ⟨rfl, rfl, hpr⟩
    · rw [if_neg c1]
      by_cases c2 : l ≤ tl
      · rw [if_pos c2, load_eq e, ok_bind]
        dsimp only
        have hdat : d = P v tl tr := hdat
        have e2 : (prm T F).op (P A l tl) ((prm T F).mapping f d) = P A l tr := by
          rw [P_append A c2 (show tl ≤ tr by omega), P_congr hA, P_smul hd f v (by omega), ← hdat]
          rfl
        rw [e2]
        by_cases c : pr (P A l tr) = true
        · rw [if_pos c]
          exact Tot.pure (Or.inl ⟨rfl, rfl, c⟩)
        · rw [if_neg c, if_neg (by omega)]
          have := hgo (by omega) (by omega)
          rw [load_eq e, ok_bind] at this
          exact this
      · rw [if_neg c2]
        exact hgo (by omega) (by omega)

theorem minLeftRec_tot (hd : ∀ (φ : F) (a b : T), φ • (a * b) = φ • a * φ • b) {lf : Option Nat → Prop} {h : Heap T F} {S : Nat → Prop} (r : Nat) (pr : T → Bool) (A : Nat → T) {t : PT T F} :
    ∀ {k p : Nat} {v : Nat → T} {tl tr : Nat} {f : F}, tr - tl ≤ k → Shallow h S p t → Ok (lazySem T F lf) t v tl tr → (∀ i, tl ≤ i → i < tr → A i = f • v i) → pr (P A tr r) = true →
      Tot (minLeftRec (prm T F) h r pr k (some p) tl tr (P A tr r) f) fun s =>
        (s.1 = tl ∧ s.2 = P A tl r ∧ pr (P A tl r) = true) ∨ (tl < s.1 ∧ s.1 ≤ r ∧ s.1 ≤ tr ∧ pr (P A s.1 r) = true ∧ pr (P A (s.1 - 1) r) = false) := by
  induction t with
  | leaf c0 c1 d g =>
    intro k p v tl tr f hk hs ho hA hpr
    obtain ⟨k, rfl⟩ : ∃ k', k = k' + 1 := ⟨k - 1, by have := ho.lt; omega⟩
    unfold minLeftRec
    have hsx : h.nodes[p]? = some ⟨c0, c1, d, g⟩ := hs
    obtain ⟨rfl, h2, h3⟩ := ho
    dsimp only
    by_cases c1 : r ≤ tl
    · rw [if_pos c1]
      refine Tot.pure (Or.inl ?_)
      have e1 : P A (tl + 1) r = 1 := P_empty A (by omega)
      have e2 : P A tl r = 1 := P_empty A (by omega)
      rw [e1] at hpr ⊢
      rw [e2]
      exact ⟨rfl, rfl, hpr⟩
    · rw [if_neg c1, if_pos (by omega), load_eq hsx, ok_bind]
      have e : (prm T F).op ((prm T F).mapping f d) (P A (tl + 1) r) = P A tl r := by
        rw [P_left A (show tl < r by omega), hA tl (le_refl _) (by omega), h3]
        rfl
      dsimp only
      rw [e]
      by_cases c : pr (P A tl r) = true
      · rw [if_pos c]
        exact Tot.pure (Or.inl ⟨rfl, rfl, c⟩)
      · rw [if_neg c, if_pos (by omega)]
        exact Tot.pure (Or.inr ⟨by dsimp only; omega, by dsimp only; omega, le_refl _, hpr, by simpa using c⟩)
  | node d g a b iha ihb =>
    intro k p v tl tr f hk hs ho hA hpr
    obtain ⟨k, rfl⟩ : ∃ k', k = k' + 1 := ⟨k - 1, by have := ho.lt; omega⟩
    unfold minLeftRec
    obtain ⟨pa, pb, e, ⟨ha, sa⟩, hb, sb⟩ := hs
    have hdat := ho.dat
    obtain ⟨o1, o2, w, ow, oa, ob⟩ := ho
    obtain ⟨tm, hm⟩ : ∃ tm, tm = (tl + tr) / 2 := ⟨_, rfl⟩
    rw [← hm] at oa ob
    dsimp only
    have hA' : ∀ i, tl ≤ i → i < tr → A i = ((prm T F).composition f g) • w i := by
      intro i h1 h2
      show A i = (f * g) • w i
      rw [hA i h1 h2, ow i h1 h2, mul_smul]
      rfl
    have hgo : tl < tr → tl < r → Tot (do
        let x ← load h (some p)
        let (resR, sum) ← minLeftRec (prm T F) h r pr k x.c1 ((tl + tr) / 2) tr (P A tr r) ((prm T F).composition f x.laz)
        if resR ≠ (tl + tr) / 2 then return (resR, sum)
        else minLeftRec (prm T F) h r pr k x.c0 tl ((tl + tr) / 2) sum ((prm T F).composition f x.laz) : M (Nat × T)) fun s =>
        (s.1 = tl ∧ s.2 = P A tl r ∧ pr (P A tl r) = true) ∨ (tl < s.1 ∧ s.1 ≤ r ∧ s.1 ≤ tr ∧ pr (P A s.1 r) = true ∧ pr (P A (s.1 - 1) r) = false) := by
      intro _ _
      rw [← hm, load_eq e, ok_bind]
      dsimp only
      refine Tot.bind (ihb (by omega) sb ob (fun i h1 h2 => hA' i (by omega) h2) hpr) ?_
      rintro ⟨rl, sum⟩ hr
      dsimp only at hr ⊢
      rcases hr with ⟨rfl, rfl, hr⟩ | ⟨h1, h2, h3, h4, h5⟩
      · rw [if_neg (by simp)]
        refine (iha (by omega) sa oa (fun i h1 h2 => hA' i h1 (by omega)) hr).mono ?_
        rintro ⟨rr, sum⟩ hr
        dsimp only at hr ⊢
        rcases hr with hr | ⟨h1, h2, h3, h4, h5⟩
        · exact Or.inl hr
        · exact Or.inr ⟨h1, h2, by omega, h4, h5⟩
      · rw [if_pos (by omega)]
        exact Tot.pure (Or.inr ⟨by dsimp only; omega, h2, h3, h4, h5⟩)
    by_cases c1 : r ≤ tl
    · rw [if_pos c1]
      refine Tot.pure (Or.inl ?_)
      have e1 : P A tr r = 1 := P_empty A (by omega)
      have e2 : P A tl r = 1 := P_empty A (by omega)
      rw [e1] at hpr ⊢
      rw [e2]
      exact ⟨rfl, rfl, hpr⟩
    · rw [if_neg c1]
      by_cases c2 : tr ≤ r
      · rw [if_pos c2, load_eq e, ok_bind]
        dsimp only
        have hdat : d = P v tl tr := hdat
        have e2 : (prm T F).op ((prm T F).mapping f d) (P A tr r) = P A tl r := by
          rw [P_append A (show tl ≤ tr by omega) c2, P_congr hA, P_smul hd f v (by omega), ← hdat]
          rfl
        rw [e2]
        by_cases c : pr (P A tl r) = true
        · rw [if_pos c]
          exact Tot.pure (Or.inl ⟨rfl, rfl, c⟩)
        · rw [if_neg c, if_neg (by omega)]
          have := hgo (by omega) (by omega)
          rw [load_eq e, ok_bind] at this
          exact this
      · rw [if_neg c2]
        exact hgo (by omega) (by omega)

end PersistentLazySegmentTree
