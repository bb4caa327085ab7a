import Verif.Proof.PersistentHist

/-! # Proofs for `persistent_dual_segment_tree.hpp` and `persistent_commutative_dual_segment_tree.hpp` -/

namespace PersistentDualSegmentTree
open Cxx PTree

variable {F : Type} [Monoid F]

/-- Elements of a tree with maps only. -/
def dualSem (F : Type) [Monoid F] : Sem Unit F F := ⟨fun _ => True, (· * ·), fun _ f => f, fun _ _ _ _ => True⟩

theorem dualSem_congr (d : Unit) (v v' : Nat → F) (l r : Nat) (_ : ∀ i, l ≤ i → i < r → v i = v' i) (hs : (dualSem F).ok d v l r) : (dualSem F).ok d v' l r := hs

theorem Ok_app {t : PT Unit F} {v : Nat → F} {l r : Nat} (h : Ok (dualSem F) t v l r) (f : F) : Ok (dualSem F) (t.app (dualPrm F) f) (fun i => f * v i) l r := by
  cases t with
  | leaf c0 c1 d g =>
    obtain ⟨h1, h2, h3⟩ := h
    refine ⟨h1, h2, ?_⟩
    show f * v l = _
    rw [h3]
    rfl
  | node d g a b =>
    obtain ⟨h1, h2, w, hw, ha, hb⟩ := h
    refine ⟨h1, h2, w, fun i i1 i2 => ?_, ha, hb⟩
    show f * v i = f * g * w i
    rw [hw i i1 i2, mul_assoc]
    rfl

theorem buildRec_tot :
    ∀ (n k l r : Nat) (h : Heap Unit F), r - l ≤ n → r - l ≤ k → l < r → h.top + (2 * (r - l) - 1) ≤ h.nodes.size →
      Tot (buildRec (dualPrm F) k h l r) fun p => Fr (fun i => h.top ≤ i ∧ i < p.1.top) h p.1 ∧ p.1.top = h.top + (2 * (r - l) - 1) ∧
        ∃ t, (h.top ≤ p.2 ∧ p.2 < p.1.top) ∧ Shallow p.1 (fun i => h.top ≤ i ∧ i < p.1.top) p.2 t ∧ Ok (dualSem F) t (fun _ => 1) l r := by
  intro n
  induction n with
  | zero => intros; omega
  | succ n ih =>
    intro k l r h hn hk hlr hc
    obtain ⟨k, rfl⟩ : ∃ k', k = k' + 1 := ⟨k - 1, by omega⟩
    unfold buildRec
    refine Tot.bind (alloc_tot (h := h) (by omega)) ?_
    rintro ⟨h0, res⟩ ⟨x, hx, n1⟩
    have e1 := n1.addr
    dsimp only at e1 ⊢
    subst e1
    have f0 := n1.fr
    have t0 := n1.top
    have s0 := n1.self
    dsimp only at f0 t0 s0
    refine Tot.bind (setLaz_tot s0 _) ?_
    intro h1 p1
    have t1 := p1.top
    have s1 := p1.self
    have f1 := f0.trans p1.fr
    have z1 := f1.size
    by_cases c : r - l > 1
    · rw [if_pos c]
      obtain ⟨m, hm⟩ : ∃ m, m = (l + r) / 2 := ⟨_, rfl⟩
      rw [← hm]
      refine Tot.bind (ih k l m h1 (by omega) (by omega) (by omega) (by omega)) ?_
      rintro ⟨h2, pa⟩ ⟨f2, t2, ta, ha, sa, oa⟩
      dsimp only at f2 t2 ha sa ⊢
      have z2 := f2.size
      have s2 := (f2.same h.top (by omega)).trans s1
      refine Tot.bind (setC0_tot s2 _) ?_
      intro h3 p3
      have t3 := p3.top
      have z3 := p3.size
      refine Tot.bind (ih k m r h3 (by omega) (by omega) (by omega) (by omega)) ?_
      rintro ⟨h4, pb⟩ ⟨f4, t4, tb, hb, sb, ob⟩
      dsimp only at f4 t4 hb sb ⊢
      have s4 := (f4.same h.top (by omega)).trans p3.self
      refine Tot.bind (setC1_tot s4 _) ?_
      intro h7 p7
      have t7 := p7.top
      refine Tot.pure ⟨((f1.trans f2).trans (p3.fr.trans (f4.trans p7.fr))).weaken ?_, ?_, .node x.dat 1 ta tb, ⟨le_refl _, ?_⟩, ?_, ?_⟩
      · intro i hi
        dsimp only
        omega
      · dsimp only
        omega
      · dsimp only
        omega
      · refine ⟨pa, pb, p7.self, ⟨⟨?_, ?_⟩, ?_⟩, ⟨?_, ?_⟩, ?_⟩
        · omega
        · dsimp only
          omega
        · refine sa.mono (fun i hi => ?_) (fun i hi => ?_) ?_
          · dsimp only
            omega
          · dsimp only
            rw [p7.other _ (by omega), f4.same _ (by omega), p3.other _ (by omega)]
          · dsimp only
            rw [p7.other _ (by omega), f4.same _ (by omega), p3.other _ (by omega)]
        · omega
        · dsimp only
          omega
        · refine sb.mono (fun i hi => ?_) (fun i hi => ?_) ?_
          · dsimp only
            omega
          · dsimp only
            rw [p7.other _ (by omega)]
          · dsimp only
            rw [p7.other _ (by omega)]
      · refine ⟨by omega, trivial, _, fun i _ _ => (one_mul _).symm, ?_, ?_⟩
        · rw [← hm]
          exact oa
        · rw [← hm]
          exact ob
    · rw [if_neg c]
      obtain rfl : r = l + 1 := by omega
      refine Tot.pure ⟨f1.weaken ?_, ?_, .leaf x.c0 x.c1 x.dat 1, ⟨le_refl _, ?_⟩, p1.self, rfl, trivial, rfl⟩
      · intro i hi
        dsimp only
        omega
      · dsimp only
        omega
      · dsimp only
        omega

theorem applyAllN_tot {h : Heap Unit F} {S : Nat → Prop} {p : Nat} {t : PT Unit F} (hs : Shallow h S p t) (hS : ∀ i, S i → i < h.top) (hc : h.top < h.nodes.size) (f : F) :
    Tot (applyAllN (dualPrm F) h (some p) f) fun r => r.2 = some h.top ∧ r.1.top = h.top + 1 ∧ Fr (· = h.top) h r.1 ∧ Shallow r.1 S h.top (t.app (dualPrm F) f) := by
  unfold applyAllN
  dsimp only
  obtain ⟨x, hx, hxd, hxl⟩ := hs.nd
  refine Tot.bind (clone_tot hx hc) ?_
  rintro ⟨h1, q⟩ n1
  have e1 := n1.addr
  have f1 := n1.fr
  have t1 := n1.top
  have s1 := n1.self
  dsimp only at e1 f1 t1 s1 ⊢
  subst e1
  rw [load_eq s1, ok_bind]
  refine Tot.bind (setLaz_tot s1 _) ?_
  intro h3 p3
  have t3 := p3.top
  refine Tot.pure ⟨rfl, by dsimp only; omega, (f1.trans p3.fr).weaken (fun i hi => by omega), ?_⟩
  dsimp only
  have hsame : ∀ i, S i → h3.nodes[i]? = h.nodes[i]? := fun i hi => by
    have := hS i hi
    rw [p3.other _ (by omega), f1.same _ (by omega)]
  cases t with
  | leaf c0 c1 d g =>
    have e : h.nodes[p]? = some ⟨c0, c1, d, g⟩ := hs
    rw [hx] at e
    cases e
    exact p3.self
  | node d g a b =>
    obtain ⟨pa, pb, e, ⟨ha, sa⟩, hb, sb⟩ := hs
    rw [hx] at e
    cases e
    exact ⟨pa, pb, p3.self, ⟨ha, sa.mono (fun _ h => h) hsame (hsame _ ha)⟩, hb, sb.mono (fun _ h => h) hsame (hsame _ hb)⟩

/-- Number of new nodes at every node that is divided. -/
def cc (comm : Bool) : Nat := if comm then 1 else 3

/-- The copy of an inner node that `apply` works on. -/
theorem prep_tot (comm : Bool) {h : Heap Unit F} {S : Nat → Prop} {p : Nat} {d : Unit} {g : F} {a b : PT Unit F} {v : Nat → F} {l m r : Nat} (hs : Shallow h S p (.node d g a b)) (hS : ∀ i, S i → i < h.top)
    (hc : h.top + cc comm ≤ h.nodes.size) {w : Nat → F} (hw : ∀ i, l ≤ i → i < r → v i = g * w i) (oa : Ok (dualSem F) a w l m) (ob : Ok (dualSem F) b w m r) :
    Tot (if comm then do
          let (h, p) ← clone h (some p)
          return (h, some p)
        else push (dualPrm F) h (some p) : M (Heap Unit F × Option Nat)) fun x =>
      x.2 = some h.top ∧ x.1.top = h.top + cc comm ∧ Fr (fun i => h.top ≤ i ∧ i < x.1.top) h x.1 ∧
        ∃ pa pb g' a' b' w', x.1.nodes[h.top]? = some ⟨some pa, some pb, d, g'⟩ ∧ (g' = 1 ∨ comm = true) ∧ (∀ i, l ≤ i → i < r → v i = g' * w' i) ∧
          (S pa ∨ (h.top < pa ∧ pa < x.1.top)) ∧ (S pb ∨ (h.top < pb ∧ pb < x.1.top)) ∧ Shallow x.1 S pa a' ∧ Shallow x.1 S pb b' ∧ Ok (dualSem F) a' w' l m ∧ Ok (dualSem F) b' w' m r := by
  obtain ⟨pa, pb, e, ⟨ha, sa⟩, hb, sb⟩ := hs
  cases comm with
  | true =>
    have hc : h.top + 1 ≤ h.nodes.size := hc
    rw [if_pos rfl]
    refine Tot.bind (clone_tot e (by omega)) ?_
    rintro ⟨h1, q⟩ n1
    have e1 := n1.addr
    have f1 := n1.fr
    have t1 := n1.top
    have s1 := n1.self
    dsimp only at e1 f1 t1 s1 ⊢
    subst e1
    have hsame : ∀ i, S i → h1.nodes[i]? = h.nodes[i]? := fun i hi => f1.same _ (by have := hS i hi; omega)
    exact Tot.pure ⟨rfl, t1, f1.weaken (fun i hi => by dsimp only; omega), pa, pb, g, a, b, w, s1, Or.inr rfl, hw, Or.inl ha, Or.inl hb, sa.mono (fun _ h => h) hsame (hsame _ ha), sb.mono (fun _ h => h) hsame (hsame _ hb), oa, ob⟩
  | false =>
    have hc : h.top + 3 ≤ h.nodes.size := hc
    rw [if_neg (by simp)]
    unfold push
    rw [load_eq e, ok_bind]
    dsimp only
    rw [if_neg (by simp)]
    refine Tot.bind (clone_tot e (by omega)) ?_
    rintro ⟨h0, q⟩ n0
    have e0 := n0.addr
    have f0 := n0.fr
    have t0 := n0.top
    have s0 := n0.self
    have z0 := n0.size
    dsimp only at e0 f0 t0 s0 z0 ⊢
    subst e0
    rw [load_eq s0, ok_bind]
    dsimp only
    have hS0 : ∀ i, S i → i < h0.top := fun i hi => by have := hS i hi; omega
    have hsame : ∀ i, S i → h0.nodes[i]? = h.nodes[i]? := fun i hi => f0.same _ (by have := hS i hi; omega)
    refine Tot.bind (applyAllN_tot (sa.mono (fun _ h => h) hsame (hsame _ ha)) hS0 (by omega) g) ?_
    rintro ⟨h1, q⟩ ⟨rfl, t1, f1, s1⟩
    dsimp only at t1 f1 s1 ⊢
    have z1 := f1.size
    have e1 := (f1.same h.top (by omega)).trans s0
    refine Tot.bind (setC0_tot e1 _) ?_
    intro h2 p2
    dsimp only at p2
    have t2 := p2.top
    have z2 := p2.size
    rw [load_eq p2.self, ok_bind]
    dsimp only
    have hne : ∀ i, S i → i ≠ h.top := fun i hi => by have := hS i hi; omega
    have hs2 : ∀ i, S i → h2.nodes[i]? = h.nodes[i]? := fun i hi => by
      have := hS i hi
      rw [p2.other _ (hne i hi), f1.same _ (by omega), hsame i hi]
    refine Tot.bind (applyAllN_tot (sb.mono (fun _ h => h) hs2 (hs2 _ hb)) (fun i hi => by have := hS i hi; omega) (by omega) g) ?_
    rintro ⟨h3, q⟩ ⟨rfl, t3, f3, s3⟩
    dsimp only at t3 f3 s3 ⊢
    have e3 := (f3.same h.top (by omega)).trans p2.self
    refine Tot.bind (setC1_tot e3 _) ?_
    intro h4 p4
    refine Tot.bind (setLaz_tot p4.self _) ?_
    intro h5 p5
    have p5 := p4.trans p5
    dsimp only at p5
    have t5 := p5.top
    refine Tot.pure ⟨rfl, ?_, ((f0.trans f1).trans (p2.fr.trans (f3.trans p5.fr))).weaken (fun i hi => by dsimp only; omega), h0.top, h2.top, 1, _, _, _, p5.self, Or.inl rfl, (fun i h1 h2 => by rw [hw i h1 h2, one_mul]), Or.inr ?_, Or.inr ?_, ?_, ?_, Ok_app oa g, Ok_app ob g⟩
    · show h5.top = h.top + 3
      omega
    · dsimp only; omega
    · dsimp only; omega
    · refine s1.mono (fun _ h => h) (fun i hi => ?_) ?_
      · have := hS i hi
        rw [p5.other _ (hne i hi), f3.same _ (by omega), p2.other _ (hne i hi)]
      · rw [p5.other _ (by omega), f3.same _ (by omega), p2.other _ (by omega)]
    · refine s3.mono (fun _ h => h) (fun i hi => ?_) ?_
      · rw [p5.other _ (hne i hi)]
      · rw [p5.other _ (by omega)]

/-- What an update of a range makes of the elements. -/
def upd (ql qr : Int) (f : F) (v : Nat → F) (i : Nat) : F := if ql ≤ i ∧ (i : Int) < qr then f * v i else v i

theorem applyRec_tot (comm : Bool) (hcm : comm = true → ∀ a b : F, a * b = b * a) (ql qr : Int) (f : F) :
    ∀ (k : Nat) (h : Heap Unit F) (S : Nat → Prop) (p : Nat) (t : PT Unit F) (v : Nat → F) (tl tr : Nat), tr - tl ≤ k → S p → Shallow h S p t → (∀ i, S i → i < h.top) →
      Ok (dualSem F) t v tl tr → h.top + cost (cc comm) ql qr k tl tr ≤ h.nodes.size →
      Tot (applyRec (dualPrm F) comm ql qr f k h (some p) tl tr) fun r => Fr (fun i => h.top ≤ i ∧ i < r.1.top) h r.1 ∧ r.1.top ≤ h.top + cost (cc comm) ql qr k tl tr ∧
        ∃ q t', r.2 = some q ∧ (S q ∨ (h.top ≤ q ∧ q < r.1.top)) ∧ Shallow r.1 (fun i => S i ∨ (h.top ≤ i ∧ i < r.1.top)) q t' ∧ Ok (dualSem F) t' (upd ql qr f v) tl tr := by
  intro k
  induction k with
  | zero =>
    intro h S p t v tl tr hk _ _ _ ho
    have := ho.lt
    omega
  | succ k ih =>
    intro h S p t v tl tr hk hp hs hS ho hc
    have hlt := ho.lt
    unfold applyRec
    unfold cost at hc ⊢
    by_cases c1 : (tr : Int) ≤ ql ∨ qr ≤ tl
    · rw [if_pos c1] at hc ⊢
      rw [if_pos c1]
      refine Tot.pure ⟨Fr.refl _ h, by dsimp only; omega, p, t, rfl, Or.inl hp, hs.mono (fun i hi => Or.inl hi) (fun _ _ => rfl) rfl, ho.congr dualSem_congr fun i h1 h2 => ?_⟩
      unfold upd
      rw [if_neg (by omega)]
    rw [if_neg c1] at hc ⊢
    rw [if_neg c1]
    by_cases c2 : ql ≤ tl ∧ (tr : Int) ≤ qr
    · rw [if_pos c2] at hc ⊢
      rw [if_pos c2]
      refine (applyAllN_tot hs hS (by omega) f).mono ?_
      rintro ⟨h1, q⟩ ⟨rfl, t1, f1, s1⟩
      dsimp only at t1 f1 s1 ⊢
      refine ⟨f1.weaken (fun i hi => by omega), by omega, h.top, _, rfl, Or.inr (by omega), s1.mono (fun i hi => Or.inl hi) (fun _ _ => rfl) rfl, (Ok_app ho f).congr dualSem_congr fun i h1 h2 => ?_⟩
      unfold upd
      rw [if_pos (by omega)]
    rw [if_neg c2] at hc ⊢
    rw [if_neg c2]
    cases t with
    | leaf c0 c1' d g =>
      have := ho.1
      omega
    | node d g a b =>
      obtain ⟨o1, -, w0, ow0, oa0, ob0⟩ := ho
      have hcc : 1 ≤ cc comm := by cases comm <;> decide
      refine Tot.bind (prep_tot comm hs hS (by omega) ow0 oa0 ob0) ?_
      rintro ⟨h2, _⟩ ⟨rfl, t2, f2, pa, pb, g', a', b', w, e2, hg, ow, hpa, hpb, sa2, sb2, oa, ob⟩
      dsimp only at t2 f2 e2 hpa hpb sa2 sb2 ⊢
      have z2 := f2.size
      show Tot (Except.ok h.top >>= _) _
      rw [ok_bind, load_eq e2, ok_bind]
      dsimp only
      obtain ⟨tm, hm⟩ : ∃ tm, tm = (tl + tr) / 2 := ⟨_, rfl⟩
      rw [← hm] at oa ob hc ⊢
      -- the left child
      refine Tot.bind (ih h2 (fun i => S i ∨ i = pa) pa _ _ tl tm (by omega) (Or.inr rfl) (sa2.mono (fun i hi => Or.inl hi) (fun _ _ => rfl) rfl)
        (fun i hi => hi.elim (fun hi => by have := hS i hi; omega) (fun hi => by
          subst hi
          rcases hpa with hpa | hpa
          · have := hS _ hpa
            omega
          · omega)) oa (by omega)) ?_
      rintro ⟨h3, q3⟩ ⟨f3, t3, qa, ta, rfl, hqa, sa3, oa3⟩
      dsimp only at f3 t3 hqa sa3 ⊢
      have e3 := (f3.same h.top (by omega)).trans e2
      have z3 := f3.size
      have g3 := f3.top
      refine Tot.bind (setC0_tot e3 _) ?_
      intro h4 p4
      dsimp only at p4
      have t4 := p4.top
      have z4 := p4.size
      rw [load_eq p4.self, ok_bind]
      dsimp only
      have hS' : ∀ i, S i → i ≠ h.top := fun i hi => by have := hS i hi; omega
      have lpa : pa < h2.top ∧ pa ≠ h.top := by
        rcases hpa with hpa | hpa
        · have := hS _ hpa
          omega
        · omega
      have lpb : pb < h2.top ∧ pb ≠ h.top := by
        rcases hpb with hpb | hpb
        · have := hS _ hpb
          omega
        · omega
      -- the right child
      have sb4 : Shallow h4 S pb b' := by
        refine sb2.mono (fun _ h => h) (fun i hi => ?_) ?_
        · have := hS i hi
          rw [p4.other _ (by omega), f3.same _ (by omega)]
        · rw [p4.other _ lpb.2, f3.same _ (by omega)]
      refine Tot.bind (ih h4 (fun i => S i ∨ i = pb) pb _ _ tm tr (by omega) (Or.inr rfl) (sb4.mono (fun i hi => Or.inl hi) (fun _ _ => rfl) rfl)
        (fun i hi => hi.elim (fun hi => by have := hS i hi; omega) (fun hi => by omega)) ob (by omega)) ?_
      rintro ⟨h5, q5⟩ ⟨f5, t5, qb, tb, rfl, hqb, sb5, ob5⟩
      dsimp only at f5 t5 hqb sb5 ⊢
      have e5 := (f5.same h.top (by omega)).trans p4.self
      have g5 := f5.top
      refine Tot.bind (setC1_tot e5 _) ?_
      intro h6 p6
      dsimp only at p6
      have t6 := p6.top
      have ina : ∀ {i : Nat}, ((S i ∨ i = pa) ∨ (h2.top ≤ i ∧ i < h3.top)) → (S i ∨ (h.top ≤ i ∧ i < h6.top)) ∧ i ≠ h.top ∧ ¬ (h4.top ≤ i ∧ i < h5.top) := by
        rintro i ((hi | hi) | hi)
        · have := hS i hi
          exact ⟨Or.inl hi, by omega, by omega⟩
        · subst hi
          exact ⟨hpa.imp id (fun _ => by omega), lpa.2, by omega⟩
        · exact ⟨Or.inr (by omega), by omega, by omega⟩
      have inb : ∀ {i : Nat}, ((S i ∨ i = pb) ∨ (h4.top ≤ i ∧ i < h5.top)) → (S i ∨ (h.top ≤ i ∧ i < h6.top)) ∧ i ≠ h.top := by
        rintro i ((hi | hi) | hi)
        · have := hS i hi
          exact ⟨Or.inl hi, by omega⟩
        · subst hi
          exact ⟨hpb.imp id (fun _ => by omega), lpb.2⟩
        · exact ⟨Or.inr (by omega), by omega⟩
      have sa6 : Shallow h6 (fun i => S i ∨ (h.top ≤ i ∧ i < h6.top)) qa ta := by
        refine sa3.mono (fun i hi => (ina hi).1) (fun i hi => ?_) ?_
        · rw [p6.other _ (ina hi).2.1, f5.same _ (ina hi).2.2, p4.other _ (ina hi).2.1]
        · rw [p6.other _ (ina hqa).2.1, f5.same _ (ina hqa).2.2, p4.other _ (ina hqa).2.1]
      have sb6 : Shallow h6 (fun i => S i ∨ (h.top ≤ i ∧ i < h6.top)) qb tb :=
        sb5.mono (fun i hi => (inb hi).1) (fun i hi => p6.other _ (inb hi).2) (p6.other _ (inb hqb).2)
      refine Tot.pure ⟨((f2.trans f3).trans (p4.fr.trans (f5.trans p6.fr))).weaken (fun i hi => by dsimp only; omega), by dsimp only; omega, h.top, .node d g' ta tb, rfl, Or.inr (by dsimp only; omega),
        ⟨qa, qb, p6.self, ⟨(ina hqa).1, sa6⟩, (inb hqb).1, sb6⟩, o1, trivial, upd ql qr f w, fun i h1 h2 => ?_, ?_, ?_⟩
      · show upd ql qr f v i = g' * upd ql qr f w i
        unfold upd
        split
        · rw [ow i h1 h2]
          rcases hg with rfl | hg
          · rw [one_mul, one_mul]
          · rw [← mul_assoc, hcm hg f g', mul_assoc]
        · exact ow i h1 h2
      · rw [← hm]
        exact oa3
      · rw [← hm]
        exact ob5

theorem get_tot {h : Heap Unit F} {S : Nat → Prop} {p : Nat} {t : PT Unit F} {v : Nat → F} {n : Nat} (hs : Shallow h S p t) (ho : Ok (dualSem F) t v 0 n) {i : Nat} (hi : i < n) :
    Tot (loop (getStep (dualPrm F) h i) n (some p, 0, n, (dualPrm F).id)) fun s => ∃ x, load h s.1 = .ok x ∧ (dualPrm F).composition s.2.2.2 x.laz = v i := by
  refine Tot.loop (P := fun (s : Option Nat × Nat × Nat × F) => ∃ q t w, s.1 = some q ∧ Shallow h S q t ∧ Ok (dualSem F) t w s.2.1 s.2.2.1 ∧ s.2.1 ≤ i ∧ i < s.2.2.1 ∧ s.2.2.2 * w i = v i)
    (Q := fun (s : Option Nat × Nat × Nat × F) => ∃ x, load h s.1 = .ok x ∧ (dualPrm F).composition s.2.2.2 x.laz = v i) (fun s => s.2.2.1 - s.2.1 - 1) ?_ ⟨p, t, v, rfl, hs, ho, Nat.zero_le _, hi, one_mul _⟩ (by dsimp only; omega)
  rintro ⟨_, l, r, f⟩ ⟨q, t, w, rfl, hs, ho, h1, h2, h3⟩
  dsimp only at ho h1 h2 h3
  unfold getStep
  dsimp only
  cases t with
  | leaf c0 c1 d g =>
    have hsx : h.nodes[q]? = some ⟨c0, c1, d, g⟩ := hs
    obtain ⟨rfl, -, h5⟩ := ho
    rw [if_neg (by omega)]
    obtain rfl : i = l := by omega
    refine Tot.pure ⟨_, load_eq hsx, ?_⟩
    rw [← h3, h5]
    rfl
  | node d g a b =>
    obtain ⟨pa, pb, e, ⟨ha, sa⟩, hb, sb⟩ := hs
    obtain ⟨o1, o2, w', ow, oa, ob⟩ := ho
    rw [if_pos (by omega), load_eq e, ok_bind]
    have h6 : (f * g) * w' i = v i := by
      rw [← h3, ow i h1 h2, mul_assoc]
      rfl
    by_cases c : i < (l + r) / 2
    · rw [if_pos c]
      exact Tot.pure ⟨⟨pa, a, w', rfl, sa, oa, h1, c, h6⟩, by dsimp only; omega⟩
    · rw [if_neg c]
      exact Tot.pure ⟨⟨pb, b, w', rfl, sb, ob, by dsimp only; omega, h2, h6⟩, by dsimp only; omega⟩

theorem get_eq {h : Heap Unit F} {o : Obj} {a : Ver F} (hr : Rep (dualSem F) True h o a) {i : Int} (h0 : 0 ≤ i) (hi : i < a.1) : get (dualPrm F) h o i = .ok (a.2 i.toNat) := by
  obtain ⟨m, z1⟩ := o
  obtain ⟨n, v⟩ := a
  obtain ⟨rfl : m = n, z2, ⟨z, -⟩ | ⟨p, t, c1, c2, c3, c4⟩⟩ := hr
  · dsimp only at z hi
    omega
  · dsimp only at c1 hi ⊢
    subst c1
    unfold get
    rw [decide_eq_true (show 0 ≤ i ∧ i < (m : Int) from ⟨h0, hi⟩), check_true, ok_bind]
    obtain ⟨s, e, x, hx, hv⟩ := get_tot c3 c4 (i := i.toNat) (by omega)
    dsimp only
    rw [e, ok_bind, hx, ok_bind, hv]
    rfl

theorem ofSize_made {h : Heap Unit F} (n : Nat) (hc : h.top + (2 * n - 1 + (if n = 0 then 1 else 0)) ≤ h.nodes.size) :
    Tot (ofSize (dualPrm F) h n) (Made (dualSem F) True h (2 * n - 1 + (if n = 0 then 1 else 0)) (n, fun _ => 1)) := by
  unfold ofSize
  by_cases c : n = 0
  · subst c
    rw [if_pos rfl] at hc ⊢
    unfold buildRec
    rw [bind_assoc]
    refine Tot.bind (alloc_tot (h := h) (by omega)) ?_
    rintro ⟨h0, res⟩ ⟨x, hx, n1⟩
    have e1 := n1.addr
    dsimp only at e1 ⊢
    subst e1
    have f0 := n1.fr
    have t0 := n1.top
    have s0 := n1.self
    dsimp only at f0 t0 s0
    rw [bind_assoc]
    refine Tot.bind (setLaz_tot s0 _) ?_
    intro h1 p1
    rw [if_neg (by omega)]
    have t1 := p1.top
    exact Tot.pure ⟨(f0.trans p1.fr).weaken (fun i hi => by dsimp only; omega), by dsimp only; omega, rfl, Nat.zero_le _, Or.inl ⟨rfl, Or.inr ⟨trivial, h.top, _, rfl, by dsimp only; omega, p1.self⟩⟩⟩
  · rw [if_neg c] at hc ⊢
    refine Tot.bind (buildRec_tot n _ 0 n h (by omega) (by omega) (by omega) (by simpa using hc)) ?_
    rintro ⟨h1, r⟩ ⟨f1, t1, t, ⟨r1, r2⟩, s, o⟩
    dsimp only at f1 t1 r1 r2 s ⊢
    refine Tot.pure ⟨f1, by dsimp only; omega, rfl, ?_, Or.inr ⟨r, t, rfl, r2, s.mono (fun i hi => hi.2) (fun _ _ => rfl) rfl, o⟩⟩
    have := f1.size
    dsimp only
    omega

theorem clone_any {h : Heap Unit F} {p : Nat} {x : Nd Unit F} (hx : h.nodes[p]? = some x) (hc : h.top < h.nodes.size) (f : F) :
    Tot (applyAllN (dualPrm F) h (some p) f) fun r => r.2 = some h.top ∧ r.1.top = h.top + 1 ∧ Fr (· = h.top) h r.1 ∧ ∃ y, r.1.nodes[h.top]? = some y := by
  refine (applyAllN_tot (S := fun _ => False) (t := .leaf x.c0 x.c1 x.dat x.laz) hx (fun _ h => h.elim) hc f).mono ?_
  rintro r ⟨r1, r2, r3, r4⟩
  exact ⟨r1, r2, r3, _, r4⟩

theorem applyAll_made {h : Heap Unit F} {o : Obj} {a : Ver F} (hr : Rep (dualSem F) True h o a) (hc : h.top + 1 ≤ h.nodes.size) (f : F) :
    Tot (applyAll (dualPrm F) h o f) (Made (dualSem F) True h 1 (a.1, fun i => f * a.2 i)) := by
  obtain ⟨m, z1⟩ := o
  obtain ⟨n, v⟩ := a
  obtain ⟨rfl : m = n, z2, ⟨z, c | ⟨e, p, x, c1, c2, c3⟩⟩ | ⟨p, t, c1, c2, c3, c4⟩⟩ := hr
  · dsimp only at c
    subst c
    exact Tot.pure ⟨Fr.refl _ _, Nat.le_succ _, rfl, z2, Or.inl ⟨z, Or.inl rfl⟩⟩
  · dsimp only at c1 z
    subst c1
    subst z
    unfold applyAll
    refine Tot.bind (clone_any c3 (by omega) f) ?_
    rintro ⟨h1, q⟩ ⟨rfl, t1, f1, y, s1⟩
    dsimp only at t1 f1 s1 ⊢
    exact Tot.pure ⟨f1.weaken (fun i hi => by dsimp only; omega), by dsimp only; omega, rfl, Nat.zero_le _, Or.inl ⟨rfl, Or.inr ⟨trivial, h.top, y, rfl, by dsimp only; omega, s1⟩⟩⟩
  · dsimp only at c1
    subst c1
    unfold applyAll
    refine Tot.bind (applyAllN_tot c3 (fun i h => h) (by omega) f) ?_
    rintro ⟨h1, q⟩ ⟨rfl, t1, f1, s1⟩
    dsimp only at t1 f1 s1 ⊢
    refine Tot.pure ⟨f1.weaken (fun i hi => by dsimp only; omega), by dsimp only; omega, rfl, ?_, Or.inr ⟨h.top, _, rfl, ?_, s1.mono (fun i hi => ?_) (fun _ _ => rfl) rfl, Ok_app c4 f⟩⟩
    · dsimp only
      rw [f1.size]
      exact z2
    · dsimp only; omega
    · dsimp only at hi ⊢; omega

theorem apply_made (comm : Bool) (hcm : comm = true → ∀ a b : F, a * b = b * a) {h : Heap Unit F} {o : Obj} {a : Ver F} (hr : Rep (dualSem F) True h o a) (l r : Int) (f : F)
    (hc : h.top + ((if comm then 4 else 8) * Nat.clog 2 a.1 + 1) ≤ h.nodes.size) :
    Tot (apply (dualPrm F) comm h o l r f) (Made (dualSem F) True h ((if comm then 4 else 8) * Nat.clog 2 a.1 + 1) (changeRange a l r (f * ·))) := by
  obtain ⟨m, z1⟩ := o
  obtain ⟨n, v⟩ := a
  obtain ⟨rfl : m = n, z2, ⟨z, z3⟩ | ⟨p, t, c1, c2, c3, c4⟩⟩ := hr
  · dsimp only at z z3 hc ⊢
    subst z
    unfold apply applyRec
    dsimp only
    by_cases c1 : ((0 : Nat) : Int) ≤ l ∨ r ≤ ((0 : Nat) : Int)
    · rw [if_pos c1]
      exact Tot.pure ⟨Fr.refl _ _, Nat.le_add_right _ _, rfl, Nat.zero_le _, Or.inl ⟨rfl, z3⟩⟩
    · rw [if_neg c1, if_pos (by omega)]
      rcases z3 with rfl | ⟨-, p, x, rfl, c2, c3⟩
      · exact Tot.pure ⟨Fr.refl _ _, Nat.le_add_right _ _, rfl, Nat.zero_le _, Or.inl ⟨rfl, Or.inl rfl⟩⟩
      · refine Tot.bind (clone_any c3 (by omega) f) ?_
        rintro ⟨h1, q⟩ ⟨rfl, t1, f1, y, s1⟩
        dsimp only at t1 f1 s1 ⊢
        exact Tot.pure ⟨f1.weaken (fun i hi => by dsimp only; omega), by dsimp only; omega, rfl, Nat.zero_le _, Or.inl ⟨rfl, Or.inr ⟨trivial, h.top, y, rfl, by dsimp only; omega, s1⟩⟩⟩
  · dsimp only at c1
    subst c1
    unfold apply
    have hlt := c4.lt
    have hcost := cost_le (c := cc comm) (ql := l) (qr := r) (m + 1) hlt
    have h48 : 2 * (cc comm + 1) = if comm then 4 else 8 := by cases comm <;> rfl
    rw [Nat.sub_zero, h48] at hcost
    dsimp only at hcost hc ⊢
    refine Tot.bind (applyRec_tot comm hcm l r f (m + 1) h _ p t _ 0 m (by omega) c2 c3 (fun i h => h) c4 (by omega)) ?_
    rintro ⟨h1, _⟩ ⟨f1, t1, q, t', rfl, q1, s1, o1⟩
    dsimp only at f1 t1 q1 s1 ⊢
    have := f1.top
    refine Tot.pure ⟨f1, by dsimp only; omega, rfl, ?_, Or.inr ⟨q, t', rfl, ?_, s1.mono (fun i hi => ?_) (fun _ _ => rfl) rfl, o1⟩⟩
    · show m ≤ h1.nodes.size + 1
      rw [f1.size]
      exact z2
    · dsimp only; omega
    · dsimp only at hi ⊢; omega

/-- All versions of a history. -/
theorem run_tot (comm : Bool) (hcm : comm = true → ∀ a b : F, a * b = b * a) {h : Heap Unit F} (h0 : h.top = 0) {ops : List (Op F)} (hv : Valid (calls F comm) h.nodes.size ops) :
    Tot (run (dualPrm F) comm h ops) fun r => Sim (dualSem F) True r.1 r.2 (versions (calls F comm) ops) ∧ r.2.length = ops.length := by
  refine (hist_tot (step := step (dualPrm F) comm) (body := fun (s : Heap Unit F × List Obj) (o : Op F) => (match o with
    | .dflt => return (s.1, dflt)
    | .ofSize n => ofSize (dualPrm F) s.1 n
    | .applyAll v f => applyAll (dualPrm F) s.1 (s.2.getD v PTree.dflt) f
    | .apply v l r f => apply (dualPrm F) comm s.1 (s.2.getD v PTree.dflt) l r f : M (Heap Unit F × Obj))) (fun _ _ => rfl) ?_ ops h [] [] 0 (sim_nil h0 fun _ _ _ => trivial) (by omega) hv).mono (fun r hr => ⟨hr.1, by rw [hr.2]; exact Nat.zero_add _⟩)
  intro h objs vs o hs hok hc
  cases o with
  | dflt => exact Tot.pure made_dflt
  | ofSize n => exact ofSize_made n hc
  | applyAll v f => exact applyAll_made (hs.get hok) hc f
  | apply v l r f => exact apply_made comm hcm (hs.get hok) l r f hc

end PersistentDualSegmentTree
