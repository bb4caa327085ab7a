import Verif.Proof.PersistentSeg

/-! # Histories of persistent trees -/

namespace PTree
open Cxx SegTree

variable {T F X Op : Type}

/-- The object is the version; `em`: an empty object may have a root. -/
def Rep (S : Sem T F X) (em : Prop) (h : Heap T F) (o : Obj) (a : Ver X) : Prop :=
  o.n = a.1 ∧ a.1 ≤ h.nodes.size + 1 ∧
    ((a.1 = 0 ∧ (o.root = none ∨ (em ∧ ∃ p x, o.root = some p ∧ p < h.top ∧ h.nodes[p]? = some x))) ∨
      ∃ p t, o.root = some p ∧ p < h.top ∧ Shallow h (· < h.top) p t ∧ Ok S t a.2 0 a.1)

theorem Rep.mono {S : Sem T F X} {em : Prop} {h h' : Heap T F} {o : Obj} {a : Ver X} (hf : Fr (fun i => h.top ≤ i ∧ i < h'.top) h h') (hr : Rep S em h o a) : Rep S em h' o a := by
  have ht := hf.top
  obtain ⟨h1, h2, h3⟩ := hr
  refine ⟨h1, by rw [hf.size]; exact h2, ?_⟩
  rcases h3 with ⟨z, c | ⟨e, p, x, c1, c2, c3⟩⟩ | ⟨p, t, c1, c2, c3, c4⟩
  · exact Or.inl ⟨z, Or.inl c⟩
  · exact Or.inl ⟨z, Or.inr ⟨e, p, x, c1, by omega, by rw [hf.same _ (by omega), c3]⟩⟩
  · exact Or.inr ⟨p, t, c1, by omega, c3.mono (fun i hi => by omega) (fun i hi => hf.same _ (by omega)) (hf.same _ (by omega)), c4⟩

/-- The pool and the objects are those of the versions. -/
structure Sim (S : Sem T F X) (em : Prop) (h : Heap T F) (objs : List Obj) (vs : List (Ver X)) : Prop where
  len : objs.length = vs.length
  top : h.top ≤ h.nodes.size
  fresh : ∀ i x, h.top ≤ i → h.nodes[i]? = some x → S.lf x.c0
  rep : ∀ (k : Nat) (o : Obj) (a : Ver X), objs[k]? = some o → vs[k]? = some a → Rep S em h o a

/-- What a call does. -/
def Made (S : Sem T F X) (em : Prop) (h : Heap T F) (c : Nat) (a : Ver X) (r : Heap T F × Obj) : Prop :=
  Fr (fun i => h.top ≤ i ∧ i < r.1.top) h r.1 ∧ r.1.top ≤ h.top + c ∧ Rep S em r.1 r.2 a

theorem Sim.add {S : Sem T F X} {em : Prop} {h h' : Heap T F} {objs : List Obj} {vs : List (Ver X)} (hs : Sim S em h objs vs) {c : Nat} {a : Ver X} {o : Obj} (hm : Made S em h c a (h', o)) (hc : h.top + c ≤ h.nodes.size) :
    Sim S em h' (objs ++ [o]) (vs ++ [a]) := by
  obtain ⟨f, t, r⟩ := hm
  dsimp only at f t r
  have g := f.top
  refine ⟨by simp [hs.len], by rw [f.size]; omega, fun i x hi hx => hs.fresh i x (by omega) (by rw [← f.same _ (by omega), hx]), ?_⟩
  intro k o' a' ho ha
  by_cases c : k < objs.length
  · rw [List.getElem?_append_left c] at ho
    rw [List.getElem?_append_left (by rw [← hs.len]; exact c)] at ha
    exact (hs.rep k o' a' ho ha).mono f
  · rw [List.getElem?_append_right (by omega)] at ho
    rw [List.getElem?_append_right (by rw [← hs.len]; omega), ← hs.len] at ha
    have : k - objs.length = 0 := by
      by_contra hne
      rw [List.getElem?_eq_none (by simp; omega)] at ho
      cases ho
    rw [this] at ho ha
    cases ho
    cases ha
    exact r

theorem Sim.get {S : Sem T F X} [One X] {em : Prop} {h : Heap T F} {objs : List Obj} {vs : List (Ver X)} (hs : Sim S em h objs vs) {v : Nat} (hv : v < vs.length) : Rep S em h (objs.getD v dflt) (ver vs v) := by
  have hv' : v < objs.length := by rw [hs.len]; exact hv
  refine hs.rep v _ _ ?_ ?_
  · rw [List.getD_eq_getElem?_getD, List.getElem?_eq_getElem hv']
    rfl
  · unfold ver
    rw [List.getD_eq_getElem?_getD, List.getElem?_eq_getElem hv]
    rfl

theorem hist_tot {S : Sem T F X} {em : Prop} {C : Calls X Op} {body : Heap T F × List Obj → Op → M (Heap T F × Obj)} {step : Heap T F × List Obj → Op → M (Heap T F × List Obj)}
    (hst : ∀ s o, step s o = (body s o >>= fun r => pure (r.1, s.2 ++ [r.2])))
    (hb : ∀ h objs vs o, Sim S em h objs vs → C.ok vs o → h.top + C.need vs o ≤ h.nodes.size → Tot (body (h, objs) o) (Made S em h (C.need vs o) (C.make vs o))) :
    ∀ (ops : List Op) (h : Heap T F) (objs : List Obj) (vs : List (Ver X)) (u : Nat), Sim S em h objs vs → h.top ≤ u → ValidFrom C h.nodes.size vs u ops →
      Tot (ops.foldlM step (h, objs)) fun r => Sim S em r.1 r.2 (ops.foldl (fun vs o => vs ++ [C.make vs o]) vs) ∧ r.2.length = objs.length + ops.length := by
  intro ops
  induction ops with
  | nil =>
    intro h objs vs u hs _ _
    exact Tot.pure ⟨hs, rfl⟩
  | cons o ops ih =>
    intro h objs vs u hs hu hv
    obtain ⟨v1, v2, v3⟩ := hv
    rw [List.foldlM_cons, List.foldl_cons, hst, bind_assoc]
    refine Tot.bind (hb h objs vs o hs v1 (by omega)) ?_
    rintro ⟨h', ob⟩ hm
    rw [pure_bind]
    have f := hm.1
    have t := hm.2.1
    dsimp only at f t ⊢
    rw [← f.size] at v3
    refine (ih h' _ _ _ (hs.add hm (by omega)) (by omega) v3).mono ?_
    rintro r ⟨r1, r2⟩
    refine ⟨r1, ?_⟩
    rw [r2, List.length_append, List.length_cons]
    simp only [List.length_cons, List.length_nil]
    omega

theorem sim_nil {S : Sem T F X} {em : Prop} {h : Heap T F} (h0 : h.top = 0) (hf : ∀ (i : Nat) (x : Nd T F), h.nodes[i]? = some x → S.lf x.c0) : Sim S em h [] [] :=
  ⟨rfl, by omega, fun i x _ hx => hf i x hx, fun k o a ho _ => by simp at ho⟩

theorem made_dflt {S : Sem T F X} {em : Prop} {h : Heap T F} {v : Nat → X} : Made S em h 0 (0, v) (h, dflt) :=
  ⟨Fr.refl _ _, le_refl _, rfl, Nat.zero_le _, Or.inl ⟨rfl, Or.inl rfl⟩⟩

section
variable [Monoid T] [Monoid F] [MulAction F T]

theorem ofVec_made (lz : Bool) (hlz : lz = true ∨ ∀ (f : F) (x : T), f • x = x) {lf : Option Nat → Prop} {em : Prop} {h : Heap T F} (dat : Array T) (hn : 0 < dat.size) (hc : h.top + (2 * dat.size - 1) ≤ h.nodes.size)
    (hf : ∀ i x, h.top ≤ i → h.nodes[i]? = some x → lf x.c0) {v : Nat → T} (hv : ∀ i, i < dat.size → v i = dat[i]?.getD 1) :
    Tot (ofVec (prm T F) lz h dat) (Made (lazySem T F lf) em h (2 * dat.size - 1) (dat.size, v)) := by
  unfold ofVec
  refine Tot.bind (buildRec_tot lz hlz dat dat.size _ 0 dat.size h (by omega) (by omega) hn (le_refl _) (by simpa using hc) hf) ?_
  rintro ⟨h1, r⟩ ⟨f1, t1, t, ⟨r1, r2⟩, s, o⟩
  dsimp only at f1 t1 r1 r2 s ⊢
  refine Tot.pure ⟨f1, by dsimp only; omega, rfl, ?_, Or.inr ⟨r, t, rfl, r2, s.mono (fun i hi => hi.2) (fun _ _ => rfl) rfl, ?_⟩⟩
  · have := f1.size
    dsimp only
    omega
  · exact Ok.congr (lazySem_congr lf) (fun i _ hi => (hv i hi).symm) o

theorem prodAll_eq {lf : Option Nat → Prop} {h : Heap T F} {o : Obj} {a : Ver T} (hr : Rep (lazySem T F lf) False h o a) : prodAll (prm T F) h o = .ok (P a.2 0 a.1) := by
  obtain ⟨-, -, ⟨z, c | ⟨⟨⟩, -⟩⟩ | ⟨p, t, c1, c2, c3, c4⟩⟩ := hr
  · unfold prodAll
    rw [c, z]
    rfl
  · unfold prodAll
    rw [c1]
    obtain ⟨x, hx, hd, -⟩ := c3.nd
    dsimp only
    rw [load_eq hx, ok_bind, hd, Ok.dat c4]
    rfl

end

end PTree

namespace PersistentLazySegmentTree
open Cxx PTree SegTree

variable {T F : Type} [Monoid T] [Monoid F] [MulAction F T]

theorem applyAll_made (hd : ∀ (φ : F) (a b : T), φ • (a * b) = φ • a * φ • b) {lf : Option Nat → Prop} {h : Heap T F} {o : Obj} {a : Ver T} (hr : Rep (lazySem T F lf) False h o a) (hc : h.top + 1 ≤ h.nodes.size) (f : F) :
    Tot (applyAll (prm T F) h o f) (Made (lazySem T F lf) False h 1 (a.1, fun i => f • a.2 i)) := by
  obtain ⟨m, z1⟩ := o
  obtain ⟨n, v⟩ := a
  obtain ⟨rfl : m = n, z2, ⟨z, c | ⟨⟨⟩, -⟩⟩ | ⟨p, t, c1, c2, c3, c4⟩⟩ := hr
  · dsimp only at c
    subst c
    exact Tot.pure ⟨Fr.refl _ _, Nat.le_succ _, rfl, z2, Or.inl ⟨z, Or.inl rfl⟩⟩
  · dsimp only at c1
    subst c1
    unfold applyAll
    refine Tot.bind (applyAllN_tot (prm T F) c3 (fun i h => h) (by omega) f) ?_
    rintro ⟨h1, q⟩ ⟨rfl, t1, f1, s1⟩
    dsimp only at t1 f1 s1 ⊢
    refine Tot.pure ⟨f1.weaken (fun i hi => by dsimp only; omega), by dsimp only; omega, rfl, ?_, Or.inr ⟨h.top, _, rfl, ?_, s1.mono (fun i hi => ?_) (fun _ _ => rfl) rfl, Ok.app hd c4 f⟩⟩
    · dsimp only
      rw [f1.size]
      exact z2
    · dsimp only; omega
    · dsimp only at hi ⊢; omega

theorem apply_made (hd : ∀ (φ : F) (a b : T), φ • (a * b) = φ • a * φ • b) {lf : Option Nat → Prop} {h : Heap T F} {o : Obj} {a : Ver T} (hr : Rep (lazySem T F lf) False h o a) (l r : Int) (f : F)
    (hc : h.top + (8 * Nat.clog 2 a.1 + 1) ≤ h.nodes.size) :
    Tot (apply (prm T F) h o l r f) (Made (lazySem T F lf) False h (8 * Nat.clog 2 a.1 + 1) (changeRange a l r (f • ·))) := by
  obtain ⟨m, z1⟩ := o
  obtain ⟨n, v⟩ := a
  obtain ⟨rfl : m = n, z2, ⟨z, c | ⟨⟨⟩, -⟩⟩ | ⟨p, t, c1, c2, c3, c4⟩⟩ := hr
  · dsimp only at c z
    subst c
    subst z
    have : apply (prm T F) h ⟨0, none⟩ l r f = .ok (h, ⟨0, none⟩) := by
      unfold apply applyRec
      dsimp only
      by_cases c1 : ((0 : Nat) : Int) ≤ l ∨ r ≤ ((0 : Nat) : Int)
      · rw [if_pos c1]
        rfl
      · rw [if_neg c1, if_pos (by omega)]
        rfl
    rw [this]
    exact Tot.pure ⟨Fr.refl _ _, Nat.le_add_right _ _, rfl, z2, Or.inl ⟨rfl, Or.inl rfl⟩⟩
  · dsimp only at c1
    subst c1
    unfold apply
    have hlt := c4.lt
    have hcost := cost_le (c := 3) (ql := l) (qr := r) (m + 1) hlt
    rw [Nat.sub_zero] at hcost
    dsimp only at hcost hc ⊢
    refine Tot.bind (applyRec_tot hd l r f (m + 1) h _ p t _ 0 m (by omega) c2 c3 (fun i h => h) c4 (by omega)) ?_
    rintro ⟨h1, _⟩ ⟨f1, t1, q, t', rfl, q1, s1, o1⟩
    dsimp only at f1 t1 q1 s1 ⊢
    have := f1.top
    refine Tot.pure ⟨f1, by dsimp only; omega, rfl, ?_, Or.inr ⟨q, t', rfl, ?_, s1.mono (fun i hi => ?_) (fun _ _ => rfl) rfl, o1⟩⟩
    · show m ≤ h1.nodes.size + 1
      rw [f1.size]
      exact z2
    · dsimp only; omega
    · dsimp only at hi ⊢; omega

theorem applyAt_made (hd : ∀ (φ : F) (a b : T), φ • (a * b) = φ • a * φ • b) {lf : Option Nat → Prop} {h : Heap T F} {o : Obj} {a : Ver T} (hr : Rep (lazySem T F lf) False h o a) {i : Int} (h0 : 0 ≤ i) (hi : i < a.1) (f : T → T)
    (hc : h.top + (2 * Nat.clog 2 a.1 + 1) ≤ h.nodes.size) :
    Tot (applyAt (prm T F) h o i f) (Made (lazySem T F lf) False h (2 * Nat.clog 2 a.1 + 1) (change a i f)) := by
  obtain ⟨m, z1⟩ := o
  obtain ⟨n, v⟩ := a
  obtain ⟨rfl : m = n, z2, ⟨z, -⟩ | ⟨p, t, c1, c2, c3, c4⟩⟩ := hr
  · dsimp only at z hi
    omega
  · dsimp only at c1 hi hc ⊢
    subst c1
    unfold applyAt
    rw [decide_eq_true (show 0 ≤ i ∧ i < (m : Int) from ⟨h0, hi⟩), check_true, ok_bind]
    obtain ⟨x, hx, -, -⟩ := c3.nd
    obtain ⟨⟨g1, q⟩, e1, n1⟩ := clone_tot hx (by omega)
    have q1 := n1.addr
    have f1 := n1.fr
    have t1 := n1.top
    have s1 := n1.self
    have y1 := n1.size
    dsimp only at q1 f1 t1 s1 y1
    subst q1
    have sh : Shallow g1 (· < h.top) h.top t := by
      have hsame : ∀ i, i < h.top → g1.nodes[i]? = h.nodes[i]? := fun i hi => f1.same _ (by omega)
      cases t with
      | leaf c0 c1 d g =>
        have e' : h.nodes[p]? = some ⟨c0, c1, d, g⟩ := c3
        rw [hx] at e'
        cases e'
        exact s1
      | node d g a1 a2 =>
        obtain ⟨pa', pb', e', ⟨ha', sa'⟩, hb', sb'⟩ := c3
        rw [hx] at e'
        cases e'
        exact ⟨pa', pb', s1, ⟨ha', sa'.mono (fun _ h => h) hsame (hsame _ ha')⟩, hb', sb'.mono (fun _ h => h) hsame (hsame _ hb')⟩
    obtain ⟨g2, t2, e2, f2, b2, s2, o2⟩ := walk_eq hd f i.toNat m g1 (· < h.top) h.top t _ 0 m [] (by omega) (by omega) (by omega) sh (fun j hj => by omega) c4 (Nat.zero_le _) (by omega) (by rw [Nat.sub_zero, y1]; omega)
    rw [Nat.sub_zero] at b2
    refine ⟨(g2, ⟨m, some h.top⟩), ?_, ?_⟩
    · rw [e1]
      simp only [ok_bind]
      rw [← bind_assoc, e2]
      rfl
    · have := f2.top
      refine ⟨(f1.trans f2).weaken (fun j hj => by dsimp only; omega), by dsimp only; omega, rfl, ?_, Or.inr ⟨h.top, t2, rfl, ?_, s2.mono (fun i hi => ?_) (fun _ _ => rfl) rfl, o2⟩⟩
      · show m ≤ g2.nodes.size + 1
        rw [f2.size, y1]
        exact z2
      · dsimp only; omega
      · dsimp only at hi ⊢; omega

theorem get_eq {lf : Option Nat → Prop} {h : Heap T F} {o : Obj} {a : Ver T} (hr : Rep (lazySem T F lf) False h o a) {i : Int} (h0 : 0 ≤ i) (hi : i < a.1) : get (prm T F) h o i = .ok (a.2 i.toNat) := by
  obtain ⟨m, z1⟩ := o
  obtain ⟨n, v⟩ := a
  obtain ⟨rfl : m = n, z2, ⟨z, -⟩ | ⟨p, t, c1, c2, c3, c4⟩⟩ := hr
  · dsimp only at z hi
    omega
  · dsimp only at c1 hi ⊢
    subst c1
    unfold get
    rw [decide_eq_true (show 0 ≤ i ∧ i < (m : Int) from ⟨h0, hi⟩), check_true, ok_bind]
    obtain ⟨s, e, x, hx, hv⟩ := get_tot c3 c4 (i := i.toNat) (by omega)
    dsimp only
    rw [e, ok_bind, hx, ok_bind, hv]
    rfl

theorem prod_eq (hd : ∀ (φ : F) (a b : T), φ • (a * b) = φ • a * φ • b) {lf : Option Nat → Prop} {h : Heap T F} {o : Obj} {a : Ver T} (hr : Rep (lazySem T F lf) False h o a) {l r : Nat} (h1 : l ≤ r) (h2 : r ≤ a.1) :
    prod (prm T F) h o l r = .ok (P a.2 l r) := by
  obtain ⟨m, z1⟩ := o
  obtain ⟨n, v⟩ := a
  obtain ⟨rfl : m = n, z2, ⟨z, c | ⟨⟨⟩, -⟩⟩ | ⟨p, t, c1, c2, c3, c4⟩⟩ := hr
  · dsimp only at z c h2 ⊢
    subst z
    subst c
    unfold prod
    rw [decide_eq_true (show 0 ≤ (l : Int) ∧ (l : Int) ≤ r ∧ (r : Int) ≤ (0 : Nat) by omega), check_true, ok_bind]
    unfold prodRec
    rw [if_pos (by dsimp only; omega), P_empty _ (by omega)]
    rfl
  · dsimp only at c1 h2 ⊢
    subst c1
    unfold prod
    rw [decide_eq_true (show 0 ≤ (l : Int) ∧ (l : Int) ≤ r ∧ (r : Int) ≤ m by omega), check_true, ok_bind]
    dsimp only at c4 ⊢
    have e := prodRec_eq hd l r v (k := m + 1) (by omega) c3 c4 (fun i _ _ => (one_smul F _).symm)
    rw [Nat.zero_max, Nat.min_eq_right h2] at e
    exact e

theorem maxRight_tot (hd : ∀ (φ : F) (a b : T), φ • (a * b) = φ • a * φ • b) {lf : Option Nat → Prop} {h : Heap T F} {o : Obj} {a : Ver T} (hr : Rep (lazySem T F lf) False h o a) {l : Nat} (h1 : l ≤ a.1) {g : T → Bool} (hg : g 1 = true) :
    Tot (maxRight (prm T F) h o l g) fun r => l ≤ r ∧ r ≤ a.1 ∧ g (P a.2 l r) = true ∧ (r < a.1 → g (P a.2 l (r + 1)) = false) := by
  obtain ⟨m, z1⟩ := o
  obtain ⟨n, v⟩ := a
  obtain ⟨rfl : m = n, z2, ⟨z, c | ⟨⟨⟩, -⟩⟩ | ⟨p, t, c1, c2, c3, c4⟩⟩ := hr
  · dsimp only at z c h1 ⊢
    subst z
    subst c
    unfold maxRight
    rw [decide_eq_true (show 0 ≤ (l : Int) ∧ (l : Int) ≤ (0 : Nat) by omega), check_true, ok_bind, show g (prm T F).e = true from hg, check_true, ok_bind]
    unfold maxRightRec
    dsimp only
    rw [if_pos (by omega)]
    obtain rfl : l = 0 := by omega
    exact Tot.pure ⟨by omega, le_refl _, by rw [P_empty _ (by omega)]; exact hg, fun h => by omega⟩
  · dsimp only at c1 h1 ⊢
    subst c1
    unfold maxRight
    rw [decide_eq_true (show 0 ≤ (l : Int) ∧ (l : Int) ≤ m by omega), check_true, ok_bind, show g (prm T F).e = true from hg, check_true, ok_bind]
    dsimp only
    have e := maxRightRec_tot hd l g v (k := m + 1) (f := (1 : F)) (by omega) c3 c4 (fun i _ _ => (one_smul F _).symm) (by rw [P_empty _ (by omega)]; exact hg)
    rw [P_empty _ (by omega)] at e
    refine Tot.bind e ?_
    rintro ⟨r, s⟩ hrs
    dsimp only at hrs
    rcases hrs with ⟨rfl, -, h3⟩ | ⟨h3, h4, -, h5, h6⟩
    · exact Tot.pure ⟨h1, le_refl _, h3, fun h => by omega⟩
    · exact Tot.pure ⟨h4, by omega, h5, fun _ => h6⟩

theorem minLeft_tot (hd : ∀ (φ : F) (a b : T), φ • (a * b) = φ • a * φ • b) {lf : Option Nat → Prop} {h : Heap T F} {o : Obj} {a : Ver T} (hr : Rep (lazySem T F lf) False h o a) {r : Nat} (h1 : r ≤ a.1) {g : T → Bool} (hg : g 1 = true) :
    Tot (minLeft (prm T F) h o r g) fun l => l ≤ r ∧ g (P a.2 l r) = true ∧ (0 < l → g (P a.2 (l - 1) r) = false) := by
  obtain ⟨m, z1⟩ := o
  obtain ⟨n, v⟩ := a
  obtain ⟨rfl : m = n, z2, ⟨z, c | ⟨⟨⟩, -⟩⟩ | ⟨p, t, c1, c2, c3, c4⟩⟩ := hr
  · dsimp only at z c h1 ⊢
    subst z
    subst c
    unfold minLeft
    rw [decide_eq_true (show 0 ≤ (r : Int) ∧ (r : Int) ≤ (0 : Nat) by omega), check_true, ok_bind, show g (prm T F).e = true from hg, check_true, ok_bind]
    unfold minLeftRec
    rw [if_pos (by omega)]
    exact Tot.pure ⟨by omega, by rw [P_empty _ (by omega)]; exact hg, fun h => by omega⟩
  · dsimp only at c1 h1 ⊢
    subst c1
    unfold minLeft
    rw [decide_eq_true (show 0 ≤ (r : Int) ∧ (r : Int) ≤ m by omega), check_true, ok_bind, show g (prm T F).e = true from hg, check_true, ok_bind]
    dsimp only
    have e := minLeftRec_tot hd r g v (k := m + 1) (f := (1 : F)) (by omega) c3 c4 (fun i _ _ => (one_smul F _).symm) (by rw [P_empty _ (by omega)]; exact hg)
    rw [P_empty _ (by omega)] at e
    refine Tot.bind e ?_
    rintro ⟨l, s⟩ hrs
    dsimp only at hrs
    rcases hrs with ⟨rfl, -, h3⟩ | ⟨h3, h4, -, h5, h6⟩
    · exact Tot.pure ⟨Nat.zero_le _, h3, fun h => by omega⟩
    · exact Tot.pure ⟨h4, h5, fun _ => h6⟩

/-- All versions of a history. -/
theorem run_tot (hd : ∀ (φ : F) (a b : T), φ • (a * b) = φ • a * φ • b) {h : Heap T F} (h0 : h.top = 0) {ops : List (Op T F)} (hv : Valid (calls T F) h.nodes.size ops) :
    Tot (run (prm T F) h ops) fun r => Sim (lazySem T F fun _ => True) False r.1 r.2 (versions (calls T F) ops) ∧ r.2.length = ops.length := by
  refine (hist_tot (step := step (prm T F)) (body := fun (s : Heap T F × List Obj) (o : Op T F) => (match o with
    | .dflt => return (s.1, dflt)
    | .ofVec dat => ofVec (prm T F) true s.1 dat
    | .ofSize n => ofSize (prm T F) true s.1 n
    | .applyAll v f => applyAll (prm T F) s.1 (s.2.getD v PTree.dflt) f
    | .apply v l r f => apply (prm T F) s.1 (s.2.getD v PTree.dflt) l r f
    | .applyAt v i f => applyAt (prm T F) s.1 (s.2.getD v PTree.dflt) i f
    | .set v i x => set (prm T F) s.1 (s.2.getD v PTree.dflt) i x : M (Heap T F × Obj))) (fun _ _ => rfl) ?_ ops h [] [] 0 (sim_nil h0 fun _ _ _ => trivial) (by omega) hv).mono (fun r hr => ⟨hr.1, by rw [hr.2]; exact Nat.zero_add _⟩)
  intro h objs vs o hs hok hc
  cases o with
  | dflt => exact Tot.pure made_dflt
  | ofVec dat => exact ofVec_made true (Or.inl rfl) dat hok hc (fun _ _ _ _ => trivial) (fun _ _ => rfl)
  | ofSize n =>
    have hok : 0 < n := hok
    have hc : h.top + (2 * n - 1) ≤ h.nodes.size := hc
    have := ofVec_made true (Or.inl rfl) (em := False) (Array.replicate n (prm T F).e) (by simpa using hok) (by simpa using hc) (fun _ _ _ _ => trivial) (lf := fun _ => True) (v := fun _ => (1 : T)) (F := F) (h := h) (fun i hi => by
      rw [Array.size_replicate] at hi
      simp [hi, prm])
    rw [Array.size_replicate] at this
    exact this
  | applyAll v f => exact applyAll_made hd (hs.get hok) hc f
  | apply v l r f => exact apply_made hd (hs.get hok) l r f hc
  | applyAt v i f => exact applyAt_made hd (hs.get hok.1) hok.2.1 hok.2.2 f hc
  | set v i x => exact applyAt_made hd (hs.get hok.1) hok.2.1 hok.2.2 (fun _ => x) hc

end PersistentLazySegmentTree

namespace PersistentSegmentTree
open Cxx PTree SegTree

variable {T : Type} [Monoid T]

theorem apply_made {lf : Option Nat → Prop} {h : Heap T Unit} {o : Obj} {a : Ver T} (hr : Rep (segSem T lf) False h o a) {i : Int} (h0 : 0 ≤ i) (hi : i < a.1) (f : T → T)
    (hc : h.top + (Nat.clog 2 a.1 + 1) ≤ h.nodes.size) :
    Tot (apply (segPrm T) h o i f) (Made (segSem T lf) False h (Nat.clog 2 a.1 + 1) (change a i f)) := by
  obtain ⟨m, z1⟩ := o
  obtain ⟨n, v⟩ := a
  obtain ⟨rfl : m = n, z2, ⟨z, -⟩ | ⟨p, t, c1, c2, c3, c4⟩⟩ := hr
  · dsimp only at z hi
    omega
  · dsimp only at c1 hi hc ⊢
    subst c1
    unfold apply
    rw [decide_eq_true (show 0 ≤ i ∧ i < (m : Int) from ⟨h0, hi⟩), check_true, ok_bind]
    obtain ⟨x, hx, -, -⟩ := c3.nd
    obtain ⟨⟨g1, q⟩, e1, n1⟩ := clone_tot hx (by omega)
    have q1 := n1.addr
    have f1 := n1.fr
    have t1 := n1.top
    have s1 := n1.self
    have y1 := n1.size
    dsimp only at q1 f1 t1 s1 y1
    subst q1
    have sh : Shallow g1 (· < h.top) h.top t := by
      have hsame : ∀ i, i < h.top → g1.nodes[i]? = h.nodes[i]? := fun i hi => f1.same _ (by omega)
      cases t with
      | leaf c0 c1 d g =>
        have e' : h.nodes[p]? = some ⟨c0, c1, d, g⟩ := c3
        rw [hx] at e'
        cases e'
        exact s1
      | node d g a1 a2 =>
        obtain ⟨pa', pb', e', ⟨ha', sa'⟩, hb', sb'⟩ := c3
        rw [hx] at e'
        cases e'
        exact ⟨pa', pb', s1, ⟨ha', sa'.mono (fun _ h => h) hsame (hsame _ ha')⟩, hb', sb'.mono (fun _ h => h) hsame (hsame _ hb')⟩
    obtain ⟨g2, t2, e2, f2, b2, s2, o2⟩ := walk_eq f i.toNat m g1 (· < h.top) h.top t _ 0 m [] (by omega) (by omega) (by omega) sh (fun j hj => by omega) c4 (Nat.zero_le _) (by omega) (by rw [Nat.sub_zero, y1]; omega)
    rw [Nat.sub_zero] at b2
    refine ⟨(g2, ⟨m, some h.top⟩), ?_, ?_⟩
    · rw [e1]
      simp only [ok_bind]
      rw [← bind_assoc, e2]
      rfl
    · have := f2.top
      refine ⟨(f1.trans f2).weaken (fun j hj => by dsimp only; omega), by dsimp only; omega, rfl, ?_, Or.inr ⟨h.top, t2, rfl, ?_, s2.mono (fun i hi => ?_) (fun _ _ => rfl) rfl, o2⟩⟩
      · show m ≤ g2.nodes.size + 1
        rw [f2.size, y1]
        exact z2
      · dsimp only; omega
      · dsimp only at hi ⊢; omega


/-- All versions of a history. -/
theorem run_tot {lf : Option Nat → Prop} {h : Heap T Unit} (h0 : h.top = 0) (hf : ∀ (i : Nat) (x : Nd T Unit), h.nodes[i]? = some x → lf x.c0) {ops : List (Op T)} (hv : Valid (calls T) h.nodes.size ops) :
    Tot (run (segPrm T) h ops) fun r => Sim (segSem T lf) False r.1 r.2 (versions (calls T) ops) ∧ r.2.length = ops.length := by
  letI := unitAct T
  refine (hist_tot (step := step (segPrm T)) (body := fun (s : Heap T Unit × List Obj) (o : Op T) => (match o with
    | .dflt => return (s.1, dflt)
    | .ofVec dat => ofVec (segPrm T) false s.1 dat
    | .ofSize n => ofSize (segPrm T) false s.1 n
    | .apply v i f => apply (segPrm T) s.1 (s.2.getD v PTree.dflt) i f
    | .set v i x => set (segPrm T) s.1 (s.2.getD v PTree.dflt) i x : M (Heap T Unit × Obj))) (fun _ _ => rfl) ?_ ops h [] [] 0 (sim_nil h0 hf) (by omega) hv).mono (fun r hr => ⟨hr.1, by rw [hr.2]; exact Nat.zero_add _⟩)
  intro h objs vs o hs hok hc
  cases o with
  | dflt => exact Tot.pure made_dflt
  | ofVec dat => exact ofVec_made (F := Unit) false (Or.inr fun _ _ => rfl) dat hok hc hs.fresh (fun _ _ => rfl)
  | ofSize n =>
    have hok : 0 < n := hok
    have hc : h.top + (2 * n - 1) ≤ h.nodes.size := hc
    have := ofVec_made (F := Unit) false (Or.inr fun _ _ => rfl) (em := False) (Array.replicate n (segPrm T).e) (by simpa using hok) (by simpa using hc) hs.fresh (v := fun _ => (1 : T)) (fun i hi => by
      rw [Array.size_replicate] at hi
      simp [hi, segPrm])
    rw [Array.size_replicate] at this
    exact this
  | apply v i f => exact apply_made (hs.get hok.1) hok.2.1 hok.2.2 f hc
  | set v i x => exact apply_made (hs.get hok.1) hok.2.1 hok.2.2 (fun _ => x) hc

end PersistentSegmentTree
