import Verif.Model.RedBlackHeap

/-! # Persistent red-black trees: which nodes are written -/

namespace RedBlackHeap
open Cxx RedBlack

variable {T : Type}

/-- A pointer into `L`, or null. -/
def In (L : Nat → Prop) (p : Option Nat) : Prop := ∀ i, p = some i → L i

/-- `L` is closed under child pointers. -/
def Closed (L : Nat → Prop) (s : Pool T) : Prop := ∀ p x, L p → s.pool[p]? = some x → In L x.ch0 ∧ In L x.ch1

/-- No node of `L` is free, and no node is free twice. -/
def Free (L : Nat → Prop) (s : Pool T) : Prop := (∀ j p, s.it ≤ j → s.stock[j]? = some p → ¬ L p) ∧ ∀ j k p, s.it ≤ j → j < k → s.stock[j]? = some p → s.stock[k]? ≠ some p

/-- The nodes of `L` differ at most in their colours. -/
def Same (L : Nat → Prop) (s s' : Pool T) : Prop := ∀ p x, L p → s.pool[p]? = some x → ∃ x', s'.pool[p]? = some x' ∧ x'.ch0 = x.ch0 ∧ x'.ch1 = x.ch1 ∧ x'.val = x.val ∧ x'.siz = x.siz ∧ x'.lev = x.lev

theorem Same.refl (L : Nat → Prop) (s : Pool T) : Same L s s := fun _ x _ h => ⟨x, h, rfl, rfl, rfl, rfl, rfl⟩
theorem Same.trans {L : Nat → Prop} {s t u : Pool T} (h : Same L s t) (g : Same L t u) : Same L s u := by
  intro p x hp hx
  obtain ⟨y, hy, a1, a2, a3, a4, a5⟩ := h p x hp hx
  obtain ⟨z, hz, b1, b2, b3, b4, b5⟩ := g p y hp hy
  exact ⟨z, hz, b1.trans a1, b2.trans a2, b3.trans a3, b4.trans a4, b5.trans a5⟩

/-- `L0` are the nodes of earlier versions, unchanged since `s0`; `L` are the nodes in use. -/
structure G (L0 : Nat → Prop) (s0 : Pool T) (L : Nat → Prop) (s : Pool T) : Prop where
  sub : ∀ p, L0 p → L p
  closed : Closed L s
  free : Free L s
  same : Same L0 s0 s

/-- A computation keeps the old nodes; its result satisfies `Q` for a larger set of nodes in use. -/
def Keeps (L0 : Nat → Prop) (s0 : Pool T) (L : Nat → Prop) {α : Type} (m : H T α) (Q : (Nat → Prop) → α → Prop) : Prop :=
  ∀ s, G L0 s0 L s → ∀ a s', m s = .ok (a, s') → ∃ L', (∀ p, L p → L' p) ∧ G L0 s0 L' s' ∧ Q L' a

variable {L0 L : Nat → Prop} {s0 : Pool T}

theorem Keeps.bind {α β : Type} {m : H T α} {f : α → H T β} {R : (Nat → Prop) → α → Prop} {Q : (Nat → Prop) → β → Prop} (h : Keeps L0 s0 L m R)
    (hf : ∀ L' a, (∀ p, L p → L' p) → R L' a → Keeps L0 s0 L' (f a) Q) : Keeps L0 s0 L (m >>= f) Q := by
  intro s hg b s'' hb
  change (m s >>= fun p => f p.1 p.2) = _ at hb
  cases hm : m s with
  | error e => rw [hm] at hb; simp [bind, Except.bind] at hb
  | ok p =>
    obtain ⟨a, s'⟩ := p
    rw [hm, ok_bind] at hb
    obtain ⟨L', h1, g1, r1⟩ := h s hg a s' hm
    obtain ⟨L'', h2, g2, q2⟩ := hf L' a h1 r1 s' g1 b s'' hb
    exact ⟨L'', fun p hp => h2 p (h1 p hp), g2, q2⟩

theorem Keeps.pure {α : Type} {a : α} {Q : (Nat → Prop) → α → Prop} (h : Q L a) : Keeps L0 s0 L (pure a : H T α) Q := by
  intro s hg b s' hb
  change (Except.ok (a, s) : M (α × Pool T)) = _ at hb
  cases hb
  exact ⟨L, fun _ h => h, hg, h⟩

theorem Keeps.mono {α : Type} {m : H T α} {R Q : (Nat → Prop) → α → Prop} (h : Keeps L0 s0 L m R) (hm : ∀ L' a, (∀ p, L p → L' p) → R L' a → Q L' a) : Keeps L0 s0 L m Q := by
  intro s hg b s' hb
  obtain ⟨L', h1, g, r⟩ := h s hg b s' hb
  exact ⟨L', h1, g, hm L' b h1 r⟩

theorem Keeps.err {α : Type} {Q : (Nat → Prop) → α → Prop} {e : Err} : Keeps L0 s0 L (fun _ => .error e : H T α) Q := fun _ _ _ _ h => nomatch h

theorem In.mono {L L' : Nat → Prop} {p : Option Nat} (h : In L p) (hl : ∀ p, L p → L' p) : In L' p := fun i hi => hl i (h i hi)
theorem In.none : In L none := nofun

theorem rd_inv {α : Type} {a : Array α} {i : Nat} {x : α} (h : rd a i = .ok x) : a[i]? = some x := by
  by_cases hi : i < a.size
  · rw [rd_eq hi] at h
    cases h
    exact Array.getElem?_eq_getElem hi
  · rw [rd_ub (by omega)] at h
    exact nomatch h

theorem wr_inv {α : Type} {a b : Array α} {i : Nat} {x : α} (h : wr a i x = .ok b) : i < a.size ∧ ∀ j, b[j]? = if j = i then some x else a[j]? := by
  by_cases hi : i < a.size
  · rw [wr_eq hi] at h
    cases h
    refine ⟨hi, fun j => ?_⟩
    by_cases hj : j = i
    · subst hj; simp [hi]
    · rw [if_neg hj, Array.getElem?_setIfInBounds_ne (Ne.symm hj)]
  · rw [wr_ub (by omega)] at h
    exact nomatch h

theorem load_keeps (p : Option Nat) (hp : In L p) : Keeps L0 s0 L (load p) (fun L' x => In L' x.ch0 ∧ In L' x.ch1) := by
  intro s hg x s' h
  cases p with
  | none => exact nomatch h
  | some i =>
    simp only [load] at h
    cases hr : rd s.pool i with
    | error e => rw [hr] at h; exact nomatch h
    | ok y =>
      rw [hr, ok_bind] at h
      cases h
      exact ⟨L, fun _ h => h, hg, hg.closed i x (hp i rfl) (rd_inv hr)⟩

/-- A write to a node that is not old, or that changes at most the colour. -/
theorem store_keeps (p : Option Nat) (x : Nd T) (h0 : In L x.ch0) (h1 : In L x.ch1) (hold : ∀ i, p = some i → ¬ L0 i) : Keeps L0 s0 L (store p x) (fun _ _ => True) := by
  intro s hg _ s' h
  cases p with
  | none => exact nomatch h
  | some i =>
    simp only [store] at h
    cases hr : wr s.pool i x with
    | error e => rw [hr] at h; exact nomatch h
    | ok b =>
      rw [hr, ok_bind] at h
      cases h
      obtain ⟨hi, hb⟩ := wr_inv hr
      refine ⟨L, fun _ h => h, ⟨hg.sub, ?_, hg.free, ?_⟩, trivial⟩
      · intro p y hp hy
        have hy : b[p]? = some y := hy
        rw [hb] at hy
        split at hy
        · cases hy; exact ⟨h0, h1⟩
        · exact hg.closed p y hp hy
      · refine hg.same.trans ?_
        intro p y hp hy
        refine ⟨y, ?_, rfl, rfl, rfl, rfl, rfl⟩
        change b[p]? = some y
        rw [hb, if_neg (fun e : p = i => hold i rfl (e ▸ hp))]
        exact hy

theorem setCol_keeps (p : Option Nat) (c : Color) : Keeps L0 s0 L (setCol p c) (fun _ _ => True) := by
  intro s hg a s' h
  cases p with
  | none => exact nomatch h
  | some i =>
    simp only [setCol] at h
    change (load (some i) s >>= fun q => store (some i) { q.1 with col := c } q.2) = _ at h
    simp only [load] at h
    cases hr : rd s.pool i with
    | error e => rw [hr] at h; exact nomatch h
    | ok y =>
      rw [hr, ok_bind, pure_eq, ok_bind] at h
      simp only [store] at h
      cases hw : wr s.pool i { y with col := c } with
      | error e => rw [hw] at h; exact nomatch h
      | ok b =>
        rw [hw, ok_bind] at h
        cases h
        obtain ⟨hi, hb⟩ := wr_inv hw
        refine ⟨L, fun _ h => h, ⟨hg.sub, ?_, hg.free, hg.same.trans ?_⟩, trivial⟩
        · intro p z hp hz
          have hz : b[p]? = some z := hz
          rw [hb] at hz
          split at hz
          · rename_i e
            subst e
            cases hz
            exact hg.closed p y hp (rd_inv hr)
          · exact hg.closed p z hp hz
        · intro p z hp hz
          change ∃ x', b[p]? = some x' ∧ _
          rw [hb]
          split
          · rename_i e
            subst e
            rw [rd_inv hr] at hz
            cases hz
            exact ⟨_, rfl, rfl, rfl, rfl, rfl, rfl⟩
          · exact ⟨z, hz, rfl, rfl, rfl, rfl, rfl⟩

theorem setCh_keeps (p : Option Nat) (i : Bool) (q : Option Nat) (hp : In L p) (hq : In L q) (hold : ∀ j, p = some j → ¬ L0 j) : Keeps L0 s0 L (setCh p i q) (fun _ _ => True) := by
  rw [setCh]
  refine (load_keeps p hp).bind fun L' x hl hx => ?_
  cases i with
  | true => exact store_keeps p _ hx.1 (hq.mono hl) hold
  | false => exact store_keeps p _ (hq.mono hl) hx.2 hold

theorem size_keeps (p : Option Nat) (hp : In L p) : Keeps L0 s0 L (size p) (fun _ _ => True) := by
  rw [size]
  split
  · exact Keeps.pure trivial
  · exact (load_keeps p hp).bind fun _ _ _ _ => Keeps.pure trivial

theorem color_keeps (p : Option Nat) (hp : In L p) : Keeps L0 s0 L (color p) (fun _ _ => True) := by
  rw [color]
  split
  · exact Keeps.pure trivial
  · exact (load_keeps p hp).bind fun _ _ _ _ => Keeps.pure trivial

theorem height_keeps (p : Option Nat) (hp : In L p) : Keeps L0 s0 L (height p) (fun _ _ => True) := by
  rw [height]
  split
  · exact Keeps.pure trivial
  · exact (load_keeps p hp).bind fun _ _ _ _ => Keeps.pure trivial

theorem value_keeps (C : Cls T) (p : Option Nat) (hp : In L p) : Keeps L0 s0 L (value C p) (fun _ _ => True) := by
  rw [value]
  split
  · exact Keeps.pure trivial
  · exact (load_keeps p hp).bind fun _ _ _ _ => Keeps.pure trivial

theorem lift_keeps {α : Type} (m : M α) : Keeps L0 s0 L (liftM m : H T α) (fun _ _ => True) := by
  intro s hg a s' h
  change (m >>= fun x => pure (x, s)) = _ at h
  cases m with
  | error e => exact nomatch h
  | ok x =>
    rw [ok_bind] at h
    cases h
    exact ⟨L, fun _ h => h, hg, trivial⟩

theorem newSiz_keeps (x : Nd T) (h0 : In L x.ch0) (h1 : In L x.ch1) : Keeps L0 s0 L (newSiz x) (fun _ _ => True) := by
  rw [newSiz]
  split
  · exact Keeps.pure trivial
  · exact (size_keeps _ h0).bind fun _ _ hl _ => (size_keeps _ (h1.mono hl)).bind fun _ _ _ _ => lift_keeps _

theorem newLev_keeps (x : Nd T) (h0 : In L x.ch0) : Keeps L0 s0 L (newLev x) (fun _ _ => True) := by
  rw [newLev]
  split
  · exact Keeps.pure trivial
  · exact (height_keeps _ h0).bind fun _ _ hl _ => (color_keeps _ (h0.mono hl)).bind fun _ _ _ _ => Keeps.pure trivial

theorem newVal_keeps (C : Cls T) (x : Nd T) (h0 : In L x.ch0) (h1 : In L x.ch1) : Keeps L0 s0 L (newVal C x) (fun _ _ => True) := by
  rw [newVal]
  split
  · exact (value_keeps C _ h0).bind fun _ _ hl _ => (value_keeps C _ (h1.mono hl)).bind fun _ _ _ _ => Keeps.pure trivial
  · exact Keeps.pure trivial

theorem update_keeps (C : Cls T) (p : Option Nat) (hp : In L p) (hold : ∀ j, p = some j → ¬ L0 j) : Keeps L0 s0 L (update C p) (fun L' q => q = p ∧ In L' q) := by
  rw [update]
  refine (load_keeps p hp).bind fun L1 x l1 hx => ?_
  refine (newSiz_keeps x hx.1 hx.2).bind fun L2 sz l2 _ => ?_
  refine (newLev_keeps x (hx.1.mono l2)).bind fun L3 lv l3 _ => ?_
  refine (newVal_keeps C x ((hx.1.mono l2).mono l3) ((hx.2.mono l2).mono l3)).bind fun L4 vl l4 _ => ?_
  refine (store_keeps p { x with siz := sz, lev := lv, val := vl } (((hx.1.mono l2).mono l3).mono l4) (((hx.2.mono l2).mono l3).mono l4) hold).bind fun L5 _ l5 _ => ?_
  exact Keeps.pure ⟨rfl, ((((hp.mono l1).mono l2).mono l3).mono l4).mono l5⟩

/-- Allocation followed by a first write. -/
theorem fresh_keeps (x : Nat → Nd T) (h0 : ∀ p, In (fun q => L q ∨ q = p) (x p).ch0) (h1 : ∀ p, In (fun q => L q ∨ q = p) (x p).ch1) :
    Keeps L0 s0 L (alloc >>= fun p => store (some p) (x p) >>= fun _ => (pure (some p) : H T (Option Nat))) (fun L' q => In L' q ∧ ∃ p, q = some p ∧ ¬ L p ∧ L' = fun q => L q ∨ q = p) := by
  intro s hg q s' h
  change ((alloc s) >>= fun a => _) = _ at h
  simp only [alloc] at h
  cases hr : rd s.stock s.it with
  | error e => rw [hr] at h; exact nomatch h
  | ok p =>
    rw [hr, ok_bind, pure_eq, ok_bind] at h
    change (store (some p) (x p) { s with it := s.it + 1 } >>= fun a => pure (some p, a.2)) = _ at h
    simp only [store] at h
    cases hw : wr s.pool p (x p) with
    | error e => rw [hw] at h; exact nomatch h
    | ok b =>
      rw [hw, ok_bind, pure_eq, ok_bind] at h
      cases h
      obtain ⟨hi, hb⟩ := wr_inv hw
      have hst := rd_inv hr
      have hp : ¬ L p := hg.free.1 s.it p (Nat.le_refl _) hst
      refine ⟨fun q => L q ∨ q = p, fun _ h => Or.inl h, ⟨fun q hq => Or.inl (hg.sub q hq), ?_, ?_, hg.same.trans ?_⟩, ?_, p, rfl, hp, rfl⟩
      · intro q y hq hy
        have hy : b[q]? = some y := hy
        rw [hb] at hy
        split at hy
        · cases hy
          exact ⟨h0 p, h1 p⟩
        · rename_i hne
          have := hg.closed q y (hq.resolve_right hne) hy
          exact ⟨this.1.mono fun _ h => Or.inl h, this.2.mono fun _ h => Or.inl h⟩
      · refine ⟨fun j q hj hq => ?_, fun j k q hj hk hq => hg.free.2 j k q (by dsimp only at hj; omega) hk hq⟩
        rintro (hl | rfl)
        · exact hg.free.1 j q (by dsimp only at hj; omega) hq hl
        · exact hg.free.2 s.it j q (Nat.le_refl _) (by dsimp only at hj; omega) hst hq
      · intro q y hq hy
        refine ⟨y, ?_, rfl, rfl, rfl, rfl, rfl⟩
        change b[q]? = some y
        rw [hb, if_neg (fun e : q = p => hp (e ▸ hg.sub q hq))]
        exact hy
      · intro i hi
        cases hi
        exact Or.inr rfl

theorem createLeaf_keeps (v : T) : Keeps L0 s0 L (createLeaf v) (fun L' q => In L' q ∧ ∃ p, q = some p ∧ ¬ L p ∧ L' = fun q => L q ∨ q = p) :=
  fresh_keeps (fun _ => ⟨.black, none, none, v, 1, 0⟩) (fun _ => In.none) (fun _ => In.none)

theorem clone_keeps (C : Cls T) (p : Option Nat) (hsub : ∀ q, L0 q → L q) (hp : In L p) (hn : p.isNone = false) : Keeps L0 s0 L (clone C p) (fun L' q => In L' q ∧ ∃ i, q = some i ∧ ¬ L0 i ∧ ¬ L i ∧ L' = fun q => L q ∨ q = i) := by
  rw [clone, if_neg (by simp [hn])]
  refine (createLeaf_keeps C.dflt).bind fun L1 q l1 ⟨hq, i, hqi, hi, hL⟩ => ?_
  subst hqi
  refine Keeps.bind (R := fun L' x => L' = L1 ∧ In L' x.ch0 ∧ In L' x.ch1) ?_ fun L2 x l2 ⟨hL2, hx⟩ => ?_
  · intro s hg x s' h
    cases p with
    | none => exact nomatch h
    | some j =>
      simp only [load] at h
      cases hr : rd s.pool j with
      | error e => rw [hr] at h; exact nomatch h
      | ok y =>
        rw [hr, ok_bind] at h
        cases h
        exact ⟨L1, fun _ h => h, hg, rfl, hg.closed j x (l1 j (hp j rfl)) (rd_inv hr)⟩
  · subst hL2
    refine Keeps.bind (R := fun L' _ => L' = L2) ?_ fun L3 _ l3 hL3 => ?_
    · intro s hg u s' h
      obtain ⟨L', h1, g, _⟩ := store_keeps (L0 := L0) (s0 := s0) (L := L2) (some i) x hx.1 hx.2 (fun j hj => by cases hj; exact fun h => hi (hsub _ h)) s hg u s' h
      -- the set does not change
      simp only [store] at h
      cases hw : wr s.pool i x with
      | error e => rw [hw] at h; exact nomatch h
      | ok b =>
        rw [hw, ok_bind] at h
        cases h
        obtain ⟨_, hb⟩ := wr_inv hw
        refine ⟨L2, fun _ h => h, ⟨hg.sub, ?_, hg.free, g.same⟩, rfl⟩
        intro p y hp hy
        have hy : b[p]? = some y := hy
        rw [hb] at hy
        split at hy
        · cases hy; exact hx
        · exact hg.closed p y hp hy
    · subst hL3
      exact Keeps.pure ⟨hq, i, rfl, fun h => hi (hsub _ h), hi, hL⟩

/-- `push` in the classes where it clones. -/
theorem push_keeps (C : Cls T) (hc : C.clones = true) (p : Option Nat) (hsub : ∀ q, L0 q → L q) (hp : In L p) (hn : p.isNone = false) : Keeps L0 s0 L (push C p) (fun L' q => In L' q ∧ ∃ i, q = some i ∧ ¬ L0 i ∧ ¬ L i ∧ L' = fun q => L q ∨ q = i) := by
  rw [push, if_pos hc]
  exact clone_keeps C p hsub hp hn

/-- Like `push_keeps`; `push` of the null pointer returns it. -/
theorem push_keeps' (C : Cls T) (hc : C.clones = true) (p : Option Nat) (hsub : ∀ q, L0 q → L q) (hp : In L p) : Keeps L0 s0 L (push C p) (fun L' q => In L' q ∧ ∀ i, q = some i → ¬ L0 i) := by
  cases hn : p.isNone with
  | false => exact (push_keeps C hc p hsub hp hn).mono fun L' q _ ⟨h1, i, h2, h3, _⟩ => ⟨h1, fun j hj => by rw [h2] at hj; cases hj; exact h3⟩
  | true =>
    rw [push, if_pos hc, clone, if_pos hn]
    refine Keeps.pure ⟨hp, fun i hi => ?_⟩
    rw [hi] at hn
    exact nomatch hn

theorem ch_in {x : Nd T} (h : In L x.ch0 ∧ In L x.ch1) (i : Bool) : In L (x.ch i) := by
  cases i
  · exact h.1
  · exact h.2

theorem rotate_keeps (C : Cls T) (hc : C.clones = true) (p : Option Nat) (i : Bool) (hsub : ∀ q, L0 q → L q) (hp : In L p) : Keeps L0 s0 L (rotate C p i) (fun L' q => In L' q) := by
  rw [rotate]
  refine (push_keeps' C hc p hsub hp).bind fun L1 p l1 ⟨hp1, fp⟩ => ?_
  refine (load_keeps p hp1).bind fun L2 x l2 hx => ?_
  refine (push_keeps' C hc (x.ch i) (fun q hq => l2 _ (l1 _ (hsub q hq))) (ch_in hx i)).bind fun L3 c l3 ⟨hc3, fc⟩ => ?_
  refine (load_keeps c hc3).bind fun L4 y l4 hy => ?_
  have hp4 := ((hp1.mono l2).mono l3).mono l4
  refine (setCh_keeps c (!i) p (hc3.mono l4) hp4 fc).bind fun L5 _ l5 _ => ?_
  refine (setCh_keeps p i (y.ch (!i)) (hp4.mono l5) ((ch_in hy (!i)).mono l5) fp).bind fun L6 _ l6 _ => ?_
  refine (update_keeps C p ((hp4.mono l5).mono l6) fp).bind fun L7 _ l7 _ => ?_
  exact (update_keeps C c ((((hc3.mono l4).mono l5).mono l6).mono l7) fc).mono fun _ _ _ h => h.2

theorem force_keeps (fb : Bool) (p : Option Nat) (hp : In L p) : Keeps L0 s0 L (force fb p) (fun L' q => In L' q) := by
  rw [force]
  split
  · exact (setCol_keeps p _).bind fun _ _ l _ => Keeps.pure (hp.mono l)
  · exact Keeps.pure hp

theorem fix_keeps (C : Cls T) (hc : C.clones = true) (fb i : Bool) (p c : Option Nat) (hsub : ∀ q, L0 q → L q) (hp : In L p) (hcc : In L c) (fp : ∀ j, p = some j → ¬ L0 j) : Keeps L0 s0 L (fix C fb i p c) (fun L' q => In L' q) := by
  rw [fix]
  refine (load_keeps p hp).bind fun L1 x l1 hx => ?_
  refine (load_keeps c (hcc.mono l1)).bind fun L2 y l2 _ => ?_
  refine (setCol_keeps p _).bind fun L3 _ l3 _ => ?_
  refine (setCol_keeps c _).bind fun L4 _ l4 _ => ?_
  refine (load_keeps _ ((((ch_in hx (!i)).mono l2).mono l3).mono l4)).bind fun L5 o l5 _ => ?_
  refine (setCol_keeps _ _).bind fun L6 _ l6 _ => ?_
  have h6 : In L6 p := (((((hp.mono l1).mono l2).mono l3).mono l4).mono l5).mono l6
  split
  · exact rotate_keeps C hc p i (fun q hq => l6 _ (l5 _ (l4 _ (l3 _ (l2 _ (l1 _ (hsub q hq))))))) h6
  · exact (update_keeps C p h6 fp).bind fun L7 q l7 hq => force_keeps fb q hq.2

theorem descend_keeps (C : Cls T) (hc : C.clones = true) (fb i : Bool) (rec : Option Nat → H T (Option Nat)) (p : Option Nat) (hsub : ∀ q, L0 q → L q) (hp : In L p)
    (hrec : ∀ L' c, (∀ q, L q → L' q) → In L' c → Keeps L0 s0 L' (rec c) (fun L'' q => In L'' q)) : Keeps L0 s0 L (descend C fb i rec p) (fun L' q => In L' q) := by
  rw [descend]
  refine (push_keeps' C hc p hsub hp).bind fun L1 p l1 ⟨hp1, fp⟩ => ?_
  refine (load_keeps p hp1).bind fun L2 x l2 hx => ?_
  refine (hrec L2 _ (fun q hq => l2 _ (l1 _ hq)) (ch_in hx i)).bind fun L3 c l3 hc3 => ?_
  refine (setCh_keeps p i c ((hp1.mono l2).mono l3) hc3 fp).bind fun L4 _ l4 _ => ?_
  refine (load_keeps p (((hp1.mono l2).mono l3).mono l4)).bind fun L5 x l5 hx => ?_
  refine (load_keeps c ((hc3.mono l4).mono l5)).bind fun L6 y l6 hy => ?_
  refine (color_keeps _ (ch_in hy i)).bind fun L7 k l7 _ => ?_
  have h7 : In L7 p := (((((hp1.mono l2).mono l3).mono l4).mono l5).mono l6).mono l7
  split
  · exact fix_keeps C hc fb i p c (fun q hq => l7 _ (l6 _ (l5 _ (l4 _ (l3 _ (l2 _ (l1 _ (hsub q hq)))))))) h7 ((((hc3.mono l4).mono l5).mono l6).mono l7) fp
  · exact (update_keeps C p h7 fp).bind fun L8 q l8 hq => force_keeps fb q hq.2

theorem createBranch_keeps (C : Cls T) (l r : Option Nat) (hsub : ∀ q, L0 q → L q) (hl : In L l) (hr : In L r) : Keeps L0 s0 L (createBranch C l r) (fun L' q => In L' q) := by
  intro s hg q s' h
  rw [createBranch] at h
  change ((alloc s) >>= fun a => _) = _ at h
  -- the loads only read: perform them on the state before the allocation
  simp only [alloc] at h
  cases hst : rd s.stock s.it with
  | error e => rw [hst] at h; exact nomatch h
  | ok p =>
    rw [hst, ok_bind, pure_eq, ok_bind] at h
    cases l with
    | none => exact nomatch h
    | some li =>
      change (load (some li) { s with it := s.it + 1 } >>= fun a => _) = _ at h
      simp only [load] at h
      cases ha : rd s.pool li with
      | error e => rw [ha] at h; exact nomatch h
      | ok a =>
        rw [ha, ok_bind, pure_eq, ok_bind] at h
        cases r with
        | none => exact nomatch h
        | some ri =>
          change (load (some ri) { s with it := s.it + 1 } >>= fun a => _) = _ at h
          simp only [load] at h
          cases hb : rd s.pool ri with
          | error e => rw [hb] at h; exact nomatch h
          | ok b =>
            rw [hb, ok_bind, pure_eq, ok_bind] at h
            have key := Keeps.bind (fresh_keeps (L0 := L0) (L := L) (s0 := s0) (fun _ => ⟨.red, some li, some ri, C.dflt, 0, a.lev⟩) (fun _ => hl.mono fun _ h => Or.inl h) (fun _ => hr.mono fun _ h => Or.inl h))
              (f := fun q => update C q) (Q := fun L' q => In L' q) (fun L1 q l1 ⟨hq, p, hqp, hp, _⟩ => (update_keeps C q hq (fun j hj => by rw [hqp] at hj; cases hj; exact fun h => hp (hsub _ h))).mono fun _ _ _ h => h.2)
            refine key s hg q s' ?_
            change (((alloc s) >>= fun a => _) >>= fun b => _) = _
            simp only [alloc]
            rw [hst, ok_bind, pure_eq, ok_bind]
            change ((store (some p) ⟨.red, some li, some ri, C.dflt, 0, a.lev⟩ { s with it := s.it + 1 } >>= fun u => pure (some p, u.2)) >>= fun b => update C b.1 b.2) = _
            change (store (some p) ⟨.red, some li, some ri, C.dflt, 0, a.lev⟩ { s with it := s.it + 1 } >>= fun u => update C (some p) u.2) = _ at h
            rw [← h]
            cases store (some p) (⟨.red, some li, some ri, C.dflt, 0, a.lev⟩ : Nd T) { s with it := s.it + 1 } with
            | error e => rfl
            | ok u => rfl

theorem mergeF_keeps (C : Cls T) (hc : C.clones = true) (fuel : Nat) : ∀ (L : Nat → Prop) (fb : Bool) (l r : Option Nat), (∀ q, L0 q → L q) → In L l → In L r → Keeps L0 s0 L (mergeF C fuel fb l r) (fun L' q => In L' q) := by
  induction fuel with
  | zero => intro L fb l r _ _ _; exact Keeps.err
  | succ fuel ih =>
    intro L fb l r hsub hl hr
    rw [mergeF]
    split
    · exact Keeps.pure hr
    split
    · exact Keeps.pure hl
    refine (height_keeps l hl).bind fun L1 _ l1 _ => ?_
    refine (height_keeps r (hr.mono l1)).bind fun L2 _ l2 _ => ?_
    have hs2 : ∀ q, L0 q → L2 q := fun q hq => l2 _ (l1 _ (hsub q hq))
    have hl2 := (hl.mono l1).mono l2
    have hr2 := (hr.mono l1).mono l2
    split
    · exact descend_keeps C hc fb true _ l hs2 hl2 fun L' c l' hc' => ih L' false c r (fun q hq => l' _ (hs2 q hq)) hc' (hr2.mono l')
    split
    · exact descend_keeps C hc fb false _ r hs2 hr2 fun L' c l' hc' => ih L' false l c (fun q hq => l' _ (hs2 q hq)) (hl2.mono l') hc'
    · rw [branchF]
      exact (createBranch_keeps C l r hs2 hl2 hr2).bind fun L3 p _ hp => force_keeps fb p hp

theorem blacken_keeps (p : Option Nat) (hp : In L p) : Keeps L0 s0 L (blacken p) (fun _ _ => True) := by
  rw [blacken]
  refine (color_keeps p hp).bind fun L1 _ l1 _ => ?_
  split
  · exact setCol_keeps p _
  · exact Keeps.pure trivial

theorem load_inv {p : Option Nat} {s s' : Pool T} {x : Nd T} (h : load p s = .ok (x, s')) : ∃ i, p = some i ∧ s.pool[i]? = some x ∧ s' = s := by
  cases p with
  | none => exact nomatch h
  | some i =>
    simp only [load] at h
    cases hr : rd s.pool i with
    | error e => rw [hr] at h; exact nomatch h
    | ok y =>
      rw [hr, ok_bind] at h
      cases h
      exact ⟨i, rfl, rd_inv hr, rfl⟩

theorem store_inv {p : Option Nat} {s s' : Pool T} {x : Nd T} {u : Unit} (h : store p x s = .ok (u, s')) : ∃ i, p = some i ∧ (∀ k, s'.pool[k]? = if k = i then some x else s.pool[k]?) ∧ s'.stock = s.stock ∧ s'.it = s.it := by
  cases p with
  | none => exact nomatch h
  | some i =>
    simp only [store] at h
    cases hr : wr s.pool i x with
    | error e => rw [hr] at h; exact nomatch h
    | ok b =>
      rw [hr, ok_bind] at h
      cases h
      exact ⟨i, rfl, (wr_inv hr).2, rfl, rfl⟩

theorem alloc_inv {s s' : Pool T} {p : Nat} (h : alloc s = .ok (p, s')) : s.stock[s.it]? = some p ∧ s' = { s with it := s.it + 1 } := by
  simp only [alloc] at h
  cases hr : rd s.stock s.it with
  | error e => rw [hr] at h; exact nomatch h
  | ok q =>
    rw [hr, ok_bind] at h
    cases h
    exact ⟨rd_inv hr, rfl⟩

theorem bind_inv {α β : Type} {m : H T α} {f : α → H T β} {s s'' : Pool T} {b : β} (h : (m >>= f) s = .ok (b, s'')) : ∃ a s', m s = .ok (a, s') ∧ f a s' = .ok (b, s'') := by
  change (m s >>= fun p => f p.1 p.2) = _ at h
  cases hm : m s with
  | error e => rw [hm] at h; exact nomatch h
  | ok p =>
    rw [hm, ok_bind] at h
    exact ⟨p.1, p.2, rfl, h⟩

theorem pure_inv {α : Type} {a b : α} {s s' : Pool T} (h : (pure a : H T α) s = .ok (b, s')) : b = a ∧ s' = s := by
  change (Except.ok (a, s) : M (α × Pool T)) = _ at h
  cases h
  exact ⟨rfl, rfl⟩

theorem clone_inv (C : Cls T) {j : Nat} {q : Option Nat} {s s' : Pool T} (hj : s.stock[s.it]? ≠ some j) (h : clone C (some j) s = .ok (q, s')) :
    ∃ i x, q = some i ∧ s.stock[s.it]? = some i ∧ s.pool[j]? = some x ∧ (∀ k, s'.pool[k]? = if k = i then some x else s.pool[k]?) ∧ s'.stock = s.stock ∧ s'.it = s.it + 1 := by
  rw [clone, if_neg (by simp)] at h
  replace h := bind_inv h
  obtain ⟨a, s1, h1, h⟩ := h
  rw [createLeaf] at h1
  replace h1 := bind_inv h1
  obtain ⟨i, s2, h2, h1⟩ := h1
  replace h1 := bind_inv h1
  obtain ⟨u, s3, h3, h1⟩ := h1
  obtain ⟨ha, hs⟩ := pure_inv h1
  subst ha hs
  obtain ⟨e1, e2⟩ := alloc_inv h2
  subst e2
  obtain ⟨i', hi', p3, st3, it3⟩ := store_inv h3
  cases hi'
  replace h := bind_inv h
  obtain ⟨x, s4, h4, h⟩ := h
  obtain ⟨j', hj', hx, hs4⟩ := load_inv h4
  cases hj'
  subst hs4
  replace h := bind_inv h
  obtain ⟨u, s5, h5, h⟩ := h
  obtain ⟨hq, hs⟩ := pure_inv h
  subst hq hs
  obtain ⟨i', hi', p5, st5, it5⟩ := store_inv h5
  cases hi'
  have hji : ¬ j = i := fun e => hj (e ▸ e1)
  rw [p3, if_neg hji] at hx
  refine ⟨i, x, rfl, e1, hx, fun k => ?_, st5.trans st3, it5.trans it3⟩
  rw [p5, p3]
  split <;> rfl

/-- Detaching the children of a fresh clone and freeing it. -/
theorem detach_inv (i : Nat) (s s' : Pool T) (u : Unit) (h : (setCh (some i) false none >>= fun _ => setCh (some i) true none >>= fun _ => freeNode (some i) : H T Unit) s = .ok (u, s')) :
    (∀ k, k ≠ i → s'.pool[k]? = s.pool[k]?) ∧ s'.it + 1 = s.it ∧ ∀ k, s'.stock[k]? = if k = s'.it then some i else s.stock[k]? := by
  replace h := bind_inv h
  obtain ⟨_, s1, h1, h⟩ := h
  replace h := bind_inv h
  obtain ⟨_, s2, h2, h⟩ := h
  have one : ∀ (b : Bool) (s s1 : Pool T) (u : Unit), setCh (some i) b none s = .ok (u, s1) → (∀ k, k ≠ i → s1.pool[k]? = s.pool[k]?) ∧ s1.stock = s.stock ∧ s1.it = s.it := by
    intro b s s1 u h
    replace h := bind_inv h
    obtain ⟨x, s3, h3, h⟩ := h
    obtain ⟨_, _, _, rfl⟩ := load_inv h3
    obtain ⟨i', hi', p, st, it⟩ := store_inv h
    cases hi'
    exact ⟨fun k hk => by rw [p, if_neg hk], st, it⟩
  obtain ⟨a1, a2, a3⟩ := one _ _ _ _ h1
  obtain ⟨b1, b2, b3⟩ := one _ _ _ _ h2
  simp only [freeNode] at h
  split at h
  · exact nomatch h
  · rename_i h0
    cases hw : wr s2.stock (s2.it - 1) i with
    | error e => rw [hw] at h; exact nomatch h
    | ok b =>
      rw [hw, ok_bind] at h
      cases h
      refine ⟨fun k hk => (b1 k hk).trans (a1 k hk), by dsimp only; omega, fun k => ?_⟩
      dsimp only
      rw [(wr_inv hw).2, b2, a2]

theorem splitF_keeps (C : Cls T) (hc : C.clones = true) (fuel : Nat) : ∀ (L : Nat → Prop) (p : Option Nat) (k : Int), (∀ q, L0 q → L q) → In L p → Keeps L0 s0 L (splitF C fuel p k) (fun L' r => In L' r.1 ∧ In L' r.2) := by
  induction fuel with
  | zero => intro L p k _ _; exact Keeps.err
  | succ fuel ih =>
    intro L p k hsub hp
    rw [splitF]
    split
    · exact Keeps.pure ⟨In.none, In.none⟩
    rename_i hn
    intro s hg r s' h
    have hg0 := hg
    cases p with
    | none => exact absurd rfl hn
    | some j =>
      have hLj := hp j rfl
      have hfr : s.stock[s.it]? ≠ some j := fun e => hg.free.1 _ _ (Nat.le_refl _) e hLj
      replace h := bind_inv h
      obtain ⟨q, s1, hq, h⟩ := h
      obtain ⟨L1, l1, g1, hq1, i, hqi', hi0, hiL, hL1⟩ := push_keeps (s0 := s0) C hc (some j) hsub hp rfl s hg q s1 hq
      rw [push, if_pos hc] at hq
      obtain ⟨i', x, hqi, e1, hx, hpool, hst, hit⟩ := clone_inv C hfr hq
      rw [hqi'] at hqi
      cases hqi
      subst hqi'
      replace h := bind_inv h
      obtain ⟨sz, s2, hsz, h⟩ := h
      have hs2 : s2 = s1 := by
        rw [size, if_neg (by simp)] at hsz
        replace hsz := bind_inv hsz
        obtain ⟨y, s3, h3, hsz⟩ := hsz
        obtain ⟨_, _, _, rfl⟩ := load_inv h3
        exact (pure_inv hsz).2
      subst hs2
      split at h
      · obtain ⟨hr, hs⟩ := pure_inv h
        subst hr hs
        exact ⟨L1, l1, g1, In.none, hq1⟩
      split at h
      · obtain ⟨hr, hs⟩ := pure_inv h
        subst hr hs
        exact ⟨L1, l1, g1, hq1, In.none⟩
      replace h := bind_inv h
      obtain ⟨y, s3, h3, h⟩ := h
      obtain ⟨i2, hi2, hy, rfl⟩ := load_inv h3
      cases hi2
      rw [hpool, if_pos rfl] at hy
      cases hy
      replace h := bind_inv h
      obtain ⟨u1, t1, k1, h⟩ := h
      replace h := bind_inv h
      obtain ⟨u2, t2, k2, h⟩ := h
      replace h := bind_inv h
      obtain ⟨u3, t3, k3, h⟩ := h
      have hdet : (setCh (some i) false none >>= fun _ => setCh (some i) true none >>= fun _ => freeNode (some i) : H T Unit) s3 = .ok (u3, t3) := by
        change (setCh (some i) false none s3 >>= fun p => (setCh (some i) true none p.2 >>= fun p => freeNode (some i) p.2)) = _
        rw [k1, ok_bind, k2, ok_bind, k3]
      obtain ⟨d1, d2, d3⟩ := detach_inv i s3 t3 u3 hdet
      have g3 : G L0 s0 L t3 := by
        have hne : ∀ q, L q → q ≠ i := fun q hq e => hiL (e ▸ hq)
        refine ⟨hg0.sub, ?_, ?_, hg0.same.trans ?_⟩
        · intro q z hq hz
          rw [d1 q (hne q hq), hpool, if_neg (hne q hq)] at hz
          exact hg0.closed q z hq hz
        · have hits : t3.it = s.it := by omega
          have hstk : ∀ k : Nat, t3.stock[k]? = s.stock[k]? := by
            intro k
            rw [d3, hst]
            split
            · rename_i e
              rw [e, hits, e1]
            · rfl
          refine ⟨fun a b ha hb => hg0.free.1 a b (by omega) (by rw [← hstk]; exact hb), fun a b c ha hb hcc hd => ?_⟩
          rw [hstk] at hcc hd
          exact hg0.free.2 a b c (by omega) hb hcc hd
        · intro q z hq hz
          refine ⟨z, ?_, rfl, rfl, rfl, rfl, rfl⟩
          rw [d1 q (hne q (hsub q hq)), hpool, if_neg (hne q (hsub q hq))]
          exact hz
      have hxc := hg0.closed j x hLj hx
      -- the rest is a computation from `t3`
      have key : Keeps L0 s0 L (blacken x.ch0 >>= fun _ => blacken x.ch1 >>= fun _ => splitAt C fuel k (splitF C fuel) x.ch0 x.ch1) (fun L' r => In L' r.1 ∧ In L' r.2) := by
        refine (blacken_keeps _ hxc.1).bind fun L1 _ l1 _ => ?_
        refine (blacken_keeps _ (hxc.2.mono l1)).bind fun L2 _ l2 _ => ?_
        have hs2 : ∀ q, L0 q → L2 q := fun q hq => l2 _ (l1 _ (hsub q hq))
        have a0 := (hxc.1.mono l1).mono l2
        have a1 := (hxc.2.mono l1).mono l2
        rw [splitAt]
        refine (size_keeps _ a0).bind fun L3 _ l3 _ => ?_
        have hs3 : ∀ q, L0 q → L3 q := fun q hq => l3 _ (hs2 q hq)
        split
        · refine (ih L3 _ _ hs3 (a0.mono l3)).bind fun L4 r l4 hr => ?_
          refine (mergeF_keeps C hc fuel L4 true _ _ (fun q hq => l4 _ (hs3 q hq)) hr.2 ((a1.mono l3).mono l4)).bind fun L5 m l5 hm => ?_
          exact Keeps.pure ⟨hr.1.mono l5, hm⟩
        split
        · refine (ih L3 _ _ hs3 (a1.mono l3)).bind fun L4 r l4 hr => ?_
          refine (mergeF_keeps C hc fuel L4 true _ _ (fun q hq => l4 _ (hs3 q hq)) ((a0.mono l3).mono l4) hr.1).bind fun L5 m l5 hm => ?_
          exact Keeps.pure ⟨hm, hr.2.mono l5⟩
        · exact Keeps.pure ⟨a0.mono l3, a1.mono l3⟩
      exact key t3 g3 r s' h

theorem splitRange_keeps (C : Cls T) (hc : C.clones = true) (fuel : Nat) (p : Option Nat) (l r : Int) (hsub : ∀ q, L0 q → L q) (hp : In L p) : Keeps L0 s0 L (splitRange C fuel p l r) (fun L' x => In L' x.1 ∧ In L' x.2.1 ∧ In L' x.2.2) := by
  rw [splitRange]
  refine (splitF_keeps C hc fuel L p r hsub hp).bind fun L1 a l1 ha => ?_
  refine (splitF_keeps C hc fuel L1 a.1 l (fun q hq => l1 _ (hsub q hq)) ha.1).bind fun L2 b l2 hb => ?_
  exact Keeps.pure ⟨hb.1, hb.2, ha.2.mono l2⟩

theorem merge3_keeps (C : Cls T) (hc : C.clones = true) (fuel : Nat) (a b c : Option Nat) (hsub : ∀ q, L0 q → L q) (ha : In L a) (hb : In L b) (hcc : In L c) : Keeps L0 s0 L (merge3 C fuel a b c) (fun L' q => In L' q) := by
  rw [merge3]
  exact (mergeF_keeps C hc fuel L true a b hsub ha hb).bind fun L1 t l1 ht => mergeF_keeps C hc fuel L1 true t c (fun q hq => l1 _ (hsub q hq)) ht (hcc.mono l1)

theorem insert_keeps (C : Cls T) (hc : C.clones = true) (fuel : Nat) (p : Option Nat) (k : Int) (v : T) (hsub : ∀ q, L0 q → L q) (hp : In L p) : Keeps L0 s0 L (insert C fuel p k v) (fun L' q => In L' q) := by
  rw [insert]
  refine (splitF_keeps C hc fuel L p k hsub hp).bind fun L1 a l1 ha => ?_
  refine (createLeaf_keeps v).bind fun L2 m l2 hm => ?_
  exact merge3_keeps C hc fuel _ _ _ (fun q hq => l2 _ (l1 _ (hsub q hq))) (ha.1.mono l2) hm.1 (ha.2.mono l2)

theorem get_keeps (C : Cls T) (hc : C.clones = true) (fuel : Nat) (p : Option Nat) (k : Int) (hsub : ∀ q, L0 q → L q) (hp : In L p) : Keeps L0 s0 L (get C fuel p k) (fun L' q => In L' q.1) := by
  rw [get]
  refine (splitRange_keeps C hc fuel p k (k + 1) hsub hp).bind fun L1 a l1 ha => ?_
  refine (load_keeps _ ha.2.1).bind fun L2 x l2 _ => ?_
  exact (merge3_keeps C hc fuel _ _ _ (fun q hq => l2 _ (l1 _ (hsub q hq))) (ha.1.mono l2) (ha.2.1.mono l2) (ha.2.2.mono l2)).bind fun L3 t l3 ht => Keeps.pure ht

theorem prod_keeps (C : Cls T) (hc : C.clones = true) (fuel : Nat) (p : Option Nat) (l r : Int) (hsub : ∀ q, L0 q → L q) (hp : In L p) : Keeps L0 s0 L (prod C fuel p l r) (fun L' q => In L' q.1) := by
  rw [prod]
  refine (splitRange_keeps C hc fuel p l r hsub hp).bind fun L1 a l1 ha => ?_
  refine (value_keeps C _ ha.2.1).bind fun L2 x l2 _ => ?_
  exact (merge3_keeps C hc fuel _ _ _ (fun q hq => l2 _ (l1 _ (hsub q hq))) (ha.1.mono l2) (ha.2.1.mono l2) (ha.2.2.mono l2)).bind fun L3 t l3 ht => Keeps.pure ht

theorem swap_keeps (C : Cls T) (hc : C.clones = true) (fuel : Nat) (t1 : Option Nat) (l1 r1 : Int) (t2 : Option Nat) (l2 r2 : Int) (hsub : ∀ q, L0 q → L q) (h1 : In L t1) (h2 : In L t2) :
    Keeps L0 s0 L (swap C fuel t1 l1 r1 t2 l2 r2) (fun L' q => In L' q.1 ∧ In L' q.2) := by
  rw [swap]
  refine (splitRange_keeps C hc fuel t1 l1 r1 hsub h1).bind fun L1 a k1 ha => ?_
  have s1 : ∀ q, L0 q → L1 q := fun q hq => k1 _ (hsub q hq)
  refine (splitRange_keeps C hc fuel t2 l2 r2 s1 (h2.mono k1)).bind fun L2 b k2 hb => ?_
  have s2 : ∀ q, L0 q → L2 q := fun q hq => k2 _ (s1 q hq)
  refine (merge3_keeps C hc fuel _ _ _ s2 (ha.1.mono k2) hb.2.1 (ha.2.2.mono k2)).bind fun L3 x k3 hx => ?_
  exact (merge3_keeps C hc fuel _ _ _ (fun q hq => k3 _ (s2 q hq)) (hb.1.mono k3) ((ha.2.1.mono k2).mono k3) (hb.2.2.mono k3)).bind fun L4 y k4 hy => Keeps.pure ⟨hx.mono k4, hy⟩

theorem cut_keeps (C : Cls T) (hc : C.clones = true) (fuel : Nat) (p : Option Nat) (l r : Int) (hsub : ∀ q, L0 q → L q) (hp : In L p) : Keeps L0 s0 L (cut C fuel p l r) (fun L' q => In L' q) := by
  rw [cut]
  exact (splitRange_keeps C hc fuel p l r hsub hp).bind fun L1 a _ ha => Keeps.pure ha.2.1

theorem replace_keeps (C : Cls T) (hc : C.clones = true) (fuel : Nat) (src dst : Option Nat) (l r : Int) (hsub : ∀ q, L0 q → L q) (h1 : In L src) (h2 : In L dst) : Keeps L0 s0 L (replace C fuel src dst l r) (fun L' q => In L' q) := by
  rw [replace]
  refine (size_keeps src h1).bind fun L1 n k1 _ => ?_
  exact (swap_keeps C hc fuel _ _ _ _ _ _ (fun q hq => k1 _ (hsub q hq)) (h2.mono k1) (h1.mono k1)).bind fun L2 a _ ha => Keeps.pure ha.1

/-- `dump` reads nodes reachable from its argument, and no colours. -/
theorem dumpGo_same (fuel : Nat) : ∀ (L : Nat → Prop) (s s' : Pool T) (p : Option Nat) (xs : List T) (t : Pool T), Closed L s → Same L s s' → In L p → dumpGo fuel p s = .ok (xs, t) → dumpGo fuel p s' = .ok (xs, s') ∧ t = s := by
  induction fuel with
  | zero => intro L s s' p xs t _ _ _ h; exact nomatch h
  | succ fuel ih =>
    intro L s s' p xs t hc hs hp h
    rw [dumpGo] at h ⊢
    replace h := bind_inv h
    obtain ⟨x, s1, h1, h⟩ := h
    obtain ⟨i, rfl, hx, rfl⟩ := load_inv h1
    obtain ⟨x', hx', e0, e1, ev, _⟩ := hs i x (hp i rfl) hx
    have hxc := hc i x (hp i rfl) hx
    change (load (some i) s' >>= fun q => (if q.1.isLeaf then pure [q.1.val] else dumpGo fuel q.1.ch0 >>= fun a => dumpGo fuel q.1.ch1 >>= fun b => pure (a ++ b) : H T (List T)) q.2) = _ ∧ _
    have hl : load (some i) s' = .ok (x', s') := by
      simp only [load]
      have : i < s'.pool.size := by
        by_cases hi : i < s'.pool.size
        · exact hi
        · rw [Array.getElem?_eq_none (by omega)] at hx'; exact nomatch hx'
      rw [rd_eq this, ok_bind]
      rw [Array.getElem?_eq_getElem this] at hx'
      cases hx'
      rfl
    rw [hl, ok_bind]
    dsimp only
    have hleaf : x'.isLeaf = x.isLeaf := by rw [Nd.isLeaf, Nd.isLeaf, e0, e1]
    rw [hleaf, ev, e0, e1]
    split at h
    · rename_i hb
      obtain ⟨ha, hb'⟩ := pure_inv h
      rw [if_pos hb, ha]
      exact ⟨rfl, hb'⟩
    · rename_i hb
      rw [if_neg hb]
      replace h := bind_inv h
      obtain ⟨a, s2, h2, h⟩ := h
      replace h := bind_inv h
      obtain ⟨b, s3, h3, h⟩ := h
      obtain ⟨ha, hb'⟩ := pure_inv h
      obtain ⟨f1, rfl⟩ := ih L s1 s' x.ch0 a s2 hc hs hxc.1 h2
      obtain ⟨f2, rfl⟩ := ih L s2 s' x.ch1 b s3 hc hs hxc.2 h3
      refine ⟨?_, hb'⟩
      change (dumpGo fuel x.ch0 s' >>= fun q => (dumpGo fuel x.ch1 q.2 >>= fun r => pure (q.1 ++ r.1, r.2))) = _
      rw [f1, ok_bind, f2, ok_bind, ha]
      rfl

theorem dump_same (fuel : Nat) (L : Nat → Prop) (s s' : Pool T) (p : Option Nat) (xs : List T) (t : Pool T) (hc : Closed L s) (hs : Same L s s') (hp : In L p) (h : dump fuel p s = .ok (xs, t)) : dump fuel p s' = .ok (xs, s') := by
  rw [dump] at h ⊢
  split at h
  · rename_i hn
    rw [if_pos hn]
    obtain ⟨ha, _⟩ := pure_inv h
    rw [ha]
    rfl
  · rename_i hn
    rw [if_neg hn]
    exact (dumpGo_same fuel L s s' p xs t hc hs hp h).1

end RedBlackHeap
