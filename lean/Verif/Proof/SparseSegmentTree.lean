import Verif.Spec.SparseSegmentTree
import Verif.Proof.SegTree
import Mathlib.Tactic.Tauto

namespace SparseSegmentTree
open Cxx
open SegTree (P_empty P_append P_one P_congr)

/-! ## Positions in the tree -/

/-- The interval of a position: the path from the root, last step first. -/
def iv (n : Nat) : List Bool → Nat × Nat
  | [] => (0, n)
  | true :: p => (((iv n p).1 + (iv n p).2) / 2, (iv n p).2)
  | false :: p => ((iv n p).1, ((iv n p).1 + (iv n p).2) / 2)

theorem iv_le (n : Nat) : ∀ p, (iv n p).1 ≤ (iv n p).2 ∧ (iv n p).2 ≤ n
  | [] => by simp [iv]
  | true :: p => by have := iv_le n p; simp only [iv]; omega
  | false :: p => by have := iv_le n p; simp only [iv]; omega

theorem iv_child (n : Nat) (b : Bool) (p : List Bool) : (iv n p).1 ≤ (iv n (b :: p)).1 ∧ (iv n (b :: p)).2 ≤ (iv n p).2 := by
  have := iv_le n p
  cases b <;> simp only [iv] <;> omega

theorem iv_mono (n : Nat) {p q : List Bool} (h : p <:+ q) : (iv n p).1 ≤ (iv n q).1 ∧ (iv n q).2 ≤ (iv n p).2 := by
  obtain ⟨t, rfl⟩ := h
  induction t with
  | nil => simp
  | cons b t ih =>
    have := iv_child n b (t ++ p)
    rw [List.cons_append]
    omega

theorem side {p q : List Bool} (h : p <:+ q) : q = p ∨ ∃ b, (b :: p) <:+ q := by
  obtain ⟨t, rfl⟩ := h
  rcases List.eq_nil_or_concat t with rfl | ⟨t, b, rfl⟩
  · exact .inl rfl
  · exact .inr ⟨b, t, by simp⟩

theorem side_unique {b b' : Bool} {p q : List Bool} (h : (b :: p) <:+ q) (h' : (b' :: p) <:+ q) : b = b' := by
  have := (List.suffix_of_suffix_length_le h h' (by simp)).eq_of_length (by simp)
  exact (List.cons.inj this).1

theorem not_suffix (b : Bool) (p : List Bool) : ¬ (b :: p) <:+ p := fun h => by
  have := h.length_le
  simp at this

theorem suffix_tail {b : Bool} {p q : List Bool} (h : (b :: p) <:+ q) : p <:+ q := (List.suffix_cons b p).trans h

theorem clog_half {n : Nat} (h : 2 ≤ n) : Nat.clog 2 (n - n / 2) + 1 = Nat.clog 2 n := by
  rw [Nat.clog_of_two_le (by omega) h]
  congr 2
  omega

theorem clog_child {n : Nat} (b : Bool) {p : List Bool} (h : 2 ≤ (iv n p).2 - (iv n p).1) :
    Nat.clog 2 ((iv n (b :: p)).2 - (iv n (b :: p)).1) + 1 ≤ Nat.clog 2 ((iv n p).2 - (iv n p).1) := by
  rw [← clog_half h]
  have := Nat.clog_mono_right 2 (show (iv n (b :: p)).2 - (iv n (b :: p)).1 ≤ (iv n p).2 - (iv n p).1 - ((iv n p).2 - (iv n p).1) / 2 by
    cases b <;> simp only [iv] <;> omega)
  omega

/-! ## The invariant -/

variable {T : Type} [Monoid T]

/-- The template parameters fit the monoid; `x` are the first values. -/
structure Lawful (P : Prm T) (x : Nat → T) : Prop where
  op : ∀ a b, P.op a b = a * b
  e : P.e = 1
  init : ∀ l r, l ≤ r → P.init l r = SegTree.P x l r

/-- Node `q` of the pool. -/
def nd (h : Pool T) (q : Nat) : Node T := at' ⟨0, 0, 1⟩ h q

/-- The node at position `p` of a tree with `n` elements `f` whose positions have the nodes `N`. -/
structure NodeOk (x : Nat → T) (h : Pool T) (n : Nat) (f : Nat → T) (N : List Bool → Nat) (p : List Bool) : Prop where
  lt : N p < h.size
  ch : ∀ b, (nd h (N p)).ch b = N (b :: p)
  dat : (nd h (N p)).dat = SegTree.P f (iv n p).1 (iv n p).2
  absent : 2 ≤ (iv n p).2 - (iv n p).1 → ∀ b, N (b :: p) = 0 → ∀ k, (iv n (b :: p)).1 ≤ k → k < (iv n (b :: p)).2 → f k = x k

/-- All trees `o` with sizes `n o`, elements `F o` and nodes `N o`. -/
structure Inv (x : Nat → T) (h : Pool T) (n : Nat → Nat) (F : Nat → Nat → T) (N : Nat → List Bool → Nat) : Prop where
  pos : 0 < h.size
  inj : ∀ o p o' p', N o p ≠ 0 → N o p = N o' p' → o = o' ∧ p = p'
  par : ∀ o b p, N o (b :: p) ≠ 0 → N o p ≠ 0 ∧ 2 ≤ (iv (n o) p).2 - (iv (n o) p).1
  ok : ∀ o p, N o p ≠ 0 → NodeOk x h (n o) (F o) (N o) p

theorem Inv.below {x : Nat → T} {h : Pool T} {n : Nat → Nat} {F : Nat → Nat → T} {N : Nat → List Bool → Nat} (I : Inv x h n F N) (o : Nat) (p : List Bool) : N o p < h.size := by
  by_cases e : N o p = 0
  · rw [e]; exact I.pos
  · exact (I.ok o p e).lt

theorem nd_set {h : Pool T} {q : Nat} (hq : q < h.size) (y : Node T) (r : Nat) : nd (h.setIfInBounds q y) r = if q = r then y else nd h r := at_set _ hq y r

theorem nd_push {h : Pool T} (y : Node T) {r : Nat} (hr : r < h.size) : nd (h.push y) r = nd h r := by
  unfold nd at'
  rw [Array.getElem?_push, if_neg (by omega)]

theorem nd_push_self {h : Pool T} (y : Node T) : nd (h.push y) h.size = y := by
  unfold nd at'
  simp

theorem rd_nd {h : Pool T} {q : Nat} (hq : q < h.size) : rd h q = .ok (nd h q) := rd_at _ hq

theorem setCh_ch (y : Node T) (b b' : Bool) (c : Nat) : (y.setCh b c).ch b' = if b = b' then c else y.ch b' := by
  cases b <;> cases b' <;> simp [Node.setCh, Node.ch]

theorem setCh_dat (y : Node T) (b : Bool) (c : Nat) : (y.setCh b c).dat = y.dat := by cases b <;> simp [Node.setCh]

/-- What `get_or_create_child` does. -/
structure ChildPost (h : Pool T) (N : Nat → List Bool → Nat) (o : Nat) (p : List Bool) (b : Bool) (h1 : Pool T) (c : Nat) (N1 : Nat → List Bool → Nat) : Prop where
  node : c = N1 o (b :: p)
  ne : c ≠ 0
  same : ∀ o' p', ¬ (o' = o ∧ p' = b :: p) → N1 o' p' = N o' p'
  keep : ∀ o' p', N o' p' ≠ 0 → N1 o' p' = N o' p'
  frame : ∀ q, q < h.size → q ≠ N o p → nd h1 q = nd h q
  le : h.size ≤ h1.size
  size : h1.size ≤ h.size + 1

theorem child_tot {P : Prm T} {x : Nat → T} (L : Lawful P x) {h : Pool T} {n : Nat → Nat} {F : Nat → Nat → T} {N : Nat → List Bool → Nat} (I : Inv x h n F N)
    {o : Nat} {p : List Bool} (hp : N o p ≠ 0) (hw : 2 ≤ (iv (n o) p).2 - (iv (n o) p).1) (b : Bool) (hsz : h.size < 2 ^ 32) :
    Tot (child P h (N o p) b (iv (n o) (b :: p)).1 (iv (n o) (b :: p)).2) fun r => ∃ N1, Inv x r.1 n F N1 ∧ ChildPost h N o p b r.1 r.2 N1 := by
  have ok := I.ok o p hp
  unfold child
  rw [rd_nd ok.lt, ok_bind]
  by_cases hc : (nd h (N o p)).ch b ≠ 0
  · rw [if_pos hc]
    exact Tot.pure ⟨N, I, ok.ch b, hc, fun _ _ _ => rfl, fun _ _ _ => rfl, fun _ _ _ => rfl, le_rfl, by dsimp only; omega⟩
  · rw [if_neg hc]
    rw [not_not, ok.ch b] at hc
    unfold newNode
    have hlt : N o p < (h.push ⟨0, 0, P.init (iv (n o) (b :: p)).1 (iv (n o) (b :: p)).2⟩).size := by rw [Array.size_push]; have := ok.lt; omega
    dsimp only
    rw [rd_nd hlt, ok_bind, wr_eq hlt, ok_bind, nd_push _ ok.lt, Nat.mod_eq_of_lt hsz]
    obtain ⟨y, hy⟩ : ∃ y : Node T, y = ⟨0, 0, P.init (iv (n o) (b :: p)).1 (iv (n o) (b :: p)).2⟩ := ⟨_, rfl⟩
    rw [← hy] at hlt ⊢
    obtain ⟨N1, hN1⟩ : ∃ N1 : Nat → List Bool → Nat, N1 = fun o' p' => if o' = o ∧ p' = b :: p then h.size else N o' p' := ⟨_, rfl⟩
    have hs : ∀ o' p', ¬ (o' = o ∧ p' = b :: p) → N1 o' p' = N o' p' := fun o' p' hh => by rw [hN1]; exact if_neg hh
    have hself : N1 o (b :: p) = h.size := by rw [hN1]; exact if_pos ⟨rfl, rfl⟩
    have hpos := I.pos
    have hbelow := I.below
    have hnd : ∀ q, q < h.size → q ≠ N o p → nd ((h.push y).setIfInBounds (N o p) ((nd h (N o p)).setCh b h.size)) q = nd h q := by
      intro q hq hne
      rw [nd_set hlt, if_neg (Ne.symm hne), nd_push _ hq]
    have hkeep : ∀ o' p', N o' p' ≠ 0 → N1 o' p' = N o' p' := by
      intro o' p' hne
      refine hs o' p' ?_
      rintro ⟨rfl, rfl⟩
      exact hne hc
    refine Tot.pure ⟨N1, ⟨?_, ?_, ?_, ?_⟩, hself.symm, by dsimp only; omega, hs, hkeep, hnd, by simp, by simp⟩
    · simp
    · intro o1 p1 o2 p2 h1 h2
      by_cases e1 : o1 = o ∧ p1 = b :: p
      · obtain ⟨rfl, rfl⟩ := e1
        rw [hself] at h2
        by_cases e2 : o2 = o1 ∧ p2 = b :: p
        · exact ⟨e2.1.symm, e2.2.symm⟩
        · rw [hs _ _ e2] at h2
          have := hbelow o2 p2
          omega
      · rw [hs _ _ e1] at h1 h2
        by_cases e2 : o2 = o ∧ p2 = b :: p
        · obtain ⟨rfl, rfl⟩ := e2
          rw [hself] at h2
          have := hbelow o1 p1
          omega
        · rw [hs _ _ e2] at h2
          exact I.inj o1 p1 o2 p2 h1 h2
    · intro o' b' p' hne
      by_cases e1 : o' = o ∧ b' :: p' = b :: p
      · obtain ⟨rfl, e⟩ := e1
        rw [(List.cons.inj e).2, hkeep _ _ hp]
        exact ⟨hp, hw⟩
      · rw [hs _ _ e1] at hne
        have := I.par o' b' p' hne
        rw [hkeep _ _ this.1]
        exact this
    · intro o' p' hne
      by_cases e1 : o' = o ∧ p' = b :: p
      · obtain ⟨rfl, rfl⟩ := e1
        have hch0 : ∀ b', N o' (b' :: b :: p) = 0 := fun b' => by
          by_contra hh
          exact (I.par o' b' _ hh).1 hc
        have hab : ∀ k, (iv (n o') (b :: p)).1 ≤ k → k < (iv (n o') (b :: p)).2 → F o' k = x k := ok.absent hw b hc
        refine ⟨by rw [hself]; simp, fun b' => ?_, ?_, fun _ b' _ k h1 h2 => ?_⟩
        · rw [hself, nd_set hlt, if_neg (by have := ok.lt; omega), nd_push_self, hs _ _ (by simp), hch0, hy]
          cases b' <;> rfl
        · rw [hself, nd_set hlt, if_neg (by have := ok.lt; omega), nd_push_self, hy]
          dsimp only
          rw [L.init _ _ (iv_le _ _).1]
          exact P_congr fun k h1 h2 => (hab k h1 h2).symm
        · have := iv_child (n o') b' (b :: p)
          exact hab k (by omega) (by omega)
      · rw [hs _ _ e1] at hne
        have ok' := I.ok o' p' hne
        by_cases e2 : o' = o ∧ p' = p
        · obtain ⟨rfl, rfl⟩ := e2
          refine ⟨by rw [hs _ _ e1]; simpa using Nat.lt_succ_of_lt ok.lt, fun b' => ?_, ?_, fun hw' b' hb' => ?_⟩
          · rw [hs _ _ e1, nd_set hlt, if_pos rfl, setCh_ch]
            by_cases eb : b = b'
            · subst eb
              rw [if_pos rfl, hself]
            · rw [if_neg eb, ok.ch, hs]
              rintro ⟨_, e⟩
              exact eb (List.cons.inj e).1.symm
          · rw [hs _ _ e1, nd_set hlt, if_pos rfl, setCh_dat, ok.dat]
          · by_cases eb : b = b'
            · subst eb
              rw [hself] at hb'
              omega
            · rw [hs] at hb'
              · exact ok.absent hw' b' hb'
              · rintro ⟨_, e⟩
                exact eb (List.cons.inj e).1.symm
        · have hq : N o' p' ≠ N o p := fun e => e2 (I.inj o' p' o p hne e)
          have hch : ∀ b', N1 o' (b' :: p') = N o' (b' :: p') := fun b' => hs _ _ (by
            rintro ⟨rfl, e⟩
            exact e2 ⟨rfl, (List.cons.inj e).2⟩)
          refine ⟨by rw [hs _ _ e1]; simpa using Nat.lt_succ_of_lt ok'.lt, fun b' => ?_, ?_, fun hw' b' hb' => ?_⟩
          · rw [hs _ _ e1, hnd _ ok'.lt hq, hch]
            exact ok'.ch b'
          · rw [hs _ _ e1, hnd _ ok'.lt hq]
            exact ok'.dat
          · rw [hch] at hb'
            exact ok'.absent hw' b' hb'

theorem getNode_child {P : Prm T} {x : Nat → T} (L : Lawful P x) {h : Pool T} {n : Nat} {f : Nat → T} {N : List Bool → Nat} {p : List Bool}
    (h1 : N p ≠ 0 → NodeOk x h n f N p) (h2 : N p = 0 → ∀ k, (iv n p).1 ≤ k → k < (iv n p).2 → f k = x k) :
    getNode P h (N p) (iv n p).1 (iv n p).2 = .ok (SegTree.P f (iv n p).1 (iv n p).2) := by
  unfold getNode
  by_cases e : N p ≠ 0
  · rw [if_pos e, rd_nd (h1 e).lt, ok_bind, (h1 e).dat]
    rfl
  · rw [if_neg e, L.init _ _ (iv_le _ _).1]
    rw [not_not] at e
    rw [P_congr (h2 e)]
    rfl

/-! ## Changes -/

/-- The elements of tree `o` after a change at `i`. -/
def upd (f : Nat → T) (i : Nat) (g : T → T) (k : Nat) : T := if k = i then g (f k) else f k

/-- What the recursion at position `p` of tree `o` does. -/
structure Post (x : Nat → T) (h : Pool T) (n : Nat → Nat) (f : Nat → T) (N : Nat → List Bool → Nat) (o : Nat) (p : List Bool) (h' : Pool T) (N' : Nat → List Bool → Nat) : Prop where
  same : ∀ o' p', ¬ (o' = o ∧ p <:+ p') → N' o' p' = N o' p'
  keep : ∀ o' p', N o' p' ≠ 0 → N' o' p' = N o' p'
  inj : ∀ o p o' p', N' o p ≠ 0 → N' o p = N' o' p' → o = o' ∧ p = p'
  par : ∀ o b p, N' o (b :: p) ≠ 0 → N' o p ≠ 0 ∧ 2 ≤ (iv (n o) p).2 - (iv (n o) p).1
  frame : ∀ o' p', N o' p' ≠ 0 → ¬ (o' = o ∧ p <:+ p') → nd h' (N o' p') = nd h (N o' p')
  ok : ∀ p', p <:+ p' → N' o p' ≠ 0 → NodeOk x h' (n o) f (N' o) p'
  le : h.size ≤ h'.size
  size : h'.size ≤ h.size + Nat.clog 2 ((iv (n o) p).2 - (iv (n o) p).1)

theorem NodeOk.of {x : Nat → T} {h h' : Pool T} {n : Nat} {f f' : Nat → T} {N N' : List Bool → Nat} {p : List Bool} (H : NodeOk x h n f N p)
    (hN : N' p = N p) (hc : ∀ b, N' (b :: p) = N (b :: p)) (hnd : nd h' (N p) = nd h (N p)) (hs : h.size ≤ h'.size)
    (hf : ∀ k, (iv n p).1 ≤ k → k < (iv n p).2 → f' k = f k) : NodeOk x h' n f' N' p := by
  refine ⟨by rw [hN]; exact lt_of_lt_of_le H.lt hs, fun b => ?_, ?_, fun hw b hb k h1 h2 => ?_⟩
  · rw [hN, hnd, hc]; exact H.ch b
  · rw [hN, hnd, H.dat]; exact P_congr fun k h1 h2 => (hf k h1 h2).symm
  · rw [hc] at hb
    have := iv_child n b p
    rw [hf k (by omega) (by omega)]
    exact H.absent hw b hb k h1 h2

theorem applyRec_tot {P : Prm T} {x : Nat → T} (L : Lawful P x) {n : Nat → Nat} {F : Nat → Nat → T} {o i : Nat} (g : T → T) (hmax : 2 * n o ≤ P.max + 1) (k : Nat) :
    ∀ (h : Pool T) (N : Nat → List Bool → Nat) (p : List Bool), Inv x h n F N → N o p ≠ 0 → (iv (n o) p).1 ≤ i → i < (iv (n o) p).2 →
      (iv (n o) p).2 - (iv (n o) p).1 ≤ k → h.size + Nat.clog 2 ((iv (n o) p).2 - (iv (n o) p).1) ≤ 2 ^ 32 →
      Tot (applyRec P g i (k + 1) h (N o p) (iv (n o) p).1 (iv (n o) p).2) fun h' => ∃ N', Post x h n (upd (F o) i g) N o p h' N' := by
  induction k with
  | zero => intro h N p I hp h1 h2 hk; omega
  | succ k ih =>
    intro h N p I hp h1 h2 hk hsz
    have ok := I.ok o p hp
    have hle := iv_le (n o) p
    unfold applyRec
    by_cases hleaf : (iv (n o) p).2 - (iv (n o) p).1 = 1
    · rw [if_pos hleaf]
      have hg := getNode_child L (h := h) (N := N o) (p := p) (fun _ => ok) (fun e => absurd e hp)
      rw [hg, ok_bind, rd_nd ok.lt, ok_bind, wr_eq ok.lt]
      have hi : (iv (n o) p).1 = i := by omega
      have hr : (iv (n o) p).2 = i + 1 := by omega
      rw [hi, hr, P_one]
      have hno : ∀ b, N o (b :: p) = 0 := fun b => by
        by_contra hh
        have := (I.par o b p hh).2
        omega
      have hno' : ∀ p', p <:+ p' → N o p' ≠ 0 → p' = p := by
        intro p' hs hne
        obtain ⟨t, rfl⟩ := hs
        induction t with
        | nil => rfl
        | cons b t iht =>
          have := I.par o b (t ++ p) hne
          have := iht this.1
          rw [List.cons_append, this] at hne
          exact absurd (hno b) hne
      refine Tot.pure ⟨N, fun _ _ _ => rfl, fun _ _ _ => rfl, I.inj, I.par, fun o' p' hne hns => ?_, fun p' hs hne => ?_, by simp, by simp⟩
      · rw [nd_set ok.lt, if_neg]
        intro e
        obtain ⟨rfl, rfl⟩ := I.inj o p o' p' hp e
        exact hns ⟨rfl, List.suffix_refl _⟩
      · have := hno' p' hs hne
        subst this
        refine ⟨by simpa using ok.lt, fun b => ?_, ?_, fun hw => by omega⟩
        · rw [nd_set ok.lt, if_pos rfl, ← ok.ch b]
          cases b <;> rfl
        · rw [nd_set ok.lt, if_pos rfl, hi, hr, P_one]
          simp [upd]
    · rw [if_neg hleaf]
      have hw : 2 ≤ (iv (n o) p).2 - (iv (n o) p).1 := by omega
      have hmid : mid P (iv (n o) p).1 (iv (n o) p).2 = .ok (((iv (n o) p).1 + (iv (n o) p).2) / 2) := by
        unfold mid
        rw [if_pos (by omega)]
        rfl
      rw [hmid, ok_bind]
      -- the side of `i`
      obtain ⟨b, hb⟩ : ∃ b, b = decide (¬ i < ((iv (n o) p).1 + (iv (n o) p).2) / 2) := ⟨_, rfl⟩
      have hin : (iv (n o) (b :: p)).1 ≤ i ∧ i < (iv (n o) (b :: p)).2 := by
        by_cases e : i < ((iv (n o) p).1 + (iv (n o) p).2) / 2
        · simp only [e, not_true, decide_false] at hb
          subst hb; simp only [iv]; omega
        · simp only [e, not_false_iff, decide_true] at hb
          subst hb; simp only [iv]; omega
      have hout : ∀ k, (iv (n o) ((!b) :: p)).1 ≤ k → k < (iv (n o) ((!b) :: p)).2 → upd (F o) i g k = F o k := by
        intro k k1 k2
        unfold upd
        rw [if_neg]
        rintro rfl
        revert k1 k2 hin
        cases b <;> simp only [iv, Bool.not_false, Bool.not_true] <;> omega
      have hcl := clog_child (n := n o) b (p := p) hw
      have step : Tot (do
            let r ← child P h (N o p) b (iv (n o) (b :: p)).1 (iv (n o) (b :: p)).2
            applyRec P g i (k + 1) r.1 r.2 (iv (n o) (b :: p)).1 (iv (n o) (b :: p)).2 : M (Pool T)) fun h2 =>
          ∃ h1 N1 N2, Inv x h1 n F N1 ∧ ChildPost h N o p b h1 (N1 o (b :: p)) N1 ∧ Post x h1 n (upd (F o) i g) N1 o (b :: p) h2 N2 := by
        refine Tot.bind (child_tot L I hp hw b (by omega)) ?_
        rintro ⟨h1, c⟩ ⟨N1, I1, C⟩
        dsimp only at I1 C ⊢
        have hc := C.node
        subst hc
        have hwid : (iv (n o) (b :: p)).2 - (iv (n o) (b :: p)).1 ≤ k := by
          cases b <;> simp only [iv] <;> omega
        have := C.size
        refine Tot.mono (ih h1 N1 (b :: p) I1 C.ne hin.1 hin.2 hwid (by omega)) ?_
        rintro h2 ⟨N2, Q⟩
        exact ⟨h1, N1, N2, I1, C, Q⟩
      have step' : Tot (if i < ((iv (n o) p).1 + (iv (n o) p).2) / 2 then do
            let (h, c) ← child P h (N o p) false (iv (n o) p).1 (((iv (n o) p).1 + (iv (n o) p).2) / 2)
            applyRec P g i (k + 1) h c (iv (n o) p).1 (((iv (n o) p).1 + (iv (n o) p).2) / 2)
          else do
            let (h, c) ← child P h (N o p) true (((iv (n o) p).1 + (iv (n o) p).2) / 2) (iv (n o) p).2
            applyRec P g i (k + 1) h c (((iv (n o) p).1 + (iv (n o) p).2) / 2) (iv (n o) p).2 : M (Pool T)) fun h2 =>
          ∃ h1 N1 N2, Inv x h1 n F N1 ∧ ChildPost h N o p b h1 (N1 o (b :: p)) N1 ∧ Post x h1 n (upd (F o) i g) N1 o (b :: p) h2 N2 := by
        by_cases e : i < ((iv (n o) p).1 + (iv (n o) p).2) / 2
        · rw [if_pos e]
          simp only [e, not_true, decide_false] at hb
          subst hb
          exact step
        · rw [if_neg e]
          simp only [e, not_false_iff, decide_true] at hb
          subst hb
          exact step
      refine Tot.bind step' ?_
      rintro h2 ⟨h1, N1, N2, I1, C, Q⟩
      have hp1 : N1 o p = N o p := C.keep o p hp
      have ok1 := I1.ok o p (by rw [hp1]; exact hp)
      have hcur : nd h2 (N o p) = nd h1 (N o p) := by
        have := Q.frame o p (by rw [hp1]; exact hp) (fun hh => not_suffix b p hh.2)
        rwa [hp1] at this
      have hlt2 : N o p < h2.size := lt_of_lt_of_le ok.lt (le_trans C.le Q.le)
      have hbN : N2 o (b :: p) = N1 o (b :: p) := Q.keep _ _ C.ne
      have hside : ∀ p', ((!b) :: p) <:+ p' → ¬ (b :: p) <:+ p' := fun p' a1 a2 => by
        have := side_unique a1 a2
        cases b <;> simp at this
      have hnbN : ∀ p', ((!b) :: p) <:+ p' → N2 o p' = N1 o p' := fun p' a1 => Q.same _ _ fun hh => hside p' a1 hh.2
      have hch2 : ∀ b', (nd h2 (N o p)).ch b' = N2 o (b' :: p) := by
        intro b'
        rw [hcur, ← hp1, ok1.ch b']
        by_cases eb : b' = b
        · subst eb; exact hbN.symm
        · have : b' = !b := by cases b <;> cases b' <;> simp at eb ⊢
          subst this
          exact (hnbN _ (List.suffix_refl _)).symm
      have okside : ∀ p', ((!b) :: p) <:+ p' → N2 o p' ≠ 0 → NodeOk x h2 (n o) (upd (F o) i g) (N2 o) p' := by
        intro p' hs hne
        rw [hnbN p' hs] at hne
        refine NodeOk.of (I1.ok o p' hne) (hnbN p' hs) (fun b' => hnbN _ (hs.trans (List.suffix_cons _ _))) (Q.frame o p' hne fun hh => hside p' hs hh.2) Q.le ?_
        intro k k1 k2
        have := iv_mono (n o) hs
        exact hout k (by omega) (by omega)
      have hvals : ∀ b', (N2 o (b' :: p) ≠ 0 → NodeOk x h2 (n o) (upd (F o) i g) (N2 o) (b' :: p)) ∧
          (N2 o (b' :: p) = 0 → ∀ k, (iv (n o) (b' :: p)).1 ≤ k → k < (iv (n o) (b' :: p)).2 → upd (F o) i g k = x k) := by
        intro b'
        by_cases eb : b' = b
        · subst eb
          exact ⟨Q.ok _ (List.suffix_refl _), fun e => absurd (hbN.symm.trans e) C.ne⟩
        · have : b' = !b := by cases b <;> cases b' <;> simp at eb ⊢
          subst this
          refine ⟨okside _ (List.suffix_refl _), fun e k k1 k2 => ?_⟩
          rw [hnbN _ (List.suffix_refl _)] at e
          rw [hout k k1 k2]
          exact ok1.absent hw _ e k k1 k2
      have g0 := getNode_child L (hvals false).1 (hvals false).2
      have g1 := getNode_child L (hvals true).1 (hvals true).2
      rw [rd_nd hlt2, ok_bind]
      have c0 : (nd h2 (N o p)).c0 = N2 o (false :: p) := hch2 false
      have c1 : (nd h2 (N o p)).c1 = N2 o (true :: p) := hch2 true
      rw [c0, c1]
      simp only [iv] at g0 g1
      rw [g0, ok_bind, g1, ok_bind, wr_eq hlt2, L.op, ← P_append _ (by omega) (by omega)]
      have hne2 : ∀ o' p', N2 o' p' ≠ 0 → ¬ (o' = o ∧ p' = p) → N o p ≠ N2 o' p' := by
        intro o' p' hne hh e
        have : N2 o p = N o p := by rw [Q.keep o p (by rw [hp1]; exact hp), hp1]
        obtain ⟨rfl, rfl⟩ := Q.inj o p o' p' (by rw [this]; exact hp) (by rw [this]; exact e)
        exact hh ⟨rfl, rfl⟩
      have hN2p : N2 o p = N o p := by rw [Q.keep o p (by rw [hp1]; exact hp), hp1]
      have hsame : ∀ o' p', ¬ (o' = o ∧ p <:+ p') → N2 o' p' = N1 o' p' ∧ N1 o' p' = N o' p' := by
        intro o' p' hh
        refine ⟨Q.same _ _ fun a => hh ⟨a.1, suffix_tail a.2⟩, C.same _ _ ?_⟩
        rintro ⟨rfl, rfl⟩
        exact hh ⟨rfl, List.suffix_cons _ _⟩
      refine Tot.pure ⟨N2, fun o' p' hh => (hsame o' p' hh).1.trans (hsame o' p' hh).2, fun o' p' hne => ?_, Q.inj, Q.par, fun o' p' hne hh => ?_, fun p' hs hne => ?_, ?_, ?_⟩
      · rw [Q.keep o' p' (by rw [C.keep o' p' hne]; exact hne), C.keep o' p' hne]
      · have e1 := (hsame o' p' hh).2
        rw [nd_set hlt2, if_neg]
        · have := Q.frame o' p' (by rw [e1]; exact hne) (fun a => hh ⟨a.1, suffix_tail a.2⟩)
          rw [e1] at this
          rw [this]
          refine C.frame _ (I.below o' p') fun e => ?_
          obtain ⟨rfl, rfl⟩ := I.inj o' p' o p hne e
          exact hh ⟨rfl, List.suffix_refl _⟩
        · intro e
          obtain ⟨rfl, rfl⟩ := I.inj o p o' p' hp e
          exact hh ⟨rfl, List.suffix_refl _⟩
      · rcases side hs with rfl | ⟨b', hb'⟩
        · refine ⟨by rw [hN2p]; simpa using hlt2, fun b' => ?_, ?_, fun _ b' => (hvals b').2⟩
          · rw [hN2p, nd_set hlt2, if_pos rfl]
            cases b' <;> rfl
          · rw [hN2p, nd_set hlt2, if_pos rfl]
        · have hpne : p' ≠ p := by
            rintro rfl
            exact not_suffix b' p' hb'
          have base : NodeOk x h2 (n o) (upd (F o) i g) (N2 o) p' := by
            by_cases eb : b' = b
            · subst eb
              exact Q.ok p' hb' hne
            · have : b' = !b := by cases b <;> cases b' <;> simp at eb ⊢
              subst this
              exact okside p' hb' hne
          refine base.of rfl (fun _ => rfl) ?_ (by simp) fun _ _ _ => rfl
          rw [nd_set hlt2, if_neg (hne2 o p' hne fun a => hpne a.2)]
      · simpa using le_trans C.le Q.le
      · have := C.size
        have := Q.size
        simp
        omega

/-! ## Queries -/

theorem mid_eq {P : Prm T} {n : Nat} (hmax : 2 * n ≤ P.max + 1) {p : List Bool} (hw : 2 ≤ (iv n p).2 - (iv n p).1) :
    mid P (iv n p).1 (iv n p).2 = .ok (((iv n p).1 + (iv n p).2) / 2) := by
  have := iv_le n p
  unfold mid
  rw [if_pos (by omega)]
  rfl

theorem query_tot {P : Prm T} {x : Nat → T} (L : Lawful P x) {h : Pool T} {n : Nat} {f : Nat → T} {N : List Bool → Nat} (hok : ∀ p, N p ≠ 0 → NodeOk x h n f N p)
    (hmax : 2 * n ≤ P.max + 1) {ql qr : Nat} (hq : ql ≤ qr) (k : Nat) : ∀ p, (iv n p).2 - (iv n p).1 ≤ k → ((iv n p).1 < (iv n p).2 ∨ qr ≤ (iv n p).1) →
      (N p = 0 → ∀ k, (iv n p).1 ≤ k → k < (iv n p).2 → f k = x k) →
      query P h ql qr (k + 1) (N p) (iv n p).1 (iv n p).2 = .ok (SegTree.P f (Nat.max ql (iv n p).1) (Nat.min qr (iv n p).2)) := by
  induction k with
  | zero =>
    intro p hk hpos ha
    have := iv_le n p
    unfold query
    rw [if_pos (by omega), P_empty _ (by show min _ _ ≤ max _ _; omega), L.e]
    rfl
  | succ k ih =>
    intro p hk hpos ha
    have hle := iv_le n p
    unfold query
    by_cases h1 : (iv n p).2 ≤ ql ∨ qr ≤ (iv n p).1
    · rw [if_pos h1, P_empty _ (by show min _ _ ≤ max _ _; omega), L.e]
      rfl
    · rw [if_neg h1]
      by_cases h2 : N p = 0
      · rw [if_pos h2, L.init _ _ (by show max _ _ ≤ min _ _; omega)]
        have : SegTree.P x (Nat.max ql (iv n p).1) (Nat.min qr (iv n p).2) = SegTree.P f (Nat.max ql (iv n p).1) (Nat.min qr (iv n p).2) := by
          refine P_congr fun j j1 j2 => (ha h2 j ?_ ?_).symm
          · exact le_trans (Nat.le_max_right _ _) j1
          · exact lt_of_lt_of_le j2 (Nat.min_le_right _ _)
        rw [this]
        rfl
      · rw [if_neg h2]
        have ok := hok p h2
        rw [rd_nd ok.lt, ok_bind]
        by_cases h3 : ql ≤ (iv n p).1 ∧ (iv n p).2 ≤ qr
        · rw [if_pos h3, ok.dat, show Nat.max ql (iv n p).1 = (iv n p).1 by show max _ _ = _; omega, show Nat.min qr (iv n p).2 = (iv n p).2 by show min _ _ = _; omega]
          rfl
        · rw [if_neg h3]
          have hw : 2 ≤ (iv n p).2 - (iv n p).1 := by omega
          rw [mid_eq hmax hw, ok_bind]
          have c0 : (nd h (N p)).c0 = N (false :: p) := ok.ch false
          have c1 : (nd h (N p)).c1 = N (true :: p) := ok.ch true
          have i0 := ih (false :: p) (by simp only [iv]; omega) (by simp only [iv]; omega) (ok.absent hw false)
          have i1 := ih (true :: p) (by simp only [iv]; omega) (by simp only [iv]; omega) (ok.absent hw true)
          simp only [iv] at i0 i1
          rw [c0, c1, i0, ok_bind, i1, ok_bind, L.op]
          obtain ⟨m, hm⟩ : ∃ m, m = ((iv n p).1 + (iv n p).2) / 2 := ⟨_, rfl⟩
          rw [← hm]
          have : SegTree.P f (Nat.max ql (iv n p).1) (Nat.min qr m) * SegTree.P f (Nat.max ql m) (Nat.min qr (iv n p).2) = SegTree.P f (Nat.max ql (iv n p).1) (Nat.min qr (iv n p).2) := by
            by_cases a1 : qr ≤ m
            · rw [P_empty _ (show Nat.min qr (iv n p).2 ≤ Nat.max ql m by show min _ _ ≤ max _ _; omega), mul_one]
              congr 1
              show min _ _ = min _ _; omega
            · by_cases a2 : m ≤ ql
              · rw [P_empty _ (show Nat.min qr m ≤ Nat.max ql (iv n p).1 by show min _ _ ≤ max _ _; omega), one_mul]
                congr 1
                show max _ _ = max _ _; omega
              · rw [show Nat.min qr m = m by show min _ _ = _; omega, show Nat.max ql m = m by show max _ _ = _; omega]
                exact (P_append _ (by show max _ _ ≤ _; omega) (by show _ ≤ min _ _; omega)).symm
          rw [this]
          rfl

theorem getLoop_tot {P : Prm T} {x : Nat → T} {h : Pool T} {n : Nat} {f : Nat → T} {N : List Bool → Nat} (hok : ∀ p, N p ≠ 0 → NodeOk x h n f N p)
    (hmax : 2 * n ≤ P.max + 1) {i : Nat} (k : Nat) : ∀ p, (iv n p).2 - (iv n p).1 ≤ k → (iv n p).1 ≤ i → i < (iv n p).2 →
      (N p = 0 → ∀ k, (iv n p).1 ≤ k → k < (iv n p).2 → f k = x k) →
      Tot (getLoop P h i (k + 1) (N p) (iv n p).1 (iv n p).2) fun q => (q = 0 → f i = x i) ∧ (q ≠ 0 → q < h.size ∧ (nd h q).dat = f i) := by
  induction k with
  | zero => intro p hk h1 h2; omega
  | succ k ih =>
    intro p hk h1 h2 ha
    have hle := iv_le n p
    unfold getLoop
    by_cases hc : N p ≠ 0 ∧ (iv n p).2 - (iv n p).1 > 1
    · rw [if_pos hc]
      have ok := hok p hc.1
      rw [mid_eq hmax hc.2, ok_bind, rd_nd ok.lt, ok_bind]
      have c0 : (nd h (N p)).c0 = N (false :: p) := ok.ch false
      have c1 : (nd h (N p)).c1 = N (true :: p) := ok.ch true
      rw [c0, c1]
      by_cases e : i < ((iv n p).1 + (iv n p).2) / 2
      · rw [if_pos e]
        exact ih (false :: p) (by simp only [iv]; omega) (by simp only [iv]; omega) (by simp only [iv]; omega) (ok.absent hc.2 false)
      · rw [if_neg e]
        exact ih (true :: p) (by simp only [iv]; omega) (by simp only [iv]; omega) (by simp only [iv]; omega) (ok.absent hc.2 true)
    · rw [if_neg hc]
      refine Tot.pure ⟨fun e => ha e i h1 h2, fun e => ?_⟩
      have ok := hok p e
      have hw : ¬ (iv n p).2 - (iv n p).1 > 1 := fun a => hc ⟨e, a⟩
      refine ⟨ok.lt, ?_⟩
      rw [ok.dat, show (iv n p).1 = i by omega, show (iv n p).2 = i + 1 by omega, P_one]

/-! ## The family of objects -/

/-- The pool and the objects represent the arrays. -/
def Sim (P : Prm T) (x : Nat → T) (s : State T) (t : Spec.St T) : Prop :=
  ∃ N : Nat → List Bool → Nat, Inv x s.pool (fun a => (t.trees.getD a (0, fun _ => 1)).1) (fun a => (t.trees.getD a (0, fun _ => 1)).2) N ∧
    s.pool.size ≤ t.used ∧ s.objs.size = t.objs.length ∧
    (∀ a, a < t.trees.length → N a [] ≠ 0 ∧ 2 * (t.trees.getD a (0, fun _ => 1)).1 ≤ P.max + 1) ∧ (∀ a, t.trees.length ≤ a → ∀ p, N a p = 0) ∧
    ∀ o, o < t.objs.length → t.objs.getD o 0 < t.trees.length ∧ at' ⟨0, 0⟩ s.objs o = ⟨(t.arr o).1, N (t.objs.getD o 0) []⟩

theorem sim_start (P : Prm T) (x : Nat → T) : Sim P x ⟨pool0 P, #[]⟩ Spec.start := by
  refine ⟨fun _ _ => 0, ⟨by simp [pool0], ?_, ?_, ?_⟩, by simp [pool0, Spec.start], by simp [Spec.start], by simp [Spec.start], by simp, by simp [Spec.start]⟩
  · intro o p o' p' h; exact absurd rfl h
  · intro o b p h; exact absurd rfl h
  · intro o p h; exact absurd rfl h

theorem getD_append_lt {α : Type} {l : List α} {y d : α} {a : Nat} (h : a < l.length) : (l ++ [y]).getD a d = l.getD a d := by
  simp [List.getD, List.getElem?_append_left h]

theorem getD_append_self {α : Type} {l : List α} {y d : α} : (l ++ [y]).getD l.length d = y := by simp [List.getD]

theorem make_sim {P : Prm T} {x : Nat → T} (L : Lawful P x) {s : State T} {t : Spec.St T} (S : Sim P x s t) {n : Nat} (hn : 2 * n ≤ P.max + 1) (hu : t.used < 2 ^ 32) :
    Sim P x ⟨(make P s.pool n).1, s.objs.push (make P s.pool n).2⟩ (Spec.next x t (.make n)) := by
  obtain ⟨N, I, hsz, hos, htr, hab, hob⟩ := S
  have hpos := I.pos
  have hbelow := I.below
  unfold make newNode
  dsimp only [Spec.next]
  rw [Nat.mod_eq_of_lt (by omega)]
  obtain ⟨y, hy⟩ : ∃ y : Node T, y = ⟨0, 0, P.init 0 n⟩ := ⟨_, rfl⟩
  rw [← hy]
  obtain ⟨N', hN'⟩ : ∃ N' : Nat → List Bool → Nat, N' = fun a p => if a = t.trees.length ∧ p = [] then s.pool.size else N a p := ⟨_, rfl⟩
  have hself : N' t.trees.length [] = s.pool.size := by rw [hN']; exact if_pos ⟨rfl, rfl⟩
  have hs : ∀ a p, ¬ (a = t.trees.length ∧ p = []) → N' a p = N a p := fun a p hh => by rw [hN']; exact if_neg hh
  have hgd : ∀ a, a < t.trees.length → (t.trees ++ [(n, x)]).getD a (0, fun _ => 1) = t.trees.getD a (0, fun _ => 1) := fun a ha => getD_append_lt ha
  have hlive : ∀ a p, N a p ≠ 0 → a < t.trees.length := fun a p hne => by
    by_contra hh
    exact hne (hab a (by omega) p)
  refine ⟨N', ⟨by simp, ?_, ?_, ?_⟩, by simp; omega, by simp [hos], ?_, ?_, ?_⟩
  · intro o1 p1 o2 p2 h1 h2
    by_cases e1 : o1 = t.trees.length ∧ p1 = []
    · obtain ⟨rfl, rfl⟩ := e1
      by_cases e2 : o2 = t.trees.length ∧ p2 = []
      · exact ⟨e2.1.symm, e2.2.symm⟩
      · rw [hself, hs _ _ e2] at h2
        have := hbelow o2 p2
        omega
    · rw [hs _ _ e1] at h1 h2
      by_cases e2 : o2 = t.trees.length ∧ p2 = []
      · obtain ⟨rfl, rfl⟩ := e2
        rw [hself] at h2
        have := hbelow o1 p1
        omega
      · rw [hs _ _ e2] at h2
        exact I.inj o1 p1 o2 p2 h1 h2
  · intro o b p hne
    rw [hs _ _ (by simp)] at hne
    have ho := hlive _ _ hne
    rw [hs _ _ (by rintro ⟨e, _⟩; omega), hgd o ho]
    exact I.par o b p hne
  · intro o p hne
    by_cases e1 : o = t.trees.length ∧ p = []
    · obtain ⟨rfl, rfl⟩ := e1
      rw [getD_append_self]
      refine ⟨by rw [hself]; simp, fun b => ?_, ?_, fun _ _ _ _ _ _ => rfl⟩
      · rw [hself, nd_push_self, hs _ _ (by simp), hab _ le_rfl, hy]
        cases b <;> rfl
      · rw [hself, nd_push_self, hy]
        exact L.init _ _ (Nat.zero_le _)
    · rw [hs _ _ e1] at hne
      have ho := hlive _ _ hne
      rw [hgd o ho]
      have ok := I.ok o p hne
      refine ok.of (hs _ _ e1) (fun b => hs _ _ (by simp)) ?_ (by simp) fun _ _ _ => rfl
      exact nd_push _ ok.lt
  · intro a ha
    rw [List.length_append, List.length_singleton] at ha
    by_cases e : a = t.trees.length
    · subst e
      rw [hself, getD_append_self]
      exact ⟨by omega, hn⟩
    · rw [hs _ _ (fun h => e h.1), hgd a (by omega)]
      exact htr a (by omega)
  · intro a ha p
    rw [List.length_append, List.length_singleton] at ha
    rw [hs _ _ (by rintro ⟨e, _⟩; omega)]
    exact hab a (by omega) p
  · intro o ho
    rw [List.length_append, List.length_singleton] at ho
    unfold Spec.St.arr
    dsimp only
    by_cases e : o = t.objs.length
    · subst e
      rw [getD_append_self, getD_append_self, hself, ← hos]
      refine ⟨by simp, by simp [at']⟩
    · have ho' : o < t.objs.length := by omega
      have := hob o ho'
      rw [getD_append_lt ho', hgd _ this.1, hs _ _ (fun h => by omega)]
      refine ⟨by rw [List.length_append]; omega, ?_⟩
      have e2 := this.2
      unfold at' at e2 ⊢
      rw [Array.getElem?_push, if_neg (by omega), e2]
      rfl

theorem change_sim {P : Prm T} {x : Nat → T} (L : Lawful P x) {s : State T} {t : Spec.St T} (S : Sim P x s t) {o : Nat} (ho : o < t.objs.length) {i : Int} (h0 : 0 ≤ i)
    (hi : i < (t.arr o).1) (hu : t.used + Nat.clog 2 (t.arr o).1 ≤ 2 ^ 32) (g : T → T) :
    Tot (applyFun P s.pool (at' ⟨0, 0⟩ s.objs o) i g) fun h => Sim P x { s with pool := h } (t.change o i.toNat g) := by
  obtain ⟨N, I, hsz, hos, htr, hab, hob⟩ := S
  obtain ⟨ha, hobj⟩ := hob o ho
  obtain ⟨a, hae⟩ : ∃ a, a = t.objs.getD o 0 := ⟨_, rfl⟩
  have harr : t.arr o = t.trees.getD a (0, fun _ => 1) := by rw [hae]; rfl
  rw [← hae] at ha hobj
  rw [hobj]
  unfold applyFun
  dsimp only
  rw [decide_eq_true ⟨h0, hi⟩, check_true, ok_bind]
  obtain ⟨hroot, hm⟩ := htr a ha
  have key := applyRec_tot L (n := fun a => (t.trees.getD a (0, fun _ => 1)).1) (F := fun a => (t.trees.getD a (0, fun _ => 1)).2) (o := a) (i := i.toNat) g hm (t.arr o).1 s.pool N [] I hroot
    (Nat.zero_le _) (by simp only [iv]; rw [← harr]; omega) (by simp only [iv]; rw [← harr]; omega) (by simp only [iv]; rw [← harr, Nat.sub_zero]; omega)
  simp only [iv, ← harr] at key
  refine Tot.mono key ?_
  rintro h' ⟨N', Q⟩
  have hsize := Q.size
  simp only [iv, ← harr, Nat.sub_zero] at hsize
  have hset : ∀ a', (t.trees.set a ((t.arr o).1, fun k => if k = i.toNat then g ((t.arr o).2 k) else (t.arr o).2 k)).getD a' (0, fun _ => 1) =
      if a' = a then ((t.arr o).1, fun k => if k = i.toNat then g ((t.arr o).2 k) else (t.arr o).2 k) else t.trees.getD a' (0, fun _ => 1) := by
    intro a'
    rw [List.getD, List.getElem?_set]
    by_cases e : a = a'
    · subst e; simp [ha]
    · rw [if_neg e, if_neg (Ne.symm e)]; rfl
  have hfst : ∀ a', ((t.trees.set a ((t.arr o).1, fun k => if k = i.toNat then g ((t.arr o).2 k) else (t.arr o).2 k)).getD a' (0, fun _ => 1)).1 = (t.trees.getD a' (0, fun _ => 1)).1 := by
    intro a'
    rw [hset]
    split
    · subst_vars; rw [harr]
    · rfl
  have hst : t.change o i.toNat g = ⟨t.used + Nat.clog 2 (t.arr o).1, t.trees.set a ((t.arr o).1, fun k => if k = i.toNat then g ((t.arr o).2 k) else (t.arr o).2 k), t.objs⟩ := by
    unfold Spec.St.change
    rw [← hae]
  rw [hst]
  refine ⟨N', ⟨?_, Q.inj, ?_, ?_⟩, ?_, hos, ?_, ?_, ?_⟩
  · exact lt_of_lt_of_le I.pos Q.le
  · intro o' b p hne
    dsimp only
    rw [hfst]
    exact Q.par o' b p hne
  · intro o' p hne
    dsimp only
    by_cases e : o' = a
    · subst e
      have := Q.ok p ⟨p, by simp⟩ hne
      rw [hset, if_pos rfl]
      dsimp only at this ⊢
      rw [← harr] at this
      exact this
    · have hsame : ∀ p, N' o' p = N o' p := fun p => Q.same o' p fun hh => e hh.1
      rw [hsame] at hne
      rw [hset, if_neg e]
      exact (I.ok o' p hne).of (hsame p) (fun b => hsame _) (Q.frame o' p hne fun hh => e hh.1) Q.le fun _ _ _ => rfl
  · dsimp only; omega
  · intro a' ha'
    rw [List.length_set] at ha'
    dsimp only
    rw [hfst]
    obtain ⟨r1, r2⟩ := htr a' ha'
    exact ⟨by rw [Q.keep a' [] r1]; exact r1, r2⟩
  · intro a' ha' p
    rw [List.length_set] at ha'
    rw [Q.same a' p (by rintro ⟨e, _⟩; omega)]
    exact hab a' ha' p
  · intro o' ho'
    obtain ⟨q1, q2⟩ := hob o' ho'
    dsimp only
    refine ⟨by rw [List.length_set]; exact q1, ?_⟩
    rw [q2, Q.keep _ _ (htr _ q1).1]
    unfold Spec.St.arr
    dsimp only
    have e := hfst (t.objs.getD o' 0)
    unfold Spec.St.arr at e
    rw [e]

theorem step_tot {P : Prm T} {x : Nat → T} (L : Lawful P x) (s : State T) (t : Spec.St T) (i : Op T) (S : Sim P x s t) (hp : Spec.Pre P.max t i) :
    Tot (step P s i) fun r => Sim P x r.1 (Spec.next x t i) ∧ Spec.Ans t i r.2 := by
  have hrd : ∀ o, o < t.objs.length → rd s.objs o = .ok (at' ⟨0, 0⟩ s.objs o) := by
    intro o ho
    obtain ⟨N, I, hsz, hos, -⟩ := S
    exact rd_at _ (by omega)
  cases i with
  | make n => exact Tot.pure ⟨make_sim L S hp.1 hp.2, rfl⟩
  | copy o =>
    dsimp only [step]
    rw [hrd o hp, ok_bind]
    refine Tot.pure ⟨?_, rfl⟩
    obtain ⟨N, I, hsz, hos, htr, hab, hob⟩ := S
    refine ⟨N, I, hsz, by simp [Spec.next, hos], htr, hab, fun o' ho' => ?_⟩
    simp only [Spec.next, List.length_append, List.length_singleton] at ho'
    have hp' : o < t.objs.length := hp
    unfold Spec.St.arr
    dsimp only [Spec.next]
    by_cases e : o' = t.objs.length
    · subst e
      rw [getD_append_self]
      refine ⟨(hob o hp').1, ?_⟩
      rw [← hos]
      have := (hob o hp').2
      unfold Spec.St.arr at this
      simp only [at', Array.getElem?_push_size, Option.getD_some]
      exact this
    · rw [getD_append_lt (by omega)]
      have := hob o' (by omega)
      refine ⟨this.1, ?_⟩
      have e2 := this.2
      unfold at' at e2 ⊢
      rw [Array.getElem?_push, if_neg (by omega), e2]
      rfl
  | get o i =>
    obtain ⟨ho, h0, hi⟩ := hp
    dsimp only [step]
    rw [hrd o ho, ok_bind]
    have S' := S
    obtain ⟨N, I, hsz, hos, htr, hab, hob⟩ := S'
    obtain ⟨ha, hobj⟩ := hob o ho
    obtain ⟨hroot, hm⟩ := htr _ ha
    unfold get
    rw [hobj]
    dsimp only
    rw [decide_eq_true ⟨h0, hi⟩, check_true, ok_bind]
    have key := getLoop_tot (P := P) (x := x) (h := s.pool) (n := (t.arr o).1) (f := (t.arr o).2) (N := N (t.objs.getD o 0)) (fun p hne => I.ok _ p hne) hm (i := i.toNat) (t.arr o).1 []
      (by simp only [iv]; omega) (Nat.zero_le _) (by simp only [iv]; omega) (fun e => absurd e hroot)
    simp only [iv] at key
    rw [bind_assoc]
    refine Tot.bind key ?_
    rintro q ⟨q1, q2⟩
    unfold getNode
    by_cases e : q ≠ 0
    · rw [if_pos e, rd_nd (q2 e).1, ok_bind, pure_eq, ok_bind]
      exact Tot.pure ⟨S, by rw [(q2 e).2]; rfl⟩
    · rw [if_neg e, pure_eq, ok_bind, L.init _ _ (by omega), P_one]
      exact Tot.pure ⟨S, by rw [← q1 (by omega)]; rfl⟩
  | applyFun o i g =>
    obtain ⟨ho, h0, hi, hu⟩ := hp
    dsimp only [step]
    rw [hrd o ho, ok_bind]
    exact Tot.bind (change_sim L S ho h0 hi hu g) fun h hh => Tot.pure ⟨hh, rfl⟩
  | set o i v =>
    obtain ⟨ho, h0, hi, hu⟩ := hp
    dsimp only [step]
    rw [hrd o ho, ok_bind]
    exact Tot.bind (change_sim L S ho h0 hi hu fun _ => v) fun h hh => Tot.pure ⟨hh, rfl⟩
  | prod o l r =>
    obtain ⟨ho, h0, hlr, hr⟩ := hp
    dsimp only [step]
    rw [hrd o ho, ok_bind]
    have S' := S
    obtain ⟨N, I, hsz, hos, htr, hab, hob⟩ := S'
    obtain ⟨ha, hobj⟩ := hob o ho
    obtain ⟨hroot, hm⟩ := htr _ ha
    unfold prod
    rw [hobj]
    dsimp only
    rw [decide_eq_true ⟨h0, hlr, hr⟩, check_true, ok_bind]
    have key := query_tot L (h := s.pool) (n := (t.arr o).1) (f := (t.arr o).2) (N := N (t.objs.getD o 0)) (fun p hne => I.ok _ p hne) hm (ql := l.toNat) (qr := r.toNat) (by omega) (t.arr o).1 []
      (by simp only [iv]; omega) (by simp only [iv]; omega) (fun e => absurd e hroot)
    simp only [iv] at key
    rw [key, ok_bind, show Nat.max l.toNat 0 = l.toNat by show max _ _ = _; omega, show Nat.min r.toNat (t.arr o).1 = r.toNat by show min _ _ = _; omega]
    exact Tot.pure ⟨S, rfl⟩
  | prodAll o =>
    dsimp only [step]
    rw [hrd o hp, ok_bind]
    have S' := S
    obtain ⟨N, I, hsz, hos, htr, hab, hob⟩ := S'
    obtain ⟨ha, hobj⟩ := hob o hp
    obtain ⟨hroot, hm⟩ := htr _ ha
    unfold prodAll
    rw [hobj]
    have ok := I.ok _ [] hroot
    dsimp only
    rw [rd_nd ok.lt, ok_bind, ok.dat, pure_eq, ok_bind]
    exact Tot.pure ⟨S, rfl⟩

end SparseSegmentTree
