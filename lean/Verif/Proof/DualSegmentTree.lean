import Verif.Model.DualSegmentTree
import Verif.Proof.LazySegmentTree

/-! # Dual segment trees: helper lemmas -/

namespace DualSegmentTree
open Cxx SegTree
open LazySegmentTree (up up_zero up_pos up_one push_up str_left str_right not_str S S_up)

variable {T F : Type} [Monoid F] [MulAction F T]

/-- Multiplicative notation for the template parameters. -/
def prm (T F : Type) [Monoid F] [MulAction F T] : Params T F := ⟨(· • ·), (· * ·), 1⟩

abbrev laz (s : State T F) : Nat → F := at' 1 s.lazy

/-- The tree represents the array `f`. -/
structure Rep (n m lg : Nat) (f : Nat → T) (s : State T F) : Prop where
  hn : s.n = n
  hsm : s.m = m
  hm : m = 2 ^ lg
  hle : n ≤ m
  hsz : s.data.size = n
  hlz : s.lazy.size = m
  leaf : ∀ i, i < n → ∃ v, s.data[i]? = some v ∧ up (laz s) ((m + i) / 2) • v = f i

variable {n m lg : Nat} {f : Nat → T} {s : State T F}

theorem Rep.m_pos (h : Rep n m lg f s) : 1 ≤ m := by rw [h.hm]; exact pow_pos' lg

theorem ofVector_tot (a : Array T) (f : Nat → T) (hf : ∀ i, (h : i < a.size) → f i = a[i]) :
    Tot (ofVector (prm T F) a) fun s => ∃ m lg, Rep a.size m lg f s := by
  unfold ofVector
  refine Tot.bind (ceilPow2_tot a.size) ?_
  rintro m ⟨h1, j, h2⟩
  refine Tot.pure ⟨m, j, rfl, rfl, h2, h1, rfl, by simp, fun i hi => ⟨a[i], by simp [hi], ?_⟩⟩
  have hz : ∀ x, at' (1 : F) (Array.replicate m (prm T F).id) x = 1 := by
    intro x
    unfold at'
    rw [Array.getElem?_replicate]
    split <;> rfl
  rw [up_one (C := fun _ => True) (fun _ _ _ => trivial) (fun x _ _ => hz x) (Or.inr trivial), one_smul, hf i hi]

theorem get_eq (h : Rep n m lg f s) {i : Nat} (hi : i < n) : get (prm T F) s i = .ok (f i) := by
  rw [← tot_eq]
  unfold get
  rw [h.hn, decide_eq_true hi, check_true, ok_bind]
  obtain ⟨v, hv, hf⟩ := h.leaf i hi
  rw [rd_some hv, ok_bind]
  have hle := h.hle
  have hsm := h.hsm
  have hlz := h.hlz
  refine Tot.bind (Tot.loop (P := fun q : Nat × T => q.1 < m ∧ up (laz s) q.1 • q.2 = f i) (Q := fun q => q.2 = f i) (fun q => q.1) ?_ ?_ ?_) ?_
  · rintro ⟨k, w⟩ ⟨h1, h2⟩
    dsimp only at h1 h2
    unfold getStep
    dsimp only
    split
    next hk =>
      subst hk
      rw [up_zero, one_smul] at h2
      exact Tot.pure h2
    next hk =>
      rw [rd_at 1 (by omega), ok_bind]
      refine Tot.pure ⟨⟨by om, ?_⟩, by om⟩
      dsimp only
      rw [up_pos _ (by omega), mul_smul] at h2
      exact h2
  · refine ⟨by om, ?_⟩
    dsimp only
    rw [hsm, Nat.add_comm]
    exact hf
  · om
  · rintro ⟨_, w⟩ hw
    exact Tot.pure hw

/-- Weak effect of a node application, also for padding leaves. -/
theorem applyNode_any {s : State T F} (hn : s.n = n) (hsm : s.m = m) (hsz : s.data.size = n) (hlz : s.lazy.size = m) {k : Nat} (φ : F) :
    ∃ s', applyNode (prm T F) s k φ = .ok s' ∧ s'.n = n ∧ s'.m = m ∧ s'.data.size = n ∧ s'.lazy.size = m ∧
    (∀ i, i < n → s'.data[i]? = if k = m + i then (s.data[i]?).map (φ • ·) else s.data[i]?) ∧
    (∀ x, laz s' x = if k = x ∧ k < m then φ * laz s k else laz s x) := by
  unfold applyNode
  rw [hsm, hn]
  split
  next hlt =>
    rw [rd_at 1 (by omega), ok_bind, wr_eq (by omega), ok_bind]
    refine ⟨_, rfl, rfl, rfl, hsz, by simpa using hlz, fun i hi => ?_, fun x => ?_⟩
    · rw [if_neg (by omega)]
    · show at' 1 (s.lazy.setIfInBounds k _) x = _
      rw [at_set 1 (by omega)]
      simp only [hlt, and_true]
      rfl
  next hlt =>
    split
    next hlt2 =>
      rw [rd_eq (by omega), ok_bind, wr_eq (by omega), ok_bind]
      refine ⟨_, rfl, rfl, rfl, by simpa using hsz, hlz, fun i hi => ?_, fun x => ?_⟩
      · show (s.data.setIfInBounds (k - m) _)[i]? = _
        rw [get?_set _ _ _ _ (by omega)]
        by_cases c : k = m + i
        · have : i = k - m := by omega
          subst this
          rw [if_pos rfl, if_pos c]
          simp [show k - m < s.data.size by omega, prm]
        · rw [if_neg c, if_neg (by omega)]
      · rw [if_neg (by omega)]
    next hlt2 =>
      exact ⟨s, rfl, hn, hsm, hsz, hlz, fun i hi => by rw [if_neg (by omega)], fun x => by rw [if_neg (by omega)]⟩

open Classical in
theorem apply_up {Z Z' : Nat → F} {k : Nat} (hk : 1 ≤ k) (φ : F) (hu : Commute φ (up Z (k / 2))) (hZ : ∀ x, Z' x = if k = x then φ * Z k else Z x)
    (x : Nat) : up Z' x = if ∃ d, x / 2 ^ d = k then φ * up Z x else up Z x := by
  induction x using Nat.strong_induction_on with
  | _ x ih =>
    rcases Nat.eq_zero_or_pos x with rfl | hx0
    · rw [up_zero, up_zero, if_neg]
      rintro ⟨d, hd⟩
      rw [Nat.zero_div] at hd
      omega
    · rw [up_pos Z' hx0, ih (x / 2) (by omega), hZ x]
      by_cases c : k = x
      · subst c
        have hn : ¬ ∃ d, k / 2 / 2 ^ d = k := by
          rintro ⟨d, hd⟩
          have := Nat.div_le_self (k / 2) (2 ^ d)
          omega
        rw [if_neg hn, if_pos rfl, if_pos ⟨0, by simp⟩, up_pos Z hk, ← mul_assoc, ← mul_assoc, hu.eq]
      · have hiff : (∃ d, x / 2 / 2 ^ d = k) ↔ ∃ d, x / 2 ^ d = k := by
          constructor
          · rintro ⟨d, hd⟩
            exact ⟨d + 1, by rw [pow_succ', ← Nat.div_div_eq_div_mul, hd]⟩
          · rintro ⟨d, hd⟩
            cases d with
            | zero => simp at hd; exact absurd hd.symm c
            | succ d => exact ⟨d, by rw [pow_succ', ← Nat.div_div_eq_div_mul] at hd; exact hd⟩
        rw [if_neg c]
        by_cases e : ∃ d, x / 2 ^ d = k
        · rw [if_pos e, if_pos (hiff.2 e), up_pos Z hx0, mul_assoc]
        · rw [if_neg e, if_neg (mt hiff.1 e), up_pos Z hx0]

/-- Applying a map to a node applies it to the leaves below. -/
theorem applyNode_tot (h : Rep n m lg f s) {k t : Nat} (hk : 1 ≤ k) (h1 : m ≤ k * 2 ^ t) (h2 : (k + 1) * 2 ^ t ≤ n + m) (φ : F)
    (hu : Commute φ (up (laz s) (k / 2))) :
    Tot (applyNode (prm T F) s k φ) fun s' => (∀ x, x ≠ k → laz s' x = laz s x) ∧
      Rep n m lg (fun i => if k * 2 ^ t ≤ m + i ∧ m + i < (k + 1) * 2 ^ t then φ • f i else f i) s' := by
  have hle := h.hle
  have hm1 := h.m_pos
  have hpt := pow_pos' t
  have hkk : k * 1 ≤ k * 2 ^ t := Nat.mul_le_mul_left _ hpt
  have e2 : (k + 1) * 2 ^ t = k * 2 ^ t + 2 ^ t := by ring
  obtain ⟨s', e, z1, z2, z3, z4, ha, hb⟩ := applyNode_any h.hn h.hsm h.hsz h.hlz (k := k) φ
  refine Tot.of_eq e ⟨fun x hx => by rw [hb, if_neg (by tauto)], ⟨z1, z2, h.hm, hle, z3, z4, ?_⟩⟩
  intro i hi
  obtain ⟨v, hv, hf⟩ := h.leaf i hi
  rw [ha i hi, hv]
  by_cases hkm : k < m
  · refine ⟨v, by rw [if_neg (by omega)], ?_⟩
    rw [apply_up hk φ hu (Z' := laz s') (fun x => by rw [hb]; simp only [hkm, and_true])]
    have hiff : (∃ d, (m + i) / 2 / 2 ^ d = k) ↔ k * 2 ^ t ≤ m + i ∧ m + i < (k + 1) * 2 ^ t := by
      rw [← div_eq_iff]
      constructor
      · rintro ⟨d, hd⟩
        rw [Nat.div_div_eq_div_mul, ← pow_succ'] at hd
        rw [← height_unique h.hm h1 (by omega) (by omega) (by omega) hd]
        exact hd
      · intro hd
        cases t with
        | zero => simp at hd; omega
        | succ t => exact ⟨t, by rw [Nat.div_div_eq_div_mul, ← pow_succ']; exact hd⟩
    by_cases c : ∃ d, (m + i) / 2 / 2 ^ d = k
    · rw [if_pos c, if_pos (hiff.1 c), mul_smul, hf]
    · rw [if_neg c, if_neg (mt hiff.2 c), hf]
  · have ht : t = 0 := by
      cases t with
      | zero => rfl
      | succ t =>
        exfalso
        have : k * 2 ^ (t + 1) = 2 * (k * 2 ^ t) := by ring
        have : k * 1 ≤ k * 2 ^ t := Nat.mul_le_mul_left _ (pow_pos' t)
        have : 2 ^ (t + 1) = 2 * 2 ^ t := by ring
        have := pow_pos' t
        omega
    subst ht
    have hbb : laz s' = laz s := by funext x; rw [hb, if_neg (by omega)]
    rw [hbb]
    simp only [pow_zero, mul_one]
    by_cases c : k = m + i
    · refine ⟨φ • v, by rw [if_pos c]; rfl, ?_⟩
      rw [if_pos (by omega), ← hf, ← c, ← mul_smul, ← mul_smul, hu.eq]
    · exact ⟨v, by rw [if_neg c], by rw [if_neg (by omega), hf]⟩

/-- Nodes the loop of `apply` visits. -/
def Vis (m l0 r0 k : Nat) : Prop := 1 ≤ k ∧ S l0 r0 (k / 2) ∧ ∃ t, l0 ≤ k * 2 ^ t ∧ (k + 1) * 2 ^ t ≤ r0

theorem applyLoop_tot {l0 r0 : Nat} (h : Rep n m lg f s) (hl : m ≤ l0) (hlr : l0 ≤ r0) (hr : r0 ≤ n + m) (φ : F) (I : (Nat → F) → Prop)
    (hI0 : I (laz s)) (hI1 : ∀ Z Z' k, Vis m l0 r0 k → I Z → (∀ x, x ≠ k → Z' x = Z x) → I Z')
    (hI2 : ∀ Z k, Vis m l0 r0 k → I Z → Commute φ (up Z (k / 2))) {fuel : Nat} (hf : r0 ≤ fuel) :
    Tot (loop (applyStep (prm T F) φ) fuel (l0, r0, s)) fun q => I (laz q.2.2) ∧
      Rep n m lg (fun i => if l0 ≤ m + i ∧ m + i < r0 then φ • f i else f i) q.2.2 := by
  have hle := h.hle
  have hm1 := h.m_pos
  have hm := h.hm
  refine Tot.loop (P := fun q : Nat × Nat × State T F => 1 ≤ q.1 ∧ q.1 ≤ q.2.1 ∧
    I (laz q.2.2) ∧ ∃ t, l0 ≤ q.1 * 2 ^ t ∧ q.1 * 2 ^ t < l0 + 2 ^ t ∧
      q.2.1 * 2 ^ t ≤ r0 ∧ r0 < (q.2.1 + 1) * 2 ^ t ∧
      Rep n m lg (fun i => if (l0 ≤ m + i ∧ m + i < q.1 * 2 ^ t) ∨ (q.2.1 * 2 ^ t ≤ m + i ∧ m + i < r0) then φ • f i else f i) q.2.2)
    (fun q => q.2.1) ?_ ⟨by om, hlr, hI0, 0, by simp, by simp, by simp, by simp, ?_⟩ hf
  swap
  · dsimp only
    convert h using 2 with i
    simp only [pow_zero, mul_one]
    rw [if_neg (by omega)]
  rintro ⟨l, r, s⟩ ⟨h1, h2, hz, t, ht1, ht2, ht3, ht4, h⟩
  dsimp only at h1 h2 ht1 ht2 ht3 ht4 hz h
  unfold applyStep
  dsimp only
  split
  case isFalse hlt =>
    have : l = r := by omega
    subst this
    refine Tot.pure ⟨hz, ?_⟩
    convert h using 2 with i
    by_cases c : l0 ≤ m + i ∧ m + i < r0
    · rw [if_pos c, if_pos (by omega)]
    · rw [if_neg c, if_neg (by omega)]
  case isTrue hlt =>
    have hpos := pow_pos' t
    have hle' : (l + 1) * 2 ^ t ≤ r * 2 ^ t := Nat.mul_le_mul_right _ hlt
    have el : (l + 1) * 2 ^ t = l * 2 ^ t + 2 ^ t := by ring
    have L : Tot (applyL (prm T F) φ s l) (fun q : Nat × State T F => q.1 = l + l % 2 ∧ I (laz q.2) ∧
        Rep n m lg (fun i => if (l0 ≤ m + i ∧ m + i < q.1 * 2 ^ t) ∨ (r * 2 ^ t ≤ m + i ∧ m + i < r0) then φ • f i else f i) q.2) := by
      unfold applyL
      split
      next ho =>
        have hV : Vis m l0 r0 l := ⟨h1, Or.inl (str_left ht1 ht2 ho), t, ht1, by omega⟩
        refine Tot.bind (applyNode_tot (t := t) h h1 (by omega) (by omega) φ (hI2 _ _ hV hz)) ?_
        rintro s' ⟨g1, g2⟩
        refine Tot.pure ⟨by om, hI1 _ _ _ hV hz g1, ?_⟩
        dsimp only
        convert g2 using 2 with i
        by_cases c : l * 2 ^ t ≤ m + i ∧ m + i < (l + 1) * 2 ^ t
        · rw [if_pos c, if_pos (by omega), if_neg (by omega)]
        · rw [if_neg c]
          congr 1
          simp only [eq_iff_iff]
          omega
      next ho => exact Tot.pure ⟨by om, hz, h⟩
    refine Tot.bind L ?_
    rintro ⟨l', s'⟩ ⟨e1, hz', h'⟩
    dsimp only at e1 hz' h' ⊢
    have hl' : l' ≤ r := by omega
    have hll : l * 2 ^ t ≤ l' * 2 ^ t := Nat.mul_le_mul_right _ (by omega)
    have hll2 : l' * 2 ^ t ≤ (l + 1) * 2 ^ t := Nat.mul_le_mul_right _ (by omega)
    have R : Tot (applyR (prm T F) φ s' r) (fun q : Nat × State T F => q.1 = r - r % 2 ∧ I (laz q.2) ∧
        Rep n m lg (fun i => if (l0 ≤ m + i ∧ m + i < l' * 2 ^ t) ∨ (q.1 * 2 ^ t ≤ m + i ∧ m + i < r0) then φ • f i else f i) q.2) := by
      unfold applyR
      split
      next ho =>
        have er : r * 2 ^ t = (r - 1) * 2 ^ t + 2 ^ t := by
          conv_lhs => rw [show r = (r - 1) + 1 by omega]
          ring
        have er' : (r - 1 + 1) * 2 ^ t = r * 2 ^ t := by congr 1; omega
        have h3 : l' * 2 ^ t ≤ (r - 1) * 2 ^ t := Nat.mul_le_mul_right _ (by omega)
        have hV : Vis m l0 r0 (r - 1) := ⟨by omega, Or.inr (str_right ht3 ht4 ho), t, by omega, by omega⟩
        refine Tot.bind (applyNode_tot (k := r - 1) (t := t) h' (by omega) (by omega) (by omega) φ (hI2 _ _ hV hz')) ?_
        rintro s'' ⟨g1, g2⟩
        refine Tot.pure ⟨by om, hI1 _ _ _ hV hz' g1, ?_⟩
        dsimp only
        convert g2 using 2 with i
        by_cases c : (r - 1) * 2 ^ t ≤ m + i ∧ m + i < (r - 1 + 1) * 2 ^ t
        · rw [if_pos c, if_pos (by omega), if_neg (by omega)]
        · rw [if_neg c]
          congr 1
          simp only [eq_iff_iff]
          omega
      next ho => exact Tot.pure ⟨by om, hz', h'⟩
    refine Tot.bind R ?_
    rintro ⟨r', s''⟩ ⟨e3, hz'', h''⟩
    dsimp only at e3 hz'' h'' ⊢
    have q1 : l' / 2 * 2 ^ (t + 1) = l' * 2 ^ t := by
      conv_rhs => rw [show l' = 2 * (l' / 2) by omega]
      ring
    have q2 : r' / 2 * 2 ^ (t + 1) = r' * 2 ^ t := by
      conv_rhs => rw [show r' = 2 * (r' / 2) by omega]
      ring
    have q3 : (r' / 2 + 1) * 2 ^ (t + 1) = (r' + 2) * 2 ^ t := by
      conv_rhs => rw [show r' = 2 * (r' / 2) by omega]
      ring
    have q4 : r' * 2 ^ t ≤ r * 2 ^ t := Nat.mul_le_mul_right _ (by omega)
    have q5 : (r + 1) * 2 ^ t ≤ (r' + 2) * 2 ^ t := Nat.mul_le_mul_right _ (by omega)
    have q6 : 2 ^ (t + 1) = 2 * 2 ^ t := by ring
    refine Tot.pure ⟨⟨by om, by om, hz'', t + 1, ?_, ?_, ?_, ?_, ?_⟩, by om⟩
    · dsimp only; omega
    · dsimp only; omega
    · dsimp only; omega
    · dsimp only; omega
    · dsimp only
      rw [q1, q2]
      exact h''

theorem applyC_tot (h : Rep n m lg f s) {l r : Nat} (hl : l ≤ r) (hr : r ≤ n) (φ : F) (I : (Nat → F) → Prop)
    (hI0 : I (laz s)) (hI1 : ∀ Z Z' k, Vis m (l + m) (r + m) k → I Z → (∀ x, x ≠ k → Z' x = Z x) → I Z')
    (hI2 : ∀ Z k, Vis m (l + m) (r + m) k → I Z → Commute φ (up Z (k / 2))) :
    Tot (applyC (prm T F) s l r φ) (Rep n m lg fun i => if l ≤ i ∧ i < r then φ • f i else f i) := by
  have hm1 := h.m_pos
  have hle := h.hle
  unfold applyC
  rw [h.hn, decide_eq_true hr, check_true, ok_bind, h.hsm]
  refine Tot.bind (applyLoop_tot (l0 := l + m) (r0 := r + m) h (by omega) (by omega) (by omega) φ I hI0 hI1 hI2 le_rfl) ?_
  rintro ⟨_, _, s2⟩ ⟨z2, h2⟩
  refine Tot.pure ?_
  convert h2 using 2 with i
  congr 1
  simp only [eq_iff_iff]
  omega

/-! ### Pushing -/

theorem push_tot (h : Rep n m lg f s) {k : Nat} (hk1 : 1 ≤ k) (hk : k < m) :
    Tot (push (prm T F) s k) fun s' => Rep n m lg f s' ∧ laz s' k = 1 ∧ (∀ x, laz s x = 1 → (x / 2 = k → laz s k = 1) → laz s' x = 1) := by
  unfold push
  have hz := h.hlz
  rw [rd_at 1 (by omega), ok_bind]
  obtain ⟨s1, e1, a1, a2, a3, a4, a5, a6⟩ := applyNode_any (k := 2 * k) h.hn h.hsm h.hsz h.hlz (laz s k)
  rw [e1, ok_bind, rd_at 1 (by omega), ok_bind]
  obtain ⟨s2, e2, b1, b2, b3, b4, b5, b6⟩ := applyNode_any (k := 2 * k + 1) a1 a2 a3 a4 (laz s1 k)
  rw [e2, ok_bind, wr_eq (by omega), ok_bind]
  have hk1' : laz s1 k = laz s k := by rw [a6, if_neg (by omega)]
  have hb : ∀ x, at' 1 (s2.lazy.setIfInBounds k (prm T F).id) x =
      if x = k then 1 else if x / 2 = k ∧ x < m then laz s k * laz s x else laz s x := by
    intro x
    rw [at_set 1 (by omega)]
    by_cases c0 : k = x
    · rw [if_pos c0, if_pos c0.symm]; rfl
    · rw [if_neg c0, if_neg (Ne.symm c0)]
      show laz s2 x = _
      rw [b6, hk1', a6 (2 * k + 1), a6 x]
      by_cases c1 : 2 * k + 1 = x
      · subst c1
        rw [if_neg (show ¬ (2 * k = 2 * k + 1 ∧ 2 * k < m) by omega)]
        simp only [true_and, show (2 * k + 1) / 2 = k by omega]
      · rw [if_neg (show ¬ (2 * k + 1 = x ∧ 2 * k + 1 < m) by omega)]
        by_cases c2 : 2 * k = x
        · subst c2
          simp only [true_and, show (2 * k) / 2 = k by omega]
        · rw [if_neg (by omega), if_neg (by omega)]
  refine Tot.pure ⟨⟨b1, b2, h.hm, h.hle, b3, by simpa using b4, ?_⟩, ?_, ?_⟩
  · intro i hi
    have hle := h.hle
    have hm1 := h.m_pos
    obtain ⟨v, hv, hf⟩ := h.leaf i hi
    show ∃ w, s2.data[i]? = some w ∧ up (at' 1 (s2.lazy.setIfInBounds k (prm T F).id)) ((m + i) / 2) • w = f i
    rw [b5 i hi, a5 i hi, hv, push_up (m := m) hk1 hb _ (by omega), hk1']
    by_cases c : (m + i) / 2 = k
    · refine ⟨laz s k • v, ?_, ?_⟩
      · by_cases c1 : 2 * k + 1 = m + i
        · rw [if_pos c1, if_neg (by omega)]; rfl
        · rw [if_neg c1, if_pos (by omega)]; rfl
      · rw [if_pos c, ← mul_smul, ← up_pos _ hk1, ← hf, c]
    · exact ⟨v, by rw [if_neg (by omega), if_neg (by omega)], by rw [if_neg c]; exact hf⟩
  · show at' 1 (s2.lazy.setIfInBounds k (prm T F).id) k = 1
    rw [hb, if_pos rfl]
  · intro x h1 h2
    show at' 1 (s2.lazy.setIfInBounds k (prm T F).id) x = 1
    rw [hb]
    split
    · rfl
    · split
      next c => rw [h2 c.1, h1, mul_one]
      · exact h1

/-- `x` strictly straddles `p` at height `t`. -/
def StrAt (p t x : Nat) : Prop := x * 2 ^ t < p ∧ p < (x + 1) * 2 ^ t

theorem strAt_up {p t x : Nat} (h : StrAt p t x) : StrAt p (t + 1) (x / 2) := by
  obtain ⟨h1, h2⟩ := h
  constructor
  · have : x / 2 * 2 ^ (t + 1) ≤ x * 2 ^ t := by
      rw [pow_succ, mul_comm (2 ^ t), ← mul_assoc]
      exact Nat.mul_le_mul_right _ (by omega)
    omega
  · have : (x + 1) * 2 ^ t ≤ (x / 2 + 1) * 2 ^ (t + 1) := by
      rw [pow_succ, mul_comm (2 ^ t), ← mul_assoc]
      exact Nat.mul_le_mul_right _ (by omega)
    omega

theorem shift_ne {p i : Nat} : (p >>> i) <<< i ≠ p ↔ StrAt p i (p / 2 ^ i) := by
  rw [Nat.shiftRight_eq_div_pow, Nat.shiftLeft_eq]
  obtain ⟨h1, h2⟩ := div_eq_iff.1 (rfl : p / 2 ^ i = p / 2 ^ i)
  constructor
  · intro h; exact ⟨lt_of_le_of_ne h1 h, h2⟩
  · intro h; exact h.1.ne

theorem strAt_div {p i x : Nat} (h : StrAt p i x) : x = p / 2 ^ i := (div_eq_iff.2 ⟨h.1.le, h.2⟩).symm

theorem pred_div {p i : Nat} (h : StrAt p i (p / 2 ^ i)) : (p - 1) / 2 ^ i = p / 2 ^ i := by
  obtain ⟨h1, h2⟩ := h
  exact div_eq_iff.2 ⟨by omega, by omega⟩

/-- One conditional push. -/
theorem pushAt_tot {K : Nat → Prop} (h : Rep n m lg f s) {p i : Nat} (hp1 : m ≤ p) (hp2 : p ≤ 2 * m) (hi : 1 ≤ i) (hi2 : i ≤ lg)
    (hK : ∀ x, 1 ≤ x → K x → laz s x = 1) (hKu : ∀ x, K x → K (x / 2)) {q : Nat} (hq : StrAt p i (p / 2 ^ i) → q = p / 2 ^ i)
    (hKs : ∀ x, StrAt p i x → K (x / 2)) :
    Tot (if (p >>> i) <<< i ≠ p then push (prm T F) s q else .ok s) fun s' => Rep n m lg f s' ∧ ∀ x, 1 ≤ x → K x ∨ StrAt p i x → laz s' x = 1 := by
  have hm := h.hm
  have e0 : 2 ^ (lg + 1) = 2 * m := by rw [hm]; ring
  split
  next c =>
    have c' := shift_ne.1 c
    obtain rfl := hq c'
    have k1 : 1 ≤ p / 2 ^ i := LazySegmentTree.div_pow_pos hm hp1 hi2
    have hlt : p < 2 * m := str_lt hm hp2 k1 ⟨i, c'⟩
    refine (push_tot h k1 (LazySegmentTree.div_pow_lt hlt hi)).mono ?_
    rintro s' ⟨r1, r2, r3⟩
    refine ⟨r1, ?_⟩
    rintro x hx (hx' | hx')
    · refine r3 x (hK x hx hx') fun e2 => ?_
      have := hKu x hx'
      rw [e2] at this
      exact hK _ k1 this
    · rw [strAt_div hx']; exact r2
  next c =>
    refine Tot.pure ⟨h, ?_⟩
    rintro x hx (hx' | hx')
    · exact hK x hx hx'
    · have := strAt_div hx'
      subst this
      exact absurd (shift_ne.2 hx') c

theorem push2_tot (h : Rep n m lg f s) {l r : Nat} (hl : l ≤ m) (hr : r ≤ m) :
    Tot (push2 (prm T F) s l r) fun s' => Rep n m lg f s' ∧ ∀ x, 1 ≤ x → S (l + m) (r + m) x → laz s' x = 1 := by
  have hm := h.hm
  have hm1 := h.m_pos
  have e0 : 2 ^ (lg + 1) = 2 * m := by rw [hm]; ring
  have ectz : Bits.ctz s.m = .ok lg := by
    have := ctz_eq 0 lg
    rw [h.hsm, hm]
    simpa using this
  unfold push2
  rw [ectz, ok_bind, h.hsm]
  dsimp only
  have hbig : ∀ p t x, p ≤ 2 * m → lg + 1 ≤ t → 1 ≤ x → ¬ StrAt p t x := by
    intro p t x hp ht hx hs
    have h1 : 2 ^ (lg + 1) ≤ 2 ^ t := Nat.pow_le_pow_right (by omega) ht
    have h2 : 1 * 2 ^ t ≤ x * 2 ^ t := Nat.mul_le_mul_right _ hx
    have := hs.1
    omega
  refine (Tot.forDown (P := fun i (s : State T F) => Rep n m lg f s ∧ ∀ x, 1 ≤ x → (∃ t, i ≤ t ∧ (StrAt (l + m) t x ∨ StrAt (r + m) t x)) → laz s x = 1)
    (by omega) ⟨h, ?_⟩ ?_).mono ?_
  · rintro x hx ⟨t, ht, hs | hs⟩
    · exact absurd hs (hbig _ _ _ (by omega) ht hx)
    · exact absurd hs (hbig _ _ _ (by omega) ht hx)
  · rintro i s i1 i2 ⟨h, hz⟩
    refine Tot.bind (pushAt_tot (q := (l + m) >>> i) (p := l + m) (K := fun x => ∃ t, i + 1 ≤ t ∧ (StrAt (l + m) t x ∨ StrAt (r + m) t x)) h (by omega) (by omega) (by omega) (by omega) hz ?_ ?_ ?_) ?_
    · rintro x ⟨t, ht, hs⟩
      exact ⟨t + 1, by omega, hs.imp strAt_up strAt_up⟩
    · intro _; exact Nat.shiftRight_eq_div_pow _ _
    · intro x hx
      exact ⟨i + 1, le_rfl, Or.inl (strAt_up hx)⟩
    · rintro s1 ⟨h1, z1⟩
      refine (pushAt_tot (q := (r + m - 1) >>> i) (p := r + m) (K := fun x => (∃ t, i + 1 ≤ t ∧ (StrAt (l + m) t x ∨ StrAt (r + m) t x)) ∨ StrAt (l + m) i x) h1 (by omega) (by omega) (by omega) (by omega) z1 ?_ ?_ ?_).mono ?_
      · rintro x (⟨t, ht, hs⟩ | hs)
        · exact Or.inl ⟨t + 1, by omega, hs.imp strAt_up strAt_up⟩
        · exact Or.inl ⟨i + 1, by omega, Or.inl (strAt_up hs)⟩
      · intro hs
        rw [Nat.shiftRight_eq_div_pow, pred_div hs]
      · intro x hx
        exact Or.inl ⟨i + 1, le_rfl, Or.inr (strAt_up hx)⟩
      · rintro s2 ⟨h2, z2⟩
        refine ⟨h2, fun x hx => ?_⟩
        rintro ⟨t, ht, hs⟩
        apply z2 x hx
        rcases Nat.lt_or_ge i t with c | c
        · exact Or.inl (Or.inl ⟨t, c, hs⟩)
        · have : t = i := by omega
          subst this
          rcases hs with hs | hs
          · exact Or.inl (Or.inr hs)
          · exact Or.inr hs
  · rintro s' ⟨h', z⟩
    refine ⟨h', fun x hx hS => z x hx ?_⟩
    have pos : ∀ p, Str p x → ∃ t, 1 ≤ t ∧ StrAt p t x := by
      rintro p ⟨t, a, b⟩
      refine ⟨t, ?_, a, b⟩
      cases t with
      | zero => simp at a b; omega
      | succ t => omega
    rcases hS with hS | hS
    · obtain ⟨t, a, b⟩ := pos _ hS; exact ⟨t, a, Or.inl b⟩
    · obtain ⟨t, a, b⟩ := pos _ hS; exact ⟨t, a, Or.inr b⟩

theorem applyD_tot (h : Rep n m lg f s) {l r : Nat} (hl : l ≤ r) (hr : r ≤ n) (φ : F) :
    Tot (applyD (prm T F) s l r φ) (Rep n m lg fun i => if l ≤ i ∧ i < r then φ • f i else f i) := by
  have hle := h.hle
  have hm := h.hm
  have hm1 := h.m_pos
  unfold applyD
  refine Tot.bind (push2_tot h (by omega) (by omega)) ?_
  rintro s1 ⟨h1, z1⟩
  refine applyC_tot h1 hl hr φ (fun Z => ∀ x, 1 ≤ x → S (l + m) (r + m) x → Z x = 1) z1 ?_ ?_
  · rintro Z Z' k ⟨k1, -, t, t1, t2⟩ hZ hZ' x hx hS
    rw [hZ' x ?_, hZ x hx hS]
    rintro rfl
    have := pow_pos' t
    have e : (x + 1) * 2 ^ t = x * 2 ^ t + 2 ^ t := by ring
    rcases hS with hS | hS
    · exact not_str (t := t) hm hx (by omega) (by omega) (by omega) (by omega) (Or.inl t1) hS
    · exact not_str (t := t) hm hx (by omega) (by omega) (by omega) (by omega) (Or.inr t2) hS
  · rintro Z k ⟨k1, hS, -⟩ hZ
    rw [up_one (fun x hx _ => S_up hx) hZ (Or.inr hS)]
    exact Commute.one_right φ

end DualSegmentTree
