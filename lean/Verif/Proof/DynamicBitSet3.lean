import Verif.Proof.DynamicBitSet2

namespace DynamicBitSet
open Cxx

/-! ## Loops with an early return -/

theorem firstSome_tot {α : Type} {p : Nat → M (Option α)} (Q : Nat → α → Prop) (N : Nat → Prop) (k : Nat) : ∀ i,
    (∀ j, i ≤ j → j < i + k → Tot (p j) fun o => (∀ a, o = some a → Q j a) ∧ (o = Option.none → N j)) →
    Tot (firstSome p k i) fun o => (∀ a, o = some a → ∃ j, i ≤ j ∧ j < i + k ∧ Q j a ∧ ∀ j', i ≤ j' → j' < j → N j') ∧
      (o = Option.none → ∀ j, i ≤ j → j < i + k → N j) := by
  induction k with
  | zero =>
    intro i _
    exact Tot.pure ⟨fun a h => (by cases h), fun _ j h1 h2 => (by omega)⟩
  | succ k ih =>
    intro i h
    unfold firstSome
    refine Tot.bind (h i le_rfl (by omega)) ?_
    rintro o ⟨h1, h2⟩
    cases o with
    | some a =>
      refine Tot.pure ⟨fun a' e => ?_, fun e => by cases e⟩
      cases e
      exact ⟨i, le_rfl, by omega, h1 a rfl, fun j' _ _ => by omega⟩
    | none =>
      have hN := h2 rfl
      refine Tot.mono (ih (i + 1) fun j g1 g2 => h j (by omega) (by omega)) ?_
      rintro o ⟨g1, g2⟩
      have key : ∀ j, i ≤ j → (i + 1 ≤ j → N j) → N j := by
        intro j hj hh
        by_cases e : j = i
        · rw [e]; exact hN
        · exact hh (by omega)
      refine ⟨fun a e => ?_, fun e j l1 l2 => key j l1 fun l3 => g2 e j l3 (by omega)⟩
      obtain ⟨j, l1, l2, l3, l4⟩ := g1 a e
      exact ⟨j, by omega, by omega, l3, fun j' m1 m2 => key j' m1 fun m3 => l4 j' m3 m2⟩

/-! ## Blocks of the list -/

/-- The block `v` holds the bits `64 j, ..., 64 j + 63` of the list. -/
def Blk (v : Block) (a : List Bool) (j : Nat) : Prop := ∀ o, o < 64 → v.getLsbD o = Spec.get a (64 * j + o)

theorem full_blk {s : BS} {a : List Bool} (h : Rep s a) {j : Nat} (hj : j + 1 < s.blocks.size) : Blk (at' 0 s.blocks j) a j := by
  intro o ho
  rw [block_bit _ ho]
  refine h.bits _ ?_
  rw [h.size] at hj
  unfold blockNum at hj
  omega

theorem size_pos {s : BS} {a : List Bool} (h : Rep s a) (h0 : s.n ≠ 0) : 0 < s.blocks.size ∧ (s.blocks.size - 1) * 64 < s.n ∧ s.n ≤ s.blocks.size * 64 := by
  have := h.size
  rw [← h.n_eq] at this
  rw [this]; unfold blockNum; omega

theorem back_eq {b : Array Block} (h : 0 < b.size) : back b = .ok (at' 0 b (b.size - 1)) := by
  unfold back
  rw [if_neg (by omega), rd_at 0 (by omega)]

theorem last_tot {s : BS} {a : List Bool} (h : Rep s a) (h0 : s.n ≠ 0) :
    Tot (lower (at' 0 s.blocks (s.blocks.size - 1)) (lastBits s)) fun v => Blk v a (s.blocks.size - 1) := by
  obtain ⟨p1, p2, p3⟩ := size_pos h h0
  have hn := h.n_eq
  refine Tot.mono (lower_tot _ (by unfold lastBits; omega)) fun v hv o ho => ?_
  rw [hv, block_bit _ ho]
  unfold lastBits
  by_cases e : 64 * (s.blocks.size - 1) + o < a.length
  · rw [decide_eq_true (by omega), Bool.true_and]
    exact h.bits _ e
  · rw [decide_eq_false (by omega), get_ge (by omega)]; rfl

theorem blk_eq {u v : Block} {a b : List Bool} {j : Nat} (hu : Blk u a j) (hv : Blk v b j) : u = v ↔ ∀ i, i / 64 = j → Spec.get a i = Spec.get b i := by
  constructor
  · rintro rfl i rfl
    have := (hu (i % 64) (by omega)).symm.trans (hv (i % 64) (by omega))
    rwa [show 64 * (i / 64) + i % 64 = i by omega] at this
  · intro h
    refine BitVec.eq_of_getLsbD_eq fun o ho => ?_
    rw [hu o ho, hv o ho]
    exact h _ (by omega)

theorem list_eq {a b : List Bool} (h : a.length = b.length) : a = b ↔ ∀ i, Spec.get a i = Spec.get b i := by
  constructor
  · rintro rfl i; rfl
  · intro hg
    refine List.ext_getElem h fun i h1 h2 => ?_
    have := hg i
    simpa [Spec.get, h1, h2] using this

theorem eq_tot {x y : BS} {a b : List Bool} (hx : Rep x a) (hy : Rep y b) : Tot (eq x y) fun r => r = true ↔ a = b := by
  unfold eq
  have hxn := hx.n_eq
  have hyn := hy.n_eq
  by_cases h1 : x.n ≠ y.n
  · rw [if_pos h1]
    refine Tot.pure ⟨fun e => (by cases e), fun e => ?_⟩
    rw [e] at hxn; omega
  · rw [if_neg h1]
    by_cases h2 : x.n = 0
    · rw [if_pos h2]
      have e1 : a = [] := List.length_eq_zero_iff.1 (by omega)
      have e2 : b = [] := List.length_eq_zero_iff.1 (by omega)
      exact Tot.pure (by simp [e1, e2])
    · rw [if_neg h2]
      have hab : a.length = b.length := by omega
      have hs : x.blocks.size = y.blocks.size := by rw [hx.size, hy.size, hab]
      have hp := size_pos hx h2
      refine Tot.bind (firstSome_tot (fun j _ => ∃ i, i / 64 = j ∧ Spec.get a i ≠ Spec.get b i) (fun j => ∀ i, i / 64 = j → Spec.get a i = Spec.get b i) _ _ ?_) ?_
      · intro j _ hj
        rw [rd_at 0 (by omega), ok_bind, rd_at 0 (by omega), ok_bind]
        have hb := blk_eq (full_blk hx (j := j) (by omega)) (full_blk hy (j := j) (by omega))
        refine Tot.pure ⟨fun u hu => ?_, fun hu => ?_⟩
        · by_contra hc
          push Not at hc
          rw [if_neg (by rw [not_not, hb]; exact hc)] at hu
          cases hu
        · by_contra hc
          rw [if_pos (by rw [Ne, hb]; exact hc)] at hu
          cases hu
      · rintro o ⟨g1, g2⟩
        cases o with
        | some u =>
          refine Tot.pure ⟨fun e => (by cases e), fun e => ?_⟩
          obtain ⟨j, _, _, ⟨i, _, hi⟩, _⟩ := g1 u rfl
          exact absurd (by rw [e]) hi
        | none =>
          dsimp only
          rw [back_eq hp.1, ok_bind]
          refine Tot.bind (last_tot hx h2) fun u hu => ?_
          rw [back_eq (by omega), ok_bind]
          have hl : lastBits x = lastBits y := by unfold lastBits; rw [hs]; omega
          rw [hl]
          refine Tot.bind (last_tot hy (by omega)) fun v hv => Tot.pure ?_
          rw [← hs] at hv
          rw [decide_eq_true_eq, blk_eq hu hv, list_eq hab]
          refine ⟨fun h i => ?_, fun h i _ => h i⟩
          by_cases e1 : i / 64 < x.blocks.size - 1
          · exact g2 rfl _ (by omega) (by omega) i rfl
          · by_cases e2 : i / 64 = x.blocks.size - 1
            · exact h i e2
            · rw [get_ge (by omega), get_ge (by omega)]

theorem zero_blk (j : Nat) : Blk 0 [] j := fun o _ => by simp [Spec.get]

theorem get_nil (i : Nat) : Spec.get [] i = false := by simp [Spec.get]

theorem forall_mem {a : List Bool} (v : Bool) : (∀ w ∈ a, w = v) ↔ ∀ i, i < a.length → Spec.get a i = v := by
  constructor
  · intro h i hi
    have := h a[i] (List.getElem_mem hi)
    simpa [Spec.get, hi] using this
  · intro h w hw
    obtain ⟨i, hi, rfl⟩ := List.getElem_of_mem hw
    have := h i hi
    simpa [Spec.get, hi] using this

theorem none_tot {x : BS} {a : List Bool} (hx : Rep x a) : Tot (none x) fun r => r = true ↔ ∀ v ∈ a, v = false := by
  unfold none
  have hxn := hx.n_eq
  by_cases h2 : x.n = 0
  · rw [if_pos h2]
    have e1 : a = [] := List.length_eq_zero_iff.1 (by omega)
    exact Tot.pure (by simp [e1])
  · rw [if_neg h2, forall_mem]
    have hp := size_pos hx h2
    refine Tot.bind (firstSome_tot (fun j _ => ∃ i, i / 64 = j ∧ Spec.get a i ≠ false) (fun j => ∀ i, i / 64 = j → Spec.get a i = false) _ _ ?_) ?_
    · intro j _ hj
      rw [rd_at 0 (by omega), ok_bind]
      have hb := blk_eq (full_blk hx (j := j) (by omega)) (zero_blk j)
      simp only [get_nil] at hb
      refine Tot.pure ⟨fun u hu => ?_, fun hu => ?_⟩
      · by_contra hc
        push Not at hc
        rw [if_neg (by rw [not_not, hb]; exact hc)] at hu
        cases hu
      · by_contra hc
        rw [if_pos (by rw [Ne, hb]; exact hc)] at hu
        cases hu
    · rintro o ⟨g1, g2⟩
      cases o with
      | some u =>
        refine Tot.pure ⟨fun e => (by cases e), fun e => ?_⟩
        obtain ⟨j, _, _, ⟨i, _, hi⟩, _⟩ := g1 u rfl
        by_cases hl : i < a.length
        · exact absurd (e i hl) hi
        · exact absurd (get_ge (by omega)) hi
      | none =>
        dsimp only
        rw [back_eq hp.1, ok_bind]
        refine Tot.bind (last_tot hx h2) fun u hu => Tot.pure ?_
        have hb := blk_eq hu (zero_blk _)
        simp only [get_nil] at hb
        rw [decide_eq_true_eq, hb]
        refine ⟨fun h i _ => ?_, fun h i _ => ?_⟩
        · by_cases e1 : i / 64 < x.blocks.size - 1
          · exact g2 rfl _ (by omega) (by omega) i rfl
          · by_cases e2 : i / 64 = x.blocks.size - 1
            · exact h i e2
            · rw [get_ge (by omega)]
        · by_cases hl : i < a.length
          · exact h i hl
          · exact get_ge (by omega)

theorem any_tot {x : BS} {a : List Bool} (hx : Rep x a) : Tot (any x) fun r => r = true ↔ true ∈ a := by
  unfold any
  refine Tot.bind (none_tot hx) fun r hr => Tot.pure ?_
  rw [Bool.not_eq_true', ← Bool.not_eq_true, hr]
  constructor
  · intro h
    by_contra hc
    exact h fun v hv => by
      cases v
      · rfl
      · exact absurd hv hc
  · intro h hc
    have := hc _ h
    cases this

theorem ones_sub {k : Nat} (hk : k < 64) (o : Nat) : (((1 : Block) <<< k) - 1).getLsbD o = decide (o < k) := by
  have h1 : (((1 : Block) <<< k) - 1).toNat = 2 ^ k - 1 := by
    have hlt : 2 ^ k < 2 ^ 64 := Nat.pow_lt_pow_right (by omega) hk
    have hpos : 1 ≤ 2 ^ k := Nat.one_le_two_pow
    rw [BitVec.toNat_sub, BitVec.toNat_shiftLeft]
    rw [show (1 : Block).toNat = 1 from rfl, Nat.shiftLeft_eq, Nat.one_mul, Nat.mod_eq_of_lt hlt]
    rw [show 2 ^ 64 - 1 + 2 ^ k = (2 ^ k - 1) + 2 ^ 64 by omega, Nat.add_mod_right, Nat.mod_eq_of_lt (by omega)]
  unfold BitVec.getLsbD
  rw [h1, Nat.testBit_two_pow_sub_one]

theorem all_tot {x : BS} {a : List Bool} (hx : Rep x a) (hm : a.length = 0 ∨ a.length % 64 ≠ 0) : Tot (all x) fun r => r = true ↔ ∀ v ∈ a, v = true := by
  unfold all
  have hxn := hx.n_eq
  by_cases h2 : x.n = 0
  · rw [if_pos h2]
    have e1 : a = [] := List.length_eq_zero_iff.1 (by omega)
    exact Tot.pure (by simp [e1])
  · rw [if_neg h2, forall_mem]
    have hp := size_pos hx h2
    refine Tot.bind (firstSome_tot (fun j _ => j + 1 < x.blocks.size ∧ ∃ i, i / 64 = j ∧ Spec.get a i ≠ true) (fun j => ∀ i, i / 64 = j → Spec.get a i = true) _ _ ?_) ?_
    · intro j _ hj
      rw [rd_at 0 (by omega), ok_bind]
      have hb : at' 0 x.blocks j = ones ↔ ∀ i, i / 64 = j → Spec.get a i = true := by
        have hf := full_blk hx (j := j) (by omega)
        constructor
        · rintro h i rfl
          have := hf (i % 64) (by omega)
          rw [h, ones_bit (by omega), show 64 * (i / 64) + i % 64 = i by omega] at this
          exact this.symm
        · intro h
          refine BitVec.eq_of_getLsbD_eq fun o ho => ?_
          rw [hf o ho, ones_bit ho]
          exact h _ (by omega)
      refine Tot.pure ⟨fun u hu => ⟨by omega, ?_⟩, fun hu => ?_⟩
      · by_contra hc
        push Not at hc
        rw [if_neg (by rw [not_not, hb]; exact hc)] at hu
        cases hu
      · by_contra hc
        rw [if_pos (by rw [Ne, hb]; exact hc)] at hu
        cases hu
    · rintro o ⟨g1, g2⟩
      cases o with
      | some u =>
        refine Tot.pure ⟨fun e => (by cases e), fun e => ?_⟩
        obtain ⟨j, _, _, ⟨hj, i, hij, hi⟩, _⟩ := g1 u rfl
        exact absurd (e i (by omega)) hi
      | none =>
        dsimp only
        have hnum : lastBits x ≠ 0 ∧ lastBits x < 64 := by unfold lastBits; omega
        rw [decide_eq_true hnum.1, check_true, ok_bind, shl_eq _ (by omega), ok_bind, shl_eq _ (by omega), ok_bind, back_eq hp.1, ok_bind]
        refine Tot.pure ?_
        rw [decide_eq_true_eq]
        have hbits : ∀ o, o < 64 → ((((1 : Block) <<< (64 - lastBits x)) - 1) <<< lastBits x ||| at' 0 x.blocks (x.blocks.size - 1)).getLsbD o
            = (decide (lastBits x ≤ o) || bit x.blocks (64 * (x.blocks.size - 1) + o)) := by
          intro o ho
          rw [BitVec.getLsbD_or, BitVec.getLsbD_shiftLeft, ones_sub (by omega), block_bit _ ho]
          congr 1
          rw [Bool.eq_iff_iff]
          simp
          omega
        constructor
        · intro h i hi
          by_cases e1 : i / 64 < x.blocks.size - 1
          · exact g2 rfl _ (by omega) (by omega) i rfl
          · have := hbits (i % 64) (by omega)
            rw [h, ones_bit (by omega), decide_eq_false (by unfold lastBits; omega), Bool.false_or,
              show 64 * (x.blocks.size - 1) + i % 64 = i by omega, hx.bits i hi] at this
            exact this.symm
        · intro h
          refine BitVec.eq_of_getLsbD_eq fun o ho => ?_
          rw [hbits o ho, ones_bit ho]
          by_cases e : lastBits x ≤ o
          · rw [decide_eq_true e]; rfl
          · have : 64 * (x.blocks.size - 1) + o < a.length := by unfold lastBits at e; omega
            rw [hx.bits _ this, h _ this, Bool.or_true]

theorem meets_tot {x y : BS} {a b : List Bool} (hx : Rep x a) (hy : Rep y b) (hab : a.length ≤ b.length) :
    Tot (meets x y) fun r => r = true ↔ ∃ i, Spec.get a i = true ∧ Spec.get b i = true := by
  unfold meets
  have hxn := hx.n_eq
  have hyn := hy.n_eq
  by_cases h2 : x.n = 0
  · rw [if_pos h2]
    have e1 : a = [] := List.length_eq_zero_iff.1 (by omega)
    exact Tot.pure (by simp [e1, Spec.get])
  · rw [if_neg h2]
    have hp := size_pos hx h2
    have hs : x.blocks.size ≤ y.blocks.size := by rw [hx.size, hy.size]; unfold blockNum; omega
    have hz : ∀ u : Block, u ≠ 0 ↔ ∃ o, o < 64 ∧ u.getLsbD o = true := by
      intro u
      constructor
      · intro hu
        by_contra hc
        push Not at hc
        refine hu (BitVec.eq_of_getLsbD_eq fun o ho => ?_)
        have := hc o ho
        rw [zero_bit]
        simpa using this
      · rintro ⟨o, _, h⟩ rfl
        rw [zero_bit] at h
        cases h
    refine Tot.bind (firstSome_tot (fun j _ => ∃ i, i / 64 = j ∧ Spec.get a i = true ∧ Spec.get b i = true) (fun j => ∀ i, i / 64 = j → ¬ (Spec.get a i = true ∧ Spec.get b i = true)) _ _ ?_) ?_
    · intro j _ hj
      rw [rd_at 0 (by omega), ok_bind, rd_at 0 (by omega), ok_bind]
      have hb : at' 0 x.blocks j &&& at' 0 y.blocks j ≠ 0 ↔ ∃ i, i / 64 = j ∧ Spec.get a i = true ∧ Spec.get b i = true := by
        rw [hz]
        constructor
        · rintro ⟨o, ho, h⟩
          rw [BitVec.getLsbD_and, full_blk hx (j := j) (by omega) o ho, full_blk hy (j := j) (by omega) o ho, Bool.and_eq_true] at h
          exact ⟨_, by omega, h⟩
        · rintro ⟨i, rfl, h⟩
          refine ⟨i % 64, by omega, ?_⟩
          rw [BitVec.getLsbD_and, full_blk hx (j := i / 64) (by omega) _ (by omega), full_blk hy (j := i / 64) (by omega) _ (by omega), Bool.and_eq_true,
            show 64 * (i / 64) + i % 64 = i by omega]
          exact h
      refine Tot.pure ⟨fun u hu => ?_, fun hu i hi hc => ?_⟩
      · by_contra hc
        rw [if_neg (by rw [hb]; exact hc)] at hu
        cases hu
      · rw [if_pos (hb.2 ⟨i, hi, hc⟩)] at hu
        cases hu
    · rintro o ⟨g1, g2⟩
      cases o with
      | some u =>
        refine Tot.pure ⟨fun _ => ?_, fun _ => rfl⟩
        obtain ⟨j, _, _, ⟨i, _, hi⟩, _⟩ := g1 u rfl
        exact ⟨i, hi⟩
      | none =>
        dsimp only
        rw [back_eq hp.1, ok_bind]
        refine Tot.bind (last_tot hx h2) fun u hu => ?_
        rw [rd_at 0 (by omega), ok_bind]
        refine Tot.pure ?_
        rw [decide_eq_true_eq, hz]
        constructor
        · rintro ⟨o, ho, h⟩
          rw [BitVec.getLsbD_and, hu o ho, Bool.and_eq_true, block_bit _ ho] at h
          refine ⟨_, h.1, ?_⟩
          have hlt : 64 * (x.blocks.size - 1) + o < a.length := by
            by_contra hc
            rw [get_ge (by omega)] at h
            cases h.1
          rw [← hy.bits _ (by omega)]
          exact h.2
        · rintro ⟨i, h1, h3⟩
          have hlt : i < a.length := by
            by_contra hc
            rw [get_ge (by omega)] at h1
            cases h1
          by_cases e1 : i / 64 < x.blocks.size - 1
          · exact absurd ⟨h1, h3⟩ (g2 rfl _ (by omega) (by omega) i rfl)
          · refine ⟨i % 64, by omega, ?_⟩
            rw [BitVec.getLsbD_and, hu _ (by omega), Bool.and_eq_true, block_bit _ (by omega), show 64 * (x.blocks.size - 1) + i % 64 = i by omega]
            exact ⟨h1, by rw [hy.bits _ (by omega)]; exact h3⟩

theorem hasIntersection_tot {x y : BS} {a b : List Bool} (hx : Rep x a) (hy : Rep y b) :
    Tot (hasIntersection x y) fun r => r = true ↔ ∃ i, Spec.get a i = true ∧ Spec.get b i = true := by
  unfold hasIntersection
  have hxn := hx.n_eq
  have hyn := hy.n_eq
  by_cases h : x.n > y.n
  · rw [if_pos h]
    refine Tot.mono (meets_tot hy hx (by omega)) fun r hr => ?_
    rw [hr]
    exact ⟨fun ⟨i, h1, h2⟩ => ⟨i, h2, h1⟩, fun ⟨i, h1, h2⟩ => ⟨i, h2, h1⟩⟩
  · rw [if_neg h]
    exact meets_tot hx hy (by omega)

/-! ## Comparisons -/

theorem value_blk (k : Nat) : ∀ (x : Nat) (l : List Bool), x < 2 ^ k → (∀ o, o < k → x.testBit o = Spec.get l o) → Spec.value l = x + 2 ^ k * Spec.value (l.drop k) := by
  induction k with
  | zero =>
    intro x l hx _
    have : x = 0 := by simpa using hx
    simp [this]
  | succ k ih =>
    intro x l hx hb
    cases l with
    | nil =>
      have : x = 0 := by
        refine Nat.eq_of_testBit_eq fun i => ?_
        rw [Nat.zero_testBit]
        by_cases hi : i < k + 1
        · rw [hb i hi, get_nil]
        · exact Nat.testBit_lt_two_pow (lt_of_lt_of_le hx (Nat.pow_le_pow_right (by omega) (by omega)))
      simp [this, Spec.value]
    | cons b t =>
      have h0 := hb 0 (by omega)
      rw [Nat.testBit_zero] at h0
      have h0' : b.toNat = x % 2 := by
        simp [Spec.get] at h0
        subst h0
        by_cases e : x % 2 = 1
        · simp [e]
        · simp [show x % 2 = 0 by omega]
      have := ih (x / 2) t (by rw [pow_succ] at hx; omega) fun o ho => by
        have := hb (o + 1) (by omega)
        rw [Nat.testBit_succ] at this
        rw [this]
        simp [Spec.get]
      rw [Spec.value, this, List.drop_succ_cons, h0', pow_succ]
      have : x = x % 2 + 2 * (x / 2) := by omega
      ring_nf
      ring_nf at this
      omega

theorem get_drop (a : List Bool) (k i : Nat) : Spec.get (a.drop k) i = Spec.get a (k + i) := by
  simp [Spec.get]

theorem blk_value {v : Block} {a : List Bool} {j : Nat} (h : Blk v a j) : Spec.value (a.drop (64 * j)) = v.toNat + 2 ^ 64 * Spec.value (a.drop (64 * (j + 1))) := by
  have := value_blk 64 v.toNat (a.drop (64 * j)) v.isLt fun o ho => by rw [get_drop]; exact h o ho
  rw [this, List.drop_drop, show 64 * (j + 1) = 64 * j + 64 by ring]

theorem lift_lt (k : Nat) : ∀ a b : List Bool, Spec.value (a.drop k) < Spec.value (b.drop k) → Spec.value a < Spec.value b := by
  induction k with
  | zero => intro a b h; simpa using h
  | succ k ih =>
    intro a b h
    cases b with
    | nil => simp [Spec.value] at h
    | cons y t =>
      cases a with
      | nil =>
        have := ih [] t (by simpa [Spec.value] using h)
        simp only [Spec.value] at this ⊢
        omega
      | cons x u =>
        have := ih u t (by simpa using h)
        simp only [Spec.value]
        have := x.toNat_le
        omega

theorem ltDown_tot {x y : BS} {a b : List Bool} (hx : Rep x a) (hy : Rep y b) (hs : x.blocks.size = y.blocks.size) (d : Bool) (j : Nat) (hj : j < x.blocks.size) :
    Spec.value (a.drop (64 * j)) = Spec.value (b.drop (64 * j)) →
    Tot (ltDown x.blocks y.blocks d j) fun r => r = true ↔ Spec.value a < Spec.value b ∨ (d = true ∧ Spec.value a = Spec.value b) := by
  induction j with
  | zero =>
    intro h
    refine Tot.pure ?_
    simp only [Nat.mul_zero, List.drop_zero] at h
    simp [h]
  | succ j ih =>
    intro h
    unfold ltDown
    rw [rd_at 0 (by omega), ok_bind, rd_at 0 (by omega), ok_bind]
    have e1 := blk_value (full_blk hx (j := j) hj)
    have e2 := blk_value (full_blk hy (j := j) (by omega))
    rw [h] at e1
    by_cases hne : at' 0 x.blocks j ≠ at' 0 y.blocks j
    · rw [if_pos hne]
      refine Tot.pure ?_
      have hne' : (at' 0 x.blocks j).toNat ≠ (at' 0 y.blocks j).toNat := fun e => hne (BitVec.eq_of_toNat_eq e)
      rw [decide_eq_true_eq]
      constructor
      · intro hlt
        exact .inl (lift_lt (64 * j) a b (by omega))
      · intro hor
        by_contra hc
        have := lift_lt (64 * j) b a (by omega)
        omega
    · rw [if_neg hne]
      rw [not_not] at hne
      exact ih (by omega) (by rw [e1, e2, hne])

theorem cmp_tot {x y : BS} {a b : List Bool} (hx : Rep x a) (hy : Rep y b) (hab : a.length = b.length) (d : Bool) :
    Tot (cmp d x y) fun r => r = true ↔ Spec.value a < Spec.value b ∨ (d = true ∧ Spec.value a = Spec.value b) := by
  unfold cmp
  have hxn := hx.n_eq
  have hyn := hy.n_eq
  rw [decide_eq_true (by omega), check_true, ok_bind]
  by_cases h2 : x.n = 0
  · rw [if_pos h2]
    have e1 : a = [] := List.length_eq_zero_iff.1 (by omega)
    have e2 : b = [] := List.length_eq_zero_iff.1 (by omega)
    exact Tot.pure (by simp [e1, e2])
  · rw [if_neg h2]
    have hs : x.blocks.size = y.blocks.size := by rw [hx.size, hy.size, hab]
    have hp := size_pos hx h2
    rw [back_eq hp.1, ok_bind]
    refine Tot.bind (last_tot hx h2) fun u hu => ?_
    rw [back_eq (by omega), ok_bind]
    have hl : lastBits x = lastBits y := by unfold lastBits; rw [hs]; omega
    rw [hl]
    refine Tot.bind (last_tot hy (by omega)) fun v hv => ?_
    rw [← hs] at hv
    have e1 := blk_value hu
    have e2 := blk_value hv
    rw [List.drop_eq_nil_of_le (as := a) (i := 64 * (x.blocks.size - 1 + 1)) (by omega)] at e1
    rw [List.drop_eq_nil_of_le (as := b) (i := 64 * (x.blocks.size - 1 + 1)) (by omega)] at e2
    simp only [Spec.value] at e1 e2
    by_cases hne : u ≠ v
    · rw [if_pos hne]
      refine Tot.pure ?_
      have hne' : u.toNat ≠ v.toNat := fun e => hne (BitVec.eq_of_toNat_eq e)
      rw [decide_eq_true_eq]
      constructor
      · intro hlt
        exact .inl (lift_lt (64 * (x.blocks.size - 1)) a b (by omega))
      · intro hor
        by_contra hc
        have := lift_lt (64 * (x.blocks.size - 1)) b a (by omega)
        omega
    · rw [if_neg hne]
      rw [not_not] at hne
      exact ltDown_tot hx hy hs d _ (by omega) (by rw [e1, e2, hne])

/-! ## Counts -/

theorem pop_eq {v : Block} {f : Nat → Bool} {j lo hi : Nat} (h1 : 64 * j ≤ lo) (h2 : lo ≤ hi) (h3 : hi ≤ 64 * j + 64)
    (h : ∀ o, o < 64 → v.getLsbD o = (decide (lo ≤ 64 * j + o ∧ 64 * j + o < hi) && f (64 * j + o))) :
    popcount v = (List.range' lo (hi - lo)).countP f := by
  unfold popcount
  have e1 : (List.range 64).countP (fun i => v.getLsbD i) = (List.range' (64 * j) 64).countP fun p => decide (lo ≤ p ∧ p < hi) && f p := by
    rw [← Nat.add_zero (64 * j), ← List.map_add_range', List.countP_map, ← List.range_eq_range']
    refine List.countP_congr fun o ho => ?_
    rw [h o (List.mem_range.1 ho)]
    rfl
  rw [e1]
  have e2 : List.range' (64 * j) 64 = List.range' (64 * j) (lo - 64 * j) ++ (List.range' lo (hi - lo) ++ List.range' hi (64 * j + 64 - hi)) := by
    have a1 : List.range' lo (hi - lo) ++ List.range' hi (64 * j + 64 - hi) = List.range' lo (64 * j + 64 - lo) := by
      have := @List.range'_append lo (hi - lo) (64 * j + 64 - hi) 1
      rw [show lo + 1 * (hi - lo) = hi by omega, show hi - lo + (64 * j + 64 - hi) = 64 * j + 64 - lo by omega] at this
      exact this
    rw [a1]
    have := @List.range'_append (64 * j) (lo - 64 * j) (64 * j + 64 - lo) 1
    rw [show 64 * j + 1 * (lo - 64 * j) = lo by omega, show lo - 64 * j + (64 * j + 64 - lo) = 64 by omega] at this
    exact this.symm
  rw [e2, List.countP_append, List.countP_append]
  have z1 : (List.range' (64 * j) (lo - 64 * j)).countP (fun p => decide (lo ≤ p ∧ p < hi) && f p) = 0 := by
    refine List.countP_eq_zero.2 fun p hp => ?_
    rw [List.mem_range'_1] at hp
    rw [decide_eq_false (by omega)]; simp
  have z2 : (List.range' hi (64 * j + 64 - hi)).countP (fun p => decide (lo ≤ p ∧ p < hi) && f p) = 0 := by
    refine List.countP_eq_zero.2 fun p hp => ?_
    rw [List.mem_range'_1] at hp
    rw [decide_eq_false (by omega)]; simp
  rw [z1, z2, Nat.zero_add, Nat.add_zero]
  refine List.countP_congr fun p hp => ?_
  rw [List.mem_range'_1] at hp
  rw [decide_eq_true (by omega), Bool.true_and]

theorem count_split (f : Nat → Bool) {l m r : Nat} (h1 : l ≤ m) (h2 : m ≤ r) : (List.range' l (r - l)).countP f = (List.range' l (m - l)).countP f + (List.range' m (r - m)).countP f := by
  have := @List.range'_append l (m - l) (r - m) 1
  rw [show l + 1 * (m - l) = m by omega, show m - l + (r - m) = r - l by omega] at this
  rw [← this, List.countP_append]

theorem pop_block (bl : Array Block) (j : Nat) : popcount (at' 0 bl j) = (List.range' (64 * j) (64 * (j + 1) - 64 * j)).countP (bit bl) :=
  pop_eq le_rfl (by omega) (by omega) fun o ho => by rw [block_bit _ ho, decide_eq_true (by omega), Bool.true_and]

theorem rangeCount_tot {s : BS} {a : List Bool} (h : Rep s a) {l r : Nat} (hlr : l ≤ r) (hr : r ≤ a.length) :
    Tot (rangeCount s l r) fun k => k = ((List.range' l (r - l)).filter fun i => Spec.get a i).length := by
  have hn := h.n_eq
  have hg : ((List.range' l (r - l)).filter fun i => Spec.get a i).length = (List.range' l (r - l)).countP (bit s.blocks) := by
    rw [← List.countP_eq_length_filter]
    refine List.countP_congr fun p hp => ?_
    rw [List.mem_range'_1] at hp
    rw [h.bits p (by omega)]
  rw [hg]
  unfold rangeCount
  rw [decide_eq_true (by omega), check_true, ok_bind]
  by_cases h0 : l = r
  · rw [if_pos h0]
    exact Tot.pure (by simp [h0])
  · rw [if_neg h0]
    have hsz := h.size
    have hrb : (r - 1) / 64 < s.blocks.size := by rw [hsz]; exact blockNum_lt (by omega)
    have hlb : l / 64 < s.blocks.size := lt_of_le_of_lt (by omega) hrb
    obtain ⟨ri, hri⟩ : ∃ ri, ri = if r % 64 = 0 then 64 else r % 64 := ⟨_, rfl⟩
    simp only [← hri]
    have hri' : r = 64 * ((r - 1) / 64) + ri := by split at hri <;> omega
    have hri1 : 1 ≤ ri ∧ ri ≤ 64 := by split at hri <;> omega
    by_cases hb : l / 64 = (r - 1) / 64
    · rw [if_pos hb, rd_at 0 hlb, ok_bind]
      refine Tot.bind (maskRange_tot (l := l % 64) (r := ri) (by omega) hri1.2) fun m hm => Tot.pure ?_
      refine pop_eq (j := l / 64) (by omega) hlr (by omega) fun o ho => ?_
      rw [BitVec.getLsbD_and, hm, block_bit _ ho, Bool.and_comm]
      congr 1
      rw [decide_eq_decide]; omega
    · rw [if_neg hb, rd_at 0 hlb, ok_bind]
      refine Tot.bind (maskUpper_tot ones (num := 64 - l % 64) (by omega) (by omega)) fun m hm => ?_
      rw [rd_at 0 hrb, ok_bind]
      refine Tot.bind (lower_tot ones (num := ri) hri1.2) fun m' hm' => ?_
      have p1 : popcount (at' 0 s.blocks (l / 64) &&& m) = (List.range' l (64 * (l / 64 + 1) - l)).countP (bit s.blocks) := by
        refine pop_eq (j := l / 64) (by omega) (by omega) (by omega) fun o ho => ?_
        rw [BitVec.getLsbD_and, hm, ones_bit ho, block_bit _ ho, Bool.and_comm, Bool.and_true]
        congr 1
        rw [decide_eq_decide]; omega
      have p2 : popcount (at' 0 s.blocks ((r - 1) / 64) &&& m') = (List.range' (64 * ((r - 1) / 64)) (r - 64 * ((r - 1) / 64))).countP (bit s.blocks) := by
        refine pop_eq (j := (r - 1) / 64) (by omega) (by omega) (by omega) fun o ho => ?_
        rw [BitVec.getLsbD_and, hm', ones_bit ho, block_bit _ ho, Bool.and_comm, Bool.and_true]
        congr 1
        rw [decide_eq_decide]; omega
      rw [p1, p2]
      refine Tot.mono (Tot.forUp (P := fun k (res : Nat) => res = (List.range' l (64 * k - l)).countP (bit s.blocks) +
        (List.range' (64 * ((r - 1) / 64)) (r - 64 * ((r - 1) / 64))).countP (bit s.blocks)) (by omega) rfl ?_) ?_
      · rintro k res hk1 hk2 rfl
        rw [rd_at 0 (by omega), ok_bind]
        refine Tot.pure ?_
        rw [pop_block, count_split (bit s.blocks) (l := l) (m := 64 * k) (r := 64 * (k + 1)) (by omega) (by omega)]
        omega
      · rintro res rfl
        rw [← count_split (bit s.blocks) (by omega) (by omega)]

theorem count_tot {s : BS} {a : List Bool} (h : Rep s a) : Tot (count s) fun k => k = a.count true := by
  have hn := h.n_eq
  have hg : a.count true = (List.range' 0 (a.length - 0)).countP (bit s.blocks) := by
    rw [Nat.sub_zero, ← List.range_eq_range']
    have : a = (List.range a.length).map (Spec.get a) := by
      refine List.ext_getElem (by simp) fun i h1 h2 => ?_
      simp [Spec.get, h1]
    conv_lhs => rw [this]
    rw [List.count, List.countP_map]
    refine List.countP_congr fun p hp => ?_
    rw [h.bits p (List.mem_range.1 hp)]
    simp
  rw [hg]
  unfold count
  by_cases h2 : s.n = 0
  · rw [if_pos h2]
    have e1 : a.length = 0 := by omega
    exact Tot.pure (by rw [e1]; simp)
  · rw [if_neg h2]
    have hp := size_pos h h2
    refine Tot.bind (Tot.forUp (P := fun k (res : Nat) => res = (List.range' 0 (64 * k - 0)).countP (bit s.blocks)) (by omega) (by simp) ?_) ?_
    · rintro k res _ hk2 rfl
      rw [rd_at 0 (by omega), ok_bind]
      refine Tot.pure ?_
      rw [pop_block, ← count_split (bit s.blocks) (by omega) (by omega)]
    · rintro res rfl
      rw [back_eq hp.1, ok_bind]
      refine Tot.bind (lower_tot _ (by unfold lastBits; omega)) fun v hv => Tot.pure ?_
      have : popcount v = (List.range' (64 * (s.blocks.size - 1)) (a.length - 64 * (s.blocks.size - 1))).countP (bit s.blocks) := by
        refine pop_eq (j := s.blocks.size - 1) (by omega) (by omega) (by omega) fun o ho => ?_
        rw [hv, block_bit _ ho]
        congr 1
        rw [decide_eq_decide]
        unfold lastBits
        omega
      rw [this, ← count_split (bit s.blocks) (by omega) (by omega)]

/-! ## Searches -/

theorem hit_tot (n i : Nat) {b : Block} {g : Nat → Bool} (hb : ∀ o, o < 64 → b.getLsbD o = g (64 * i + o)) :
    Tot (hit n i b) fun r => (∀ v, r = some v → ∃ q, v = min n q ∧ q / 64 = i ∧ g q = true ∧ ∀ p, p / 64 = i → p < q → g p = false) ∧
      (r = Option.none → ∀ p, p / 64 = i → g p = false) := by
  unfold hit
  have hg : ∀ p, p / 64 = i → b.getLsbD (p % 64) = g p := by
    rintro p rfl
    rw [hb _ (by omega), show 64 * (p / 64) + p % 64 = p by omega]
  by_cases h0 : b ≠ 0
  · rw [if_pos h0, ctz, if_neg h0]
    refine Tot.pure ⟨fun v hv => ?_, fun hv => by cases hv⟩
    cases hv
    have hlt : b.ctz.toNat < 64 := by
      have := BitVec.ctz_lt_iff_ne_zero (x := b) |>.2 h0
      simpa [BitVec.lt_def] using this
    refine ⟨64 * i + b.ctz.toNat, ?_, by omega, ?_, ?_⟩
    · congr 1
      rw [Nat.or_comm, ← Nat.shiftLeft_add_eq_or_of_lt (by simpa using hlt), Nat.shiftLeft_eq]
      omega
    · rw [← hb _ hlt]
      exact BitVec.getLsbD_true_ctz_of_ne_zero h0
    · intro p hp hlt'
      rw [← hg p hp]
      exact BitVec.getLsbD_false_of_lt_ctz (by omega)
  · rw [if_neg h0]
    rw [not_not] at h0
    refine Tot.pure ⟨fun v hv => (by cases hv), fun _ p hp => ?_⟩
    rw [← hg p hp, h0, zero_bit]

theorem findFirst_tot {s : BS} {a : List Bool} (h : Rep s a) : Tot (findFirst s) fun r => Spec.IsFirst a 0 r := by
  unfold findFirst
  have hn := h.n_eq
  have hend : (∀ p, p < a.length → bit s.blocks p = false) → Spec.IsFirst a 0 s.n := by
    intro hall
    refine ⟨by omega, fun hc => by omega, fun i _ hi => ?_⟩
    rw [← h.bits i (by omega)]
    exact hall i (by omega)
  by_cases h2 : s.n = 0
  · rw [if_pos h2]
    exact Tot.pure (hend fun p hp => by omega)
  · rw [if_neg h2]
    have hp := size_pos h h2
    refine Tot.bind (firstSome_tot (fun j v => ∃ q, v = min s.n q ∧ q / 64 = j ∧ bit s.blocks q = true ∧ ∀ p, p / 64 = j → p < q → bit s.blocks p = false)
      (fun j => ∀ p, p / 64 = j → bit s.blocks p = false) _ _ fun j _ hj => ?_) ?_
    · rw [rd_at 0 (by omega), ok_bind]
      exact hit_tot _ _ fun o ho => block_bit _ ho
    · rintro o ⟨g1, g2⟩
      cases o with
      | some v =>
        refine Tot.pure ?_
        obtain ⟨j, _, _, ⟨q, rfl, hq, hb, hmin⟩, hbef⟩ := g1 v rfl
        refine ⟨by omega, fun hc => ⟨by omega, ?_⟩, fun i _ hi => ?_⟩
        · rw [← h.bits _ hc, show min s.n q = q by omega]; exact hb
        · rw [← h.bits i (by omega)]
          by_cases e : i / 64 = j
          · exact hmin i e (by omega)
          · exact hbef (i / 64) (by omega) (by omega) i rfl
      | none =>
        exact Tot.pure (hend fun p hpl => g2 rfl (p / 64) (by omega) (by omega) p rfl)

theorem findNext_tot {s : BS} {a : List Bool} (h : Rep s a) {pos : Nat} (hpos : pos < 2 ^ 64 - 1) : Tot (findNext s pos) fun r => Spec.IsFirst a (pos + 1) r := by
  unfold findNext
  have hn := h.n_eq
  have hsz := h.size
  have hmod : (pos + 1) % 2 ^ 64 = pos + 1 := Nat.mod_eq_of_lt (by omega)
  rw [hmod]
  dsimp only
  generalize pos + 1 = p0
  have hend : (∀ p, p0 ≤ p → p < a.length → bit s.blocks p = false) → Spec.IsFirst a p0 s.n := by
    intro hall
    refine ⟨by omega, fun hc => by omega, fun i hi1 hi => ?_⟩
    rw [← h.bits i (by omega)]
    exact hall i hi1 (by omega)
  by_cases h1 : p0 / 64 ≥ s.blocks.size
  · rw [if_pos h1]
    refine Tot.pure (hend fun p hp1 hp2 => ?_)
    have := blockNum_lt hp2
    omega
  · rw [if_neg h1, rd_at 0 (by omega), ok_bind]
    refine Tot.bind (maskUpper_tot _ (num := 64 - p0 % 64) (by omega) (by omega)) fun u hu => ?_
    refine Tot.bind (hit_tot s.n (p0 / 64) (b := u) (g := fun p => decide (p0 ≤ p) && bit s.blocks p) fun o ho => ?_) ?_
    · rw [hu, block_bit _ ho]
      congr 1
      rw [decide_eq_decide]
      omega
    · rintro o ⟨g1, g2⟩
      cases o with
      | some v =>
        refine Tot.pure ?_
        obtain ⟨q, rfl, hq, hb, hmin⟩ := g1 v rfl
        simp only [Bool.and_eq_true, decide_eq_true_eq] at hb
        refine ⟨by omega, fun hc => ⟨by omega, ?_⟩, fun i hi1 hi => ?_⟩
        · rw [← h.bits _ hc, show min s.n q = q by omega]; exact hb.2
        · rw [← h.bits i (by omega)]
          have := hmin i (by omega) (by omega)
          rw [decide_eq_true hi1, Bool.true_and] at this
          exact this
      | none =>
        have hfirst : ∀ p, p0 ≤ p → p / 64 = p0 / 64 → bit s.blocks p = false := by
          intro p hp1 hp2
          have := g2 rfl p hp2
          rw [decide_eq_true hp1, Bool.true_and] at this
          exact this
        dsimp only
        refine Tot.bind (firstSome_tot (fun j v => ∃ q, v = min s.n q ∧ q / 64 = j ∧ bit s.blocks q = true ∧ ∀ p, p / 64 = j → p < q → bit s.blocks p = false)
          (fun j => ∀ p, p / 64 = j → bit s.blocks p = false) _ _ fun j _ hj => ?_) ?_
        · rw [rd_at 0 (by omega), ok_bind]
          exact hit_tot _ _ fun o ho => block_bit _ ho
        · rintro o ⟨k1, k2⟩
          cases o with
          | some v =>
            refine Tot.pure ?_
            obtain ⟨j, hj1, _, ⟨q, rfl, hq, hb, hmin⟩, hbef⟩ := k1 v rfl
            refine ⟨by omega, fun hc => ⟨by omega, ?_⟩, fun i hi1 hi => ?_⟩
            · rw [← h.bits _ hc, show min s.n q = q by omega]; exact hb
            · rw [← h.bits i (by omega)]
              by_cases e0 : i / 64 = p0 / 64
              · exact hfirst i hi1 e0
              · by_cases e : i / 64 = j
                · exact hmin i e (by omega)
                · exact hbef (i / 64) (by omega) (by omega) i rfl
          | none =>
            refine Tot.pure (hend fun p hp1 hp2 => ?_)
            by_cases e0 : p / 64 = p0 / 64
            · exact hfirst p hp1 e0
            · have := blockNum_lt hp2
              exact k2 rfl (p / 64) (by omega) (by omega) p rfl

end DynamicBitSet
