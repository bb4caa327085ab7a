import Verif.Spec.DynamicBitSet
import Mathlib.Tactic.Ring
import Mathlib.Tactic.Tauto

namespace DynamicBitSet
open Cxx Spec

/-! ## Blocks -/

theorem shl_eq (b : Block) {k : Nat} (h : k < 64) : shl b k = .ok (b <<< k) := by unfold shl; rw [if_pos h]; rfl

theorem shr_eq (b : Block) {k : Nat} (h : k < 64) : shr b k = .ok (b >>> k) := by unfold shr; rw [if_pos h]; rfl

theorem lower_tot (b : Block) {num : Nat} (h : num ≤ 64) :
    Tot (lower b num) fun x => ∀ i, x.getLsbD i = (decide (i < num) && b.getLsbD i) := by
  unfold lower
  by_cases h0 : num = 0
  · rw [if_pos h0]; exact Tot.pure (by simp [h0])
  · rw [if_neg h0, shl_eq b (by omega), ok_bind, shr_eq _ (by omega)]
    refine Tot.pure fun i => ?_
    rw [BitVec.getLsbD_ushiftRight, BitVec.getLsbD_shiftLeft]
    by_cases hi : i < num
    · simp [hi, show 64 - num + i < 64 by omega]
    · simp [hi, show ¬ 64 - num + i < 64 by omega]

theorem maskUpper_tot (b : Block) {num : Nat} (h : num ≤ 64) (h0 : num ≠ 0) :
    Tot (maskUpper b num) fun x => ∀ i, x.getLsbD i = (decide (64 - num ≤ i) && b.getLsbD i) := by
  unfold maskUpper
  rw [if_neg h0, shr_eq b (by omega), ok_bind, shl_eq _ (by omega)]
  refine Tot.pure fun i => ?_
  rw [BitVec.getLsbD_shiftLeft, BitVec.getLsbD_ushiftRight]
  by_cases hi : 64 - num ≤ i
  · by_cases h6 : i < 64
    · simp [h6, hi, show ¬ i < 64 - num by omega, show 64 - num + (i - (64 - num)) = i by omega]
    · simp [h6, BitVec.getLsbD_of_ge b i (by omega)]
  · simp [hi, show i < 64 - num by omega]

theorem maskRange_tot {l r : Nat} (h : l < r) (hr : r ≤ 64) :
    Tot (maskRange ones l r) fun x => ∀ i, x.getLsbD i = decide (l ≤ i ∧ i < r) := by
  unfold maskRange
  rw [if_pos h, shl_eq _ (by omega), ok_bind, shr_eq _ (by omega), ok_bind, shl_eq _ (by omega)]
  refine Tot.pure fun i => ?_
  rw [BitVec.getLsbD_shiftLeft, BitVec.getLsbD_ushiftRight, BitVec.getLsbD_shiftLeft, ones, BitVec.getLsbD_allOnes]
  rw [Bool.eq_iff_iff]
  simp
  omega

theorem ones_bit {i : Nat} (h : i < 64) : ones.getLsbD i = true := by
  rw [ones, BitVec.getLsbD_allOnes]; simpa using h

theorem zero_bit (i : Nat) : (0 : Block).getLsbD i = false := by simp

theorem one_shl_bit {k : Nat} (hk : k < 64) (i : Nat) : ((1 : Block) <<< k).getLsbD i = decide (i = k) := by
  rw [BitVec.getLsbD_shiftLeft, Bool.eq_iff_iff]
  have : (1 : Block).getLsbD (i - k) = decide (i - k = 0) := by
    rw [show (1 : Block) = 1#64 from rfl, BitVec.getLsbD_one]; simp
  rw [this]
  simp
  omega

/-! ## The bits of the blocks -/

/-- Bit `i` of the blocks. -/
def bit (bl : Array Block) (i : Nat) : Bool := (at' 0 bl (i / 64)).getLsbD (i % 64)

theorem bit_set {bl : Array Block} {k : Nat} (h : k < bl.size) (x : Block) (i : Nat) :
    bit (bl.setIfInBounds k x) i = if i / 64 = k then x.getLsbD (i % 64) else bit bl i := by
  unfold bit
  rw [at_set 0 h]
  by_cases e : i / 64 = k
  · rw [if_pos e.symm, if_pos e]
  · rw [if_neg (Ne.symm e), if_neg e]

theorem block_bit (bl : Array Block) {b o : Nat} (ho : o < 64) : (at' 0 bl b).getLsbD o = bit bl (64 * b + o) := by
  unfold bit
  rw [show (64 * b + o) / 64 = b by omega, show (64 * b + o) % 64 = o by omega]

theorem at_replicate (n : Nat) (x : Block) {i : Nat} (h : i < n) : at' 0 (Array.replicate n x) i = x := by
  simp [at', Array.getElem?_replicate, h]

/-- `s` has the size `n` and the bits `f`. -/
structure R (s : BS) (n : Nat) (f : Nat → Bool) : Prop where
  n_eq : s.n = n
  size : s.blocks.size = blockNum n
  bits : ∀ i, i < n → bit s.blocks i = f i

/-- `s` represents the list. -/
def Rep (s : BS) (l : List Bool) : Prop := R s l.length (Spec.get l)

theorem R.congr {s : BS} {n : Nat} {f g : Nat → Bool} (h : R s n f) (hfg : ∀ i, i < n → f i = g i) : R s n g :=
  ⟨h.n_eq, h.size, fun i hi => (h.bits i hi).trans (hfg i hi)⟩

theorem get_tab {n : Nat} (f : Nat → Bool) {i : Nat} (h : i < n) : Spec.get (tab n f) i = f i := by
  simp [Spec.get, tab, h]

theorem length_tab (n : Nat) (f : Nat → Bool) : (tab n f).length = n := by simp [tab]

theorem R.tab {s : BS} {n : Nat} {f : Nat → Bool} (h : R s n f) : Rep s (Spec.tab n f) := by
  unfold Rep
  rw [length_tab]
  exact h.congr fun i hi => (get_tab f hi).symm

theorem R.list {s : BS} {n : Nat} {f : Nat → Bool} (h : R s n f) {l : List Bool} (hl : l.length = n) (hf : ∀ i, i < n → f i = Spec.get l i) : Rep s l := by
  unfold Rep
  rw [hl]
  exact h.congr hf

theorem get_ge {l : List Bool} {i : Nat} (h : l.length ≤ i) : Spec.get l i = false := by
  simp [Spec.get, h]

theorem blockNum_lt {n i : Nat} (h : i < n) : i / 64 < blockNum n := by unfold blockNum; omega

theorem make_rep (n : Nat) (v : Bool) : R (make n v) n fun _ => v := by
  refine ⟨rfl, by simp [make], fun i hi => ?_⟩
  unfold bit make
  rw [at_replicate _ _ (blockNum_lt hi)]
  cases v
  · simp
  · exact ones_bit (by omega)

/-! ## Changes of single bits -/

theorem bitUpd_tot {f : Block → Block → Block} {g : Bool → Bool} (hf : ∀ b m : Block, ∀ o, o < 64 → (f b m).getLsbD o = if m.getLsbD o then g (b.getLsbD o) else b.getLsbD o)
    {s : BS} {n : Nat} {φ : Nat → Bool} (h : R s n φ) {i : Nat} (hi : i < s.blocks.size * 64) :
    Tot (bitUpd f s i) fun s' => s'.n = s.n ∧ s'.blocks.size = s.blocks.size ∧
      ∀ j, bit s'.blocks j = if j = i then g (bit s.blocks j) else bit s.blocks j := by
  unfold bitUpd
  have hb : i / 64 < s.blocks.size := by omega
  rw [rd_at 0 hb, ok_bind, shl_eq _ (by omega), ok_bind, wr_eq hb, ok_bind]
  refine Tot.pure ⟨rfl, by simp, fun j => ?_⟩
  dsimp only
  rw [bit_set hb]
  by_cases hj : j / 64 = i / 64
  · rw [if_pos hj, hf _ _ _ (by omega), one_shl_bit (by omega), ← hj]
    by_cases e : j = i
    · subst e; simp [bit]
    · rw [if_neg (by simp; omega), if_neg e]; rfl
  · rw [if_neg hj, if_neg (by rintro rfl; exact hj rfl)]

theorem or_form (b m : Block) (o : Nat) (_ : o < 64) : (b ||| m).getLsbD o = if m.getLsbD o then true else b.getLsbD o := by
  rw [BitVec.getLsbD_or]; cases m.getLsbD o <;> simp

theorem andnot_form (b m : Block) (o : Nat) (h : o < 64) : (b &&& ~~~m).getLsbD o = if m.getLsbD o then false else b.getLsbD o := by
  rw [BitVec.getLsbD_and, BitVec.getLsbD_not]; cases m.getLsbD o <;> simp [h]

theorem xor_form (b m : Block) (o : Nat) (_ : o < 64) : (b ^^^ m).getLsbD o = if m.getLsbD o then !b.getLsbD o else b.getLsbD o := by
  rw [BitVec.getLsbD_xor]; cases m.getLsbD o <;> simp

theorem assign_bits {s : BS} {n : Nat} {φ : Nat → Bool} (h : R s n φ) {i : Nat} (hi : i < s.blocks.size * 64) (v : Bool) :
    Tot (assign s i v) fun s' => s'.n = s.n ∧ s'.blocks.size = s.blocks.size ∧ ∀ j, bit s'.blocks j = if j = i then v else bit s.blocks j := by
  unfold assign
  cases v with
  | true => exact bitUpd_tot (g := fun _ => true) or_form h hi
  | false => exact bitUpd_tot (g := fun _ => false) andnot_form h hi

theorem R.lt {s : BS} {n : Nat} {φ : Nat → Bool} (h : R s n φ) {i : Nat} (hi : i < n) : i < s.blocks.size * 64 := by
  have := blockNum_lt hi
  rw [h.size]; omega

theorem R.of_bits {s s' : BS} {n : Nat} {φ ψ : Nat → Bool} (h : R s n φ) (h1 : s'.n = s.n) (h2 : s'.blocks.size = s.blocks.size)
    (h3 : ∀ j, j < n → bit s'.blocks j = ψ j) : R s' n ψ := ⟨h1.trans h.n_eq, h2.trans h.size, h3⟩

theorem get_set {l : List Bool} {i : Nat} (hi : i < l.length) (v : Bool) (j : Nat) : Spec.get (l.set i v) j = if j = i then v else Spec.get l j := by
  unfold Spec.get
  rw [List.getElem?_set]
  by_cases e : i = j
  · subst e; simp [hi]
  · simp [e, Ne.symm e]

theorem assign_tot {s : BS} {l : List Bool} (h : Rep s l) {i : Nat} (hi : i < l.length) (v : Bool) :
    Tot (assign s i v) fun s' => Rep s' (l.set i v) := by
  refine Tot.mono (assign_bits h (h.lt hi) v) fun s' ⟨h1, h2, h3⟩ => ?_
  unfold Rep
  rw [List.length_set]
  refine h.of_bits h1 h2 fun j hj => ?_
  rw [h3, get_set hi]
  split
  · rfl
  · exact h.bits j hj

theorem flip_tot {s : BS} {l : List Bool} (h : Rep s l) {i : Nat} (hi : i < l.length) :
    Tot (flip s i) fun s' => Rep s' (l.set i (!Spec.get l i)) := by
  refine Tot.mono (bitUpd_tot (g := not) xor_form h (h.lt hi)) fun s' ⟨h1, h2, h3⟩ => ?_
  unfold Rep
  rw [List.length_set]
  refine h.of_bits h1 h2 fun j hj => ?_
  rw [h3, get_set hi]
  split
  · subst_vars; rw [h.bits _ hj]
  · exact h.bits j hj

theorem bitOr_tot {s : BS} {l : List Bool} (h : Rep s l) {i : Nat} (hi : i < l.length) (v : Bool) :
    Tot (bitOr s i v) fun s' => Rep s' (l.set i (Spec.get l i || v)) := by
  have hb := h.lt hi
  have hb' : i / 64 < s.blocks.size := by omega
  unfold bitOr
  rw [rd_at 0 hb', ok_bind, shl_eq _ (by omega), ok_bind, wr_eq hb', ok_bind]
  refine Tot.pure ?_
  unfold Rep
  rw [List.length_set]
  refine h.of_bits rfl (by simp) fun j hj => ?_
  dsimp only
  rw [bit_set hb', get_set hi]
  by_cases hj' : j / 64 = i / 64
  · rw [if_pos hj', BitVec.getLsbD_or, ← hj']
    have e1 : (at' 0 s.blocks (j / 64)).getLsbD (j % 64) = Spec.get l j := h.bits j hj
    rw [e1]
    cases v with
    | true =>
      simp only [if_true]
      rw [one_shl_bit (by omega)]
      by_cases e : j = i
      · simp [e]
      · rw [if_neg e, decide_eq_false (by omega)]; simp
    | false =>
      by_cases e : j = i
      · simp [e]
      · simp [e]
  · rw [if_neg hj', if_neg (by rintro rfl; exact hj' rfl)]
    exact h.bits j hj

theorem bitXor_tot {s : BS} {l : List Bool} (h : Rep s l) {i : Nat} (hi : i < l.length) (v : Bool) :
    Tot (bitXor s i v) fun s' => Rep s' (l.set i (Spec.get l i ^^ v)) := by
  have hb := h.lt hi
  have hb' : i / 64 < s.blocks.size := by omega
  unfold bitXor
  rw [rd_at 0 hb', ok_bind, shl_eq _ (by omega), ok_bind, wr_eq hb', ok_bind]
  refine Tot.pure ?_
  unfold Rep
  rw [List.length_set]
  refine h.of_bits rfl (by simp) fun j hj => ?_
  dsimp only
  rw [bit_set hb', get_set hi]
  by_cases hj' : j / 64 = i / 64
  · rw [if_pos hj', BitVec.getLsbD_xor, ← hj']
    have e1 : (at' 0 s.blocks (j / 64)).getLsbD (j % 64) = Spec.get l j := h.bits j hj
    rw [e1]
    cases v with
    | true =>
      simp only [if_true]
      rw [one_shl_bit (by omega)]
      by_cases e : j = i
      · simp [e]
      · rw [if_neg e, decide_eq_false (by omega)]; simp
    | false =>
      by_cases e : j = i
      · simp [e]
      · simp [e]
  · rw [if_neg hj', if_neg (by rintro rfl; exact hj' rfl)]
    exact h.bits j hj

theorem test_tot {s : BS} {l : List Bool} (h : Rep s l) {i : Nat} (hi : i < l.length) : Tot (test s i) fun b => b = Spec.get l i := by
  have hb := h.lt hi
  have hb' : i / 64 < s.blocks.size := by omega
  unfold test
  rw [rd_at 0 hb', ok_bind, shr_eq _ (by omega), ok_bind]
  refine Tot.pure ?_
  rw [← h.bits i hi]
  unfold bit
  generalize at' 0 s.blocks (i / 64) = b
  have e : ∀ o, ((b >>> (i % 64)) &&& 1).getLsbD o = (decide (o = 0) && b.getLsbD (i % 64)) := by
    intro o
    rw [BitVec.getLsbD_and, BitVec.getLsbD_ushiftRight, show (1 : Block) = 1#64 from rfl, BitVec.getLsbD_one]
    by_cases ho : o = 0
    · subst ho; simp
    · simp [ho]
  by_cases hv : b.getLsbD (i % 64)
  · rw [hv]
    rw [decide_eq_true]
    intro h0
    have := e 0
    rw [h0, hv] at this
    simp at this
  · simp only [Bool.not_eq_true] at hv
    rw [hv, decide_eq_false]
    intro h0
    apply h0
    apply BitVec.eq_of_getLsbD_eq
    intro o _
    rw [e, hv]
    simp

end DynamicBitSet
