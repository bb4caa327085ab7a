import Verif.Spec.Coloring
import Verif.Proof.SubsetConvolution
import Mathlib.Algebra.BigOperators.Ring.Finset
import Mathlib.Data.Fintype.BigOperators
import Mathlib.Tactic.Ring
import Mathlib.Data.Nat.Bitwise
import Batteries.Data.Nat.Lemmas

namespace Coloring
open Finset SubsetConvolution

theorem bit_xor (s b i : Nat) : (s ^^^ 2 ^ b).testBit i = (s.testBit i ^^ decide (b = i)) := by
  rw [Nat.testBit_xor, Nat.testBit_two_pow]

theorem xor_lt {n s b : Nat} (hs : s < 2 ^ n) (hb : b < n) : s ^^^ 2 ^ b < 2 ^ n :=
  Nat.xor_lt_two_pow hs (Nat.pow_lt_pow_right (by omega) hb)

theorem xor_xor (s b : Nat) : s ^^^ 2 ^ b ^^^ 2 ^ b = s := by
  rw [Nat.xor_assoc, Nat.xor_self, Nat.xor_zero]

theorem bit_lt {n s i : Nat} (hs : s < 2 ^ n) (h : s.testBit i = true) : i < n := by
  by_contra c
  have := Nat.testBit_lt_two_pow (lt_of_lt_of_le hs (Nat.pow_le_pow_right (by omega) (show n ≤ i by omega)))
  rw [this] at h
  cases h

theorem pop_flip {n s b : Nat} (hs : s < 2 ^ n) (hb : b < n) (h : s.testBit b = false) : popcount (s ^^^ 2 ^ b) = popcount s + 1 := by
  rw [popcount_eq (xor_lt hs hb), popcount_eq hs]
  have : ((range n).filter fun i => (s ^^^ 2 ^ b).testBit i = true) = insert b ((range n).filter fun i => s.testBit i = true) := by
    ext i
    rw [mem_insert, mem_filter, mem_filter, mem_range, bit_xor]
    by_cases e : b = i
    · subst e; simp [h, hb]
    · simp [e, Ne.symm e]
  rw [this, card_insert_of_notMem (by simp [h])]

/-- The sign of a mask. -/
def sgn (n s : Nat) : ℤ := (-1) ^ (n - popcount s)

theorem sgn_flip {n s b : Nat} (hs : s < 2 ^ n) (hb : b < n) : sgn n s + sgn n (s ^^^ 2 ^ b) = 0 := by
  have key : ∀ s : Nat, s < 2 ^ n → s.testBit b = false → sgn n s + sgn n (s ^^^ 2 ^ b) = 0 := by
    intro s hs h
    have h1 := pop_flip hs hb h
    have h2 := popcount_le (xor_lt hs hb)
    unfold sgn
    rw [show n - popcount s = n - popcount (s ^^^ 2 ^ b) + 1 by omega, pow_succ]
    ring
  cases h : s.testBit b with
  | false => exact key s hs h
  | true =>
    have := key (s ^^^ 2 ^ b) (xor_lt hs hb) (by rw [bit_xor, h]; simp)
    rw [xor_xor] at this
    rw [add_comm]
    exact this

theorem sgn_full (n : Nat) : sgn n (2 ^ n - 1) = 1 := by
  unfold sgn
  have : popcount (2 ^ n - 1) = n := by
    rw [popcount_eq (k := n) (by have := Nat.two_pow_pos n; omega)]
    rw [filter_true_of_mem]
    · simp
    · intro i hi
      rw [Nat.testBit_two_pow_sub_one]
      simpa using hi
  rw [this, Nat.sub_self, pow_zero]

/-- Containment of masks. -/
def Sub (T s : Nat) : Prop := ∀ i, T.testBit i = true → s.testBit i = true

open Classical in
/-- The number of independent sets inside `s`. -/
noncomputable def cnt (n : Nat) (edges : List (Nat × Nat)) (s : Nat) : Nat := ((indeps n edges).filter fun T => Sub T s).card

theorem mem_indeps {n : Nat} {edges : List (Nat × Nat)} {T : Nat} : T ∈ indeps n edges ↔ T < 2 ^ n ∧ Indep edges T := by
  classical
  unfold indeps
  rw [mem_filter, mem_range]

open Classical in
/-- The signed number of masks above all members of a tuple. -/
theorem sum_above {n k : Nat} (f : Fin k → Nat) (hf : ∀ j, f j < 2 ^ n) :
    (∑ s ∈ range (2 ^ n), if (∀ j, Sub (f j) s) then sgn n s else 0) = if (∀ v, v < n → ∃ j, (f j).testBit v = true) then 1 else 0 := by
  split_ifs with hc
  · rw [sum_eq_single (2 ^ n - 1)]
    · rw [if_pos, sgn_full]
      intro j i hi
      rw [Nat.testBit_two_pow_sub_one]
      simpa using bit_lt (hf j) hi
    · intro s hs hne
      rw [if_neg]
      intro h
      apply hne
      refine Nat.eq_of_testBit_eq fun i => ?_
      rw [Nat.testBit_two_pow_sub_one]
      by_cases hi : i < n
      · obtain ⟨j, hj⟩ := hc i hi
        rw [h j i hj]
        simp [hi]
      · simp only [hi, decide_false]
        rw [Bool.eq_false_iff]
        intro c
        exact hi (bit_lt (mem_range.mp hs) c)
    · intro h
      have := Nat.two_pow_pos n
      rw [mem_range] at h
      omega
  · push Not at hc
    obtain ⟨b, hb, hnb⟩ := hc
    have habove : ∀ s, (∀ j, Sub (f j) (s ^^^ 2 ^ b)) ↔ ∀ j, Sub (f j) s := by
      intro s
      refine forall_congr' fun j => forall_congr' fun i => ?_
      rw [bit_xor]
      by_cases e : b = i
      · subst e
        simp [hnb j]
      · simp [e]
    refine sum_involution (fun s _ => s ^^^ 2 ^ b) ?_ ?_ ?_ ?_
    · intro s hs
      by_cases h : ∀ j, Sub (f j) s
      · rw [if_pos h, if_pos ((habove s).mpr h)]
        exact sgn_flip (mem_range.mp hs) hb
      · rw [if_neg h, if_neg (fun c => h ((habove s).mp c)), add_zero]
    · intro s hs _ e
      have h := congrArg (fun x => x.testBit b) e
      rw [bit_xor] at h
      simp at h
    · intro s hs
      exact mem_range.mpr (xor_lt (mem_range.mp hs) hb)
    · intro s hs
      exact xor_xor s b

/-- Inclusion and exclusion: the number of covers. -/
theorem sum_covers (n : Nat) (edges : List (Nat × Nat)) (k : Nat) :
    ∑ s ∈ range (2 ^ n), sgn n s * (cnt n edges s : ℤ) ^ k = covers n edges k := by
  classical
  have h1 : ∀ s ∈ range (2 ^ n), sgn n s * (cnt n edges s : ℤ) ^ k =
      ∑ f ∈ Fintype.piFinset fun _ : Fin k => indeps n edges, if (∀ j, Sub (f j) s) then sgn n s else 0 := by
    intro s _
    have h2 : (cnt n edges s) ^ k = ((Fintype.piFinset fun _ : Fin k => indeps n edges).filter fun f => ∀ j, Sub (f j) s).card := by
      have := Fintype.card_piFinset (fun _ : Fin k => (indeps n edges).filter fun T => Sub T s)
      rw [prod_const, card_univ, Fintype.card_fin] at this
      unfold cnt
      rw [← this]
      congr 1
      ext f
      simp only [Fintype.mem_piFinset, mem_filter]
      exact ⟨fun h => ⟨fun j => (h j).1, fun j => (h j).2⟩, fun h j => ⟨h.1 j, h.2 j⟩⟩
    rw [← sum_filter, sum_const, ← h2, nsmul_eq_mul]
    push_cast
    ring
  rw [sum_congr rfl h1, sum_comm]
  have h3 : ∀ f ∈ Fintype.piFinset fun _ : Fin k => indeps n edges, (∑ s ∈ range (2 ^ n), if (∀ j, Sub (f j) s) then sgn n s else 0) =
      if (∀ v, v < n → ∃ j, (f j).testBit v = true) then 1 else 0 := by
    intro f hf
    refine sum_above f fun j => ?_
    exact (mem_indeps.mp (Fintype.mem_piFinset.mp hf j)).1
  rw [sum_congr rfl h3, sum_boole]
  rfl

/-- A mask with given bits. -/
theorem exists_mask (n : Nat) (P : Nat → Prop) : ∃ s, s < 2 ^ n ∧ ∀ i, i < n → (s.testBit i = true ↔ P i) := by
  classical
  refine ⟨Nat.ofBits fun i : Fin n => decide (P i), Nat.ofBits_lt_two_pow _, ?_⟩
  intro i hi
  rw [Nat.testBit_ofBits_lt _ _ hi]
  simp

theorem covers_pos {n : Nat} {edges : List (Nat × Nat)} (he : ∀ e ∈ edges, e.1 < n ∧ e.2 < n) (k : Nat) : 0 < covers n edges k ↔ Colorable n edges k := by
  classical
  unfold covers
  rw [card_pos]
  constructor
  · rintro ⟨f, hf⟩
    rw [mem_filter, Fintype.mem_piFinset] at hf
    obtain ⟨h1, h2⟩ := hf
    by_cases hn : n = 0
    · subst hn
      refine ⟨fun _ => 0, by omega, ?_⟩
      intro e h
      have := (he e h).1
      omega
    · obtain ⟨j0, -⟩ := h2 0 (by omega)
      haveI : Nonempty (Fin k) := ⟨j0⟩
      choose! c hc using h2
      refine ⟨fun v => (c v).val, fun v _ => (c v).isLt, ?_⟩
      intro e h hne heq
      have := (mem_indeps.mp (h1 (c e.1))).2 e h hne
      apply this
      refine ⟨hc _ (he e h).1, ?_⟩
      rw [Fin.ext heq]
      exact hc _ (he e h).2
  · rintro ⟨c, h1, h2⟩
    choose f hf hf' using fun j : Fin k => exists_mask n fun v => c v = j
    refine ⟨f, ?_⟩
    rw [mem_filter, Fintype.mem_piFinset]
    refine ⟨fun j => mem_indeps.mpr ⟨hf j, ?_⟩, ?_⟩
    · rintro e h hne ⟨a, b⟩
      rw [hf' j _ (he e h).1] at a
      rw [hf' j _ (he e h).2] at b
      exact h2 e h hne (a.trans b.symm)
    · intro v hv
      exact ⟨⟨c v, h1 v hv⟩, (hf' _ v hv).mpr rfl⟩

/-- Every vertex lies in at least one of the sets, which bounds the number of covers. -/
theorem covers_le (n : Nat) (edges : List (Nat × Nat)) (k : Nat) : covers n edges k ≤ (2 ^ k - 1) ^ n := by
  classical
  have : (2 ^ k - 1) ^ n = (Fintype.piFinset fun _ : Fin n => (univ : Finset (Finset (Fin k))).erase ∅).card := by
    rw [Fintype.card_piFinset, prod_const, card_erase_of_mem (mem_univ _), card_univ, card_univ, Fintype.card_finset, Fintype.card_fin, Fintype.card_fin]
  rw [this]
  unfold covers
  refine card_le_card_of_injOn (fun f v => univ.filter fun j => (f j).testBit v = true) ?_ ?_
  · intro f hf
    rw [mem_coe, mem_filter] at hf
    rw [mem_coe, Fintype.mem_piFinset]
    intro v
    rw [mem_erase]
    refine ⟨?_, mem_univ _⟩
    obtain ⟨j, hj⟩ := hf.2 v v.isLt
    intro e
    have : j ∈ (∅ : Finset (Fin k)) := by rw [← e]; simp [hj]
    simp at this
  · intro f hf g hg h
    rw [mem_coe, mem_filter, Fintype.mem_piFinset] at hf hg
    funext j
    refine Nat.eq_of_testBit_eq fun i => ?_
    by_cases hi : i < n
    · have h1 := congrFun h ⟨i, hi⟩
      dsimp only at h1
      have h2 : j ∈ univ.filter (fun j => (f j).testBit i = true) ↔ j ∈ univ.filter (fun j => (g j).testBit i = true) := by rw [h1]
      simp only [mem_filter, mem_univ, true_and] at h2
      exact Bool.eq_iff_iff.mpr h2
    · rw [Nat.testBit_lt_two_pow (lt_of_lt_of_le (mem_indeps.mp (hf.1 j)).1 (Nat.pow_le_pow_right (by omega) (by omega))),
        Nat.testBit_lt_two_pow (lt_of_lt_of_le (mem_indeps.mp (hg.1 j)).1 (Nat.pow_le_pow_right (by omega) (by omega)))]

theorem colorable_n (n : Nat) {edges : List (Nat × Nat)} : Colorable n edges n :=
  ⟨fun v => v, fun _ h => h, fun _ _ h => h⟩

/-- The recurrence for the number of independent sets. -/
theorem cnt_rec {n : Nat} {edges : List (Nat × Nat)} (he : ∀ e ∈ edges, e.1 < n ∧ e.2 < n) {s v g : Nat} (hs : s < 2 ^ n) (hv : s.testBit v = true)
    (hg : ∀ u, g.testBit u = true ↔ ((v, u) ∈ edges ∨ (u, v) ∈ edges)) :
    cnt n edges s = cnt n edges (s ^^^ 2 ^ v) + cnt n edges ((s ^^^ 2 ^ v) ^^^ ((s ^^^ 2 ^ v) &&& g)) := by
  classical
  have hvn := bit_lt hs hv
  have hx : ∀ i, ((s ^^^ 2 ^ v) ^^^ ((s ^^^ 2 ^ v) &&& g)).testBit i = ((s.testBit i && decide (v ≠ i)) && !g.testBit i) := by
    intro i
    rw [Nat.testBit_xor, Nat.testBit_and, bit_xor]
    by_cases e : v = i
    · subst e; simp [hv]
    · simp only [e, decide_false, Bool.xor_false, ne_eq, not_false_eq_true, decide_true, Bool.and_true]
      cases s.testBit i <;> cases g.testBit i <;> rfl
  unfold cnt
  rw [← card_filter_add_card_filter_not (s := (indeps n edges).filter fun T => Sub T s) (fun T => T.testBit v = false)]
  congr 1
  · congr 1
    ext T
    simp only [mem_filter]
    constructor
    · rintro ⟨⟨h1, h2⟩, h3⟩
      refine ⟨h1, fun i hi => ?_⟩
      rw [bit_xor, h2 i hi]
      by_cases e : v = i
      · subst e; rw [h3] at hi; cases hi
      · simp [e]
    · rintro ⟨h1, h2⟩
      refine ⟨⟨h1, fun i hi => ?_⟩, ?_⟩
      · have := h2 i hi
        rw [bit_xor] at this
        by_cases e : v = i
        · subst e; exact hv
        · simpa [e] using this
      · rw [Bool.eq_false_iff]
        intro c
        have := h2 v c
        rw [bit_xor, hv] at this
        simp at this
  · refine card_nbij' (fun T => T ^^^ 2 ^ v) (fun T => T ^^^ 2 ^ v) ?_ ?_ ?_ ?_
    · intro T hT
      simp only [coe_filter, Set.mem_setOf_eq, mem_filter, mem_indeps] at hT ⊢
      obtain ⟨⟨⟨h1, h2⟩, h3⟩, h4⟩ := hT
      rw [Bool.not_eq_false] at h4
      refine ⟨⟨xor_lt h1 hvn, ?_⟩, ?_⟩
      · rintro e h hne ⟨a, b⟩
        refine h2 e h hne ?_
        rw [bit_xor] at a b
        constructor
        · by_cases q : v = e.1
          · rw [← q]; exact h4
          · simpa [q] using a
        · by_cases q : v = e.2
          · rw [← q]; exact h4
          · simpa [q] using b
      · intro i hi
        rw [bit_xor] at hi
        rw [hx]
        by_cases q : v = i
        · subst q
          rw [h4] at hi
          simp at hi
        · have hi' : T.testBit i = true := by simpa [q] using hi
          have hng : g.testBit i = false := by
            rw [Bool.eq_false_iff]
            intro c
            rcases (hg i).mp c with c | c
            · exact h2 _ c q ⟨h4, hi'⟩
            · exact h2 _ c (Ne.symm q) ⟨hi', h4⟩
          simp [h3 i hi', q, hng]
    · intro T hT
      simp only [coe_filter, Set.mem_setOf_eq, mem_filter, mem_indeps] at hT ⊢
      obtain ⟨⟨h1, h2⟩, h3⟩ := hT
      have h4 : T.testBit v = false := by
        rw [Bool.eq_false_iff]
        intro c
        have := h3 v c
        rw [hx] at this
        simp at this
      have h5 : ∀ i, T.testBit i = true → s.testBit i = true ∧ g.testBit i = false := by
        intro i hi
        have := h3 i hi
        rw [hx] at this
        simp only [Bool.and_eq_true, Bool.not_eq_true'] at this
        exact ⟨this.1.1, this.2⟩
      have h6 : ∀ i, (T ^^^ 2 ^ v).testBit i = true ↔ (i = v ∨ T.testBit i = true) := by
        intro i
        rw [bit_xor]
        by_cases q : v = i
        · subst q; simp [h4]
        · simp [q, Ne.symm q]
      refine ⟨⟨⟨xor_lt h1 hvn, ?_⟩, ?_⟩, ?_⟩
      · rintro e h hne ⟨a, b⟩
        rcases (h6 _).mp a with a | a <;> rcases (h6 _).mp b with b | b
        · exact hne (a.trans b.symm)
        · have h7 := (hg e.2).mpr (.inl (by rw [← a]; exact h))
          rw [(h5 _ b).2] at h7
          cases h7
        · have h7 := (hg e.1).mpr (.inr (by rw [← b]; exact h))
          rw [(h5 _ a).2] at h7
          cases h7
        · exact h2 e h hne ⟨a, b⟩
      · intro i hi
        rcases (h6 i).mp hi with rfl | hi
        · exact hv
        · exact (h5 i hi).1
      · rw [Bool.not_eq_false]
        exact (h6 v).mpr (.inl rfl)
    · intro T _
      exact xor_xor T v
    · intro T _
      exact xor_xor T v

theorem cnt_zero (n : Nat) (edges : List (Nat × Nat)) : cnt n edges 0 = 1 := by
  classical
  unfold cnt
  rw [card_eq_one]
  refine ⟨0, ?_⟩
  ext T
  simp only [mem_filter, mem_indeps, mem_singleton]
  constructor
  · rintro ⟨-, h⟩
    refine Nat.eq_of_testBit_eq fun i => ?_
    rw [Nat.zero_testBit, Bool.eq_false_iff]
    intro c
    have := h i c
    rw [Nat.zero_testBit] at this
    cases this
  · rintro rfl
    refine ⟨⟨Nat.two_pow_pos n, ?_⟩, fun i h => h⟩
    rintro e - - ⟨h, -⟩
    rw [Nat.zero_testBit] at h
    cases h

theorem cnt_le (n : Nat) (edges : List (Nat × Nat)) (s : Nat) : cnt n edges s ≤ 2 ^ n := by
  classical
  unfold cnt indeps
  refine (card_filter_le _ _).trans ((card_filter_le _ _).trans ?_)
  simp

end Coloring
