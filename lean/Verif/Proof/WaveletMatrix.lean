import Verif.Model.WaveletMatrix
import Verif.Proof.BitVector

/-! # Proofs for `WaveletMatrix` -/

namespace WaveletMatrix
open Cxx BitVector

/-- The positions `l ≤ i < r`. -/
def seg (S : List Nat) (l r : Nat) : List Nat := (S.drop l).take (r - l)

/-- Stable partition by bit `j`. -/
def part (j : Nat) (S : List Nat) : List Nat := S.filter (fun x => bit x j == false) ++ S.filter (fun x => bit x j == true)

/-- The order after `d` rounds. -/
def down (w : Nat) (a : List Nat) : Nat → List Nat
  | 0 => a
  | d + 1 => part (w - (d + 1)) (down w a d)

/-- The order before bit `j - 1` is treated. -/
def lev (w : Nat) (a : List Nat) (j : Nat) : List Nat := down w a (w - j)

theorem lev_top (w : Nat) (a : List Nat) : lev w a w = a := by rw [lev, Nat.sub_self]; rfl

theorem lev_step {w j : Nat} (a : List Nat) (h : j < w) : lev w a j = part j (lev w a (j + 1)) := by
  rw [lev, lev, show w - j = (w - (j + 1)) + 1 by omega, down]
  congr 1
  omega

theorem filter_len (j : Nat) (S : List Nat) : (S.filter (fun x => bit x j == false)).length + (S.filter (fun x => bit x j == true)).length = S.length := by
  induction S with
  | nil => rfl
  | cons x S ih =>
    cases h : bit x j <;> simp [List.filter_cons, h] <;> simp at ih <;> omega

theorem part_length (j : Nat) (S : List Nat) : (part j S).length = S.length := by rw [part, List.length_append, filter_len]

theorem down_length (w : Nat) (a : List Nat) (d : Nat) : (down w a d).length = a.length := by
  induction d with
  | zero => rfl
  | succ d ih => rw [down, part_length, ih]

theorem lev_length (w : Nat) (a : List Nat) (j : Nat) : (lev w a j).length = a.length := down_length _ _ _

theorem seg_length {S : List Nat} {l r : Nat} (hr : r ≤ S.length) : (seg S l r).length = r - l := by
  rw [seg, List.length_take, List.length_drop]
  omega

theorem seg_filter (p : Nat → Bool) (S : List Nat) {l r : Nat} (hlr : l ≤ r) :
    seg (S.filter p) ((S.take l).filter p).length ((S.take r).filter p).length = (seg S l r).filter p := by
  have e1 : S.filter p = (S.take l).filter p ++ (S.drop l).filter p := by rw [← List.filter_append, List.take_append_drop]
  have e2 : (S.take r).filter p = (S.take l).filter p ++ (seg S l r).filter p := by
    rw [← List.filter_append, seg]
    congr 1
    rw [← List.take_add]
    congr 1
    omega
  have e3 : S.drop l = seg S l r ++ (S.drop l).drop (r - l) := (List.take_append_drop _ _).symm
  rw [seg, e1, List.drop_left, e2, List.length_append, Nat.add_sub_cancel_left]
  rw [e3, List.filter_append, List.take_left]

theorem seg_append_left (X Y : List Nat) {l r : Nat} (h : r ≤ X.length) (hlr : l ≤ r) : seg (X ++ Y) l r = seg X l r := by
  rw [seg, seg, List.drop_append_of_le_length (by omega), List.take_append_of_le_length (by rw [List.length_drop]; omega)]

theorem seg_append_right (X Y : List Nat) (l r : Nat) : seg (X ++ Y) (X.length + l) (X.length + r) = seg Y l r := by
  rw [seg, seg, List.drop_length_add_append]
  congr 1
  omega

/-- Where position `i` goes under `b`. -/
def dest (j : Nat) (S : List Nat) (b : Bool) (i : Nat) : Nat :=
  b.toNat * (S.filter (fun x => bit x j == false)).length + ((S.take i).filter (fun x => bit x j == b)).length

theorem seg_part (j : Nat) (S : List Nat) (b : Bool) {l r : Nat} (hlr : l ≤ r) :
    seg (part j S) (dest j S b l) (dest j S b r) = (seg S l r).filter (fun x => bit x j == b) := by
  have hle : ((S.take l).filter (fun x => bit x j == b)).length ≤ ((S.take r).filter (fun x => bit x j == b)).length := by
    refine (List.Sublist.filter _ ?_).length_le
    exact (List.take_prefix_take_left hlr).sublist
  have hle2 : ((S.take r).filter (fun x => bit x j == b)).length ≤ (S.filter (fun x => bit x j == b)).length :=
    (List.Sublist.filter _ (List.take_sublist _ _)).length_le
  rw [← seg_filter _ S hlr]
  cases b
  · simp only [dest, Bool.toNat_false, Nat.zero_mul, Nat.zero_add]
    rw [part, seg_append_left _ _ hle2 hle]
  · simp only [dest, Bool.toNat_true, Nat.one_mul]
    rw [part, seg_append_right]

theorem dest_mono (j : Nat) (S : List Nat) (b : Bool) {l r : Nat} (hlr : l ≤ r) : dest j S b l ≤ dest j S b r := by
  have hle : ((S.take l).filter (fun x => bit x j == b)).length ≤ ((S.take r).filter (fun x => bit x j == b)).length := by
    refine (List.Sublist.filter _ ?_).length_le
    exact (List.take_prefix_take_left hlr).sublist
  rw [dest, dest]
  omega

theorem dest_le (j : Nat) (S : List Nat) (b : Bool) (r : Nat) : dest j S b r ≤ S.length := by
  have hle2 : ((S.take r).filter (fun x => bit x j == b)).length ≤ (S.filter (fun x => bit x j == b)).length :=
    (List.Sublist.filter _ (List.take_sublist _ _)).length_le
  have := filter_len j S
  cases b
  · simp only [dest, Bool.toNat_false, Nat.zero_mul, Nat.zero_add]
    omega
  · simp only [dest, Bool.toNat_true, Nat.one_mul]
    omega

/-! ## Building -/

/-- The bits of level `j`. -/
def bitsOf (S : List Nat) (j i : Nat) : Bool := bit (S.getD i 0) j

theorem range_map_getD (S : List Nat) {i : Nat} (h : i ≤ S.length) : (List.range i).map (fun k => S.getD k 0) = S.take i := by
  apply List.ext_getElem
  · simp; omega
  · intro k h1 h2
    simp at h1
    simp [List.getD_eq_getElem?_getD, show k < S.length by omega]

theorem cnt_bits (S : List Nat) (j : Nat) (b : Bool) {i : Nat} (h : i ≤ S.length) :
    cnt (bitsOf S j) b i = ((S.take i).filter (fun x => bit x j == b)).length := by
  have : (List.range i).map (bitsOf S j) = (S.take i).map (fun x => bit x j) := by
    rw [← range_map_getD S h, List.map_map]
    rfl
  rw [cnt, this, List.count, List.countP_map, List.countP_eq_length_filter]
  rfl

/-- The finished object for the values `a`. -/
structure WBuilt (w : Nat) (a : List Nat) (s : WM) : Prop where
  hn : s.n = a.length
  sb : s.bv.size = w
  sm : s.mid.size = w
  bv : ∀ j, j < w → BitVector.Built (bitsOf (lev w a (j + 1)) j) a.length (at' (BV.empty 0) s.bv j)
  mid : ∀ j, j < w → at' 0 s.mid j = ((lev w a (j + 1)).filter (fun x => bit x j == false)).length

theorem take_set {l : Array Nat} {k : Nat} (h : k < l.size) (x : Nat) : (l.setIfInBounds k x).toList.take (k + 1) = l.toList.take k ++ [x] := by
  rw [Array.toList_setIfInBounds, List.take_succ_eq_append_getElem (by simpa using h)]
  rw [List.take_set_of_le (by omega)]
  simp

theorem part_tot {a l r : Array Nat} {n : Nat} (ha : a.size = n) (hl : l.size = n) (hr : r.size = n) (log : Nat) :
    Tot (forUp 0 n ((l, 0), (r, 0)) (partStep a log)) fun p => p.1.1.size = n ∧ p.2.1.size = n ∧
      p.1.1.toList.take p.1.2 = a.toList.filter (fun x => bit x log == false) ∧ p.2.1.toList.take p.2.2 = a.toList.filter (fun x => bit x log == true) ∧
      p.1.2 = (a.toList.filter (fun x => bit x log == false)).length ∧ p.2.2 = (a.toList.filter (fun x => bit x log == true)).length := by
  have hlen : a.toList.length = n := by simpa using ha
  have key : Tot (forUp 0 n ((l, 0), (r, 0)) (partStep a log)) fun p => p.1.1.size = n ∧ p.2.1.size = n ∧
      p.1.1.toList.take p.1.2 = (a.toList.take n).filter (fun x => bit x log == false) ∧ p.2.1.toList.take p.2.2 = (a.toList.take n).filter (fun x => bit x log == true) ∧
      p.1.2 = ((a.toList.take n).filter (fun x => bit x log == false)).length ∧ p.2.2 = ((a.toList.take n).filter (fun x => bit x log == true)).length := by
    refine Tot.forUp (P := fun i (p : (Array Nat × Nat) × (Array Nat × Nat)) => p.1.1.size = n ∧ p.2.1.size = n ∧
      p.1.1.toList.take p.1.2 = (a.toList.take i).filter (fun x => bit x log == false) ∧ p.2.1.toList.take p.2.2 = (a.toList.take i).filter (fun x => bit x log == true) ∧
      p.1.2 = ((a.toList.take i).filter (fun x => bit x log == false)).length ∧ p.2.2 = ((a.toList.take i).filter (fun x => bit x log == true)).length) (Nat.zero_le n) ?_ ?_
    · exact ⟨hl, hr, rfl, rfl, rfl, rfl⟩
    · rintro i ⟨⟨l, li⟩, r, ri⟩ - hi ⟨h1, h2, h3, h4, h5, h6⟩
      dsimp only at h1 h2 h3 h4 h5 h6
      have hx : a.toList.take (i + 1) = a.toList.take i ++ [at' 0 a i] := by
        rw [List.take_succ_eq_append_getElem (by omega)]
        congr 2
        rw [at', Array.getElem?_eq_getElem (by omega)]
        rfl
      have hfl := filter_len log (a.toList.take i)
      rw [List.length_take] at hfl
      rw [partStep, rd_at 0 (by omega), ok_bind, hx]
      generalize at' 0 a i = x
      cases hb : bit x log
      · rw [if_neg (by decide), wr_eq (by dsimp only; omega), ok_bind]
        refine Tot.pure ⟨by rw [Array.size_setIfInBounds]; exact h1, h2, ?_, ?_, ?_, ?_⟩
        · dsimp only
          rw [take_set (by omega), h3, List.filter_append]
          simp [hb]
        · dsimp only
          rw [h4, List.filter_append]
          simp [hb]
        · dsimp only
          rw [h5, List.filter_append, List.length_append]
          simp [hb]
        · dsimp only
          rw [h6, List.filter_append, List.length_append]
          simp [hb]
      · rw [if_pos rfl, wr_eq (by dsimp only; omega), ok_bind]
        refine Tot.pure ⟨h1, by rw [Array.size_setIfInBounds]; exact h2, ?_, ?_, ?_, ?_⟩
        · dsimp only
          rw [h3, List.filter_append]
          simp [hb]
        · dsimp only
          rw [take_set (by omega), h4, List.filter_append]
          simp [hb]
        · dsimp only
          rw [h5, List.filter_append, List.length_append]
          simp [hb]
        · dsimp only
          rw [h6, List.filter_append, List.length_append]
          simp [hb]
  have ht : a.toList.take n = a.toList := List.take_of_length_le (by omega)
  rwa [ht] at key

theorem copy_tot {a r : Array Nat} {li ri n : Nat} (ha : a.size = n) (hr : r.size = n) (h : li + ri = n) :
    Tot (copyInto a r li ri) fun a' => a'.size = n ∧ a'.toList = a.toList.take li ++ r.toList.take ri := by
  rw [copyInto]
  refine (Tot.forUp (P := fun t (a' : Array Nat) => a'.size = n ∧ a'.toList.take (li + t) = a.toList.take li ++ r.toList.take t) (Nat.zero_le ri) ⟨ha, by simp⟩ ?_).mono ?_
  · rintro t a' - ht ⟨h1, h2⟩
    rw [rd_at 0 (by omega), ok_bind, wr_eq (by omega)]
    refine Tot.pure ⟨by rw [Array.size_setIfInBounds]; exact h1, ?_⟩
    rw [← Nat.add_assoc, take_set (by omega), h2, List.append_assoc]
    congr 1
    rw [List.take_succ_eq_append_getElem (by simp; omega)]
    congr 2
    rw [at', Array.getElem?_eq_getElem (by omega)]
    rfl
  · rintro a' ⟨h1, h2⟩
    refine ⟨h1, ?_⟩
    rw [← h2, List.take_of_length_le]
    simp
    omega

theorem make_tot (w n : Nat) (gen : Nat → Nat) : Tot (make w n gen) (WBuilt w ((List.range n).map gen)) := by
  obtain ⟨L, hL⟩ : ∃ L, L = (List.range n).map gen := ⟨_, rfl⟩
  have hlen : L.length = n := by rw [hL]; simp
  rw [← hL, make]
  refine Tot.bind (P := fun (a : Array Nat) => a.toList = L) ?_ ?_
  · refine (Tot.forUp (P := fun i (a : Array Nat) => a.size = n ∧ a.toList.take i = (List.range i).map gen) (Nat.zero_le n) ⟨Array.size_replicate, rfl⟩ ?_).mono ?_
    · rintro i a - hi ⟨h1, h2⟩
      rw [wr_eq (by omega)]
      refine Tot.pure ⟨by rw [Array.size_setIfInBounds]; exact h1, ?_⟩
      rw [take_set (by omega), h2, List.range_succ, List.map_append]
      rfl
    · rintro a ⟨h1, h2⟩
      rw [hL, ← h2, List.take_of_length_le]
      simp
      omega
  · intro a ha
    refine Tot.bind (P := fun (s : B) => WBuilt w L s.wm) ?_ (fun s hs => Tot.pure hs)
    refine (Tot.forDown (P := fun j (s : B) => s.a.toList = lev w L j ∧ s.l.size = n ∧ s.r.size = n ∧ s.wm.n = n ∧ s.wm.bv.size = w ∧ s.wm.mid.size = w ∧
      (∀ i, j ≤ i → i < w → BitVector.Built (bitsOf (lev w L (i + 1)) i) n (at' (BV.empty 0) s.wm.bv i)) ∧
      (∀ i, j ≤ i → i < w → at' 0 s.wm.mid i = ((lev w L (i + 1)).filter (fun x => bit x i == false)).length)) (Nat.zero_le w) ?_ ?_).mono ?_
    · exact ⟨by rw [lev_top]; exact ha, Array.size_replicate, Array.size_replicate, rfl, Array.size_replicate, Array.size_replicate, fun i h1 h2 => by omega, fun i h1 h2 => by omega⟩
    · rintro j s - hj ⟨h1, h2, h3, h4, h5, h6, h7, h8⟩
      have hlj : (lev w L (j + 1)).length = n := by rw [lev_length, hlen]
      have hsa : s.a.size = n := by rw [← Array.length_toList, h1, hlj]
      rw [buildStep, h4]
      refine Tot.bind (BitVector.make_tot (g := bitsOf (lev w L (j + 1)) j) (fun i hi => ?_)) ?_
      · rw [bitAt, rd_at 0 (by omega), ok_bind, pure_eq, bitsOf, ← h1]
        congr 2
        rw [at', List.getD_eq_getElem?_getD, Array.getElem?_toList]
      · intro v hv
        rw [wr_eq (by omega), ok_bind]
        refine Tot.bind (part_tot hsa h2 h3 j) ?_
        rintro ⟨⟨l, li⟩, r, ri⟩ ⟨p1, p2, p3, p4, p5, p6⟩
        dsimp only at p1 p2 p3 p4 p5 p6
        have hfl := filter_len j s.a.toList
        rw [← p5, ← p6, Array.length_toList, hsa] at hfl
        refine Tot.bind (copy_tot p1 p2 hfl) ?_
        rintro a' ⟨q1, q2⟩
        dsimp only
        rw [wr_eq (by omega), ok_bind]
        refine Tot.pure ⟨?_, hsa, p2, rfl, by dsimp only; rw [Array.size_setIfInBounds]; exact h5, by dsimp only; rw [Array.size_setIfInBounds]; exact h6, ?_, ?_⟩
        · rw [q2, p3, p4, lev_step L hj, ← h1]
          rfl
        · intro i hi1 hi2
          dsimp only
          rw [Graph.at_set' _ (by omega)]
          by_cases hij : i = j
          · subst hij
            rw [if_pos rfl]
            exact hv
          · rw [if_neg hij]
            exact h7 i (by omega) hi2
        · intro i hi1 hi2
          dsimp only
          rw [Graph.at_set' _ (by omega)]
          by_cases hij : i = j
          · subst hij
            rw [if_pos rfl, p5, h1]
          · rw [if_neg hij]
            exact h8 i (by omega) hi2
    · rintro s ⟨-, -, -, h4, h5, h6, h7, h8⟩
      exact ⟨by rw [h4, hlen], h5, h6, fun j hj => by rw [hlen]; exact h7 j (Nat.zero_le j) hj, fun j hj => h8 j (Nat.zero_le j) hj⟩

/-! ## Moving down -/

section
variable {w : Nat} {a : List Nat} {s : WM} (h : WBuilt w a s)
include h

theorem next_eq {j : Nat} (hj : j < w) (b : Bool) {i : Nat} (hi : i ≤ a.length) : next s j b i = .ok (dest j (lev w a (j + 1)) b i) := by
  have hb := h.bv j hj
  have hsb := h.sb
  have hsm := h.sm
  rw [next, rd_at 0 (by omega), ok_bind, rd_at (BV.empty 0) (by omega), ok_bind, rank_cnt hb hi, ok_bind, cnt_bits _ _ _ (by rw [lev_length]; exact hi), idx, if_neg (by have := Int.mul_nonneg (Int.natCast_nonneg b.toNat) (Int.natCast_nonneg (at' 0 s.mid j)); omega), h.mid j hj, dest]
  rfl

theorem succ_eq {j : Nat} (hj : j < w) (b : Bool) {l r : Nat} (hlr : l ≤ r) (hr : r ≤ a.length) :
    ∃ l' r', succ s b j (l, r) = .ok (l', r') ∧ l' ≤ r' ∧ r' ≤ a.length ∧ seg (lev w a j) l' r' = (seg (lev w a (j + 1)) l r).filter (fun x => bit x j == b) := by
  refine ⟨_, _, ?_, dest_mono j (lev w a (j + 1)) b hlr, ?_, ?_⟩
  · rw [succ, next_eq h hj b (by omega), ok_bind, next_eq h hj b hr, ok_bind]
    rfl
  · have := dest_le j (lev w a (j + 1)) b r
    rwa [lev_length] at this
  · rw [lev_step a hj, seg_part _ _ _ hlr]

theorem rankRange_seg {j : Nat} (hj : j < w) (b : Bool) {l r : Nat} (hlr : l ≤ r) (hr : r ≤ a.length) :
    rankRange (at' (BV.empty 0) s.bv j) b l r = .ok (((seg (lev w a (j + 1)) l r).filter (fun x => bit x j == b)).length : Int) := by
  rw [rankRange_cnt (h.bv j hj) (by omega) hr, cnt_bits _ _ _ (by rw [lev_length]; omega), cnt_bits _ _ _ (by rw [lev_length]; omega)]
  congr 1
  have e2 : ((lev w a (j + 1)).take r).filter (fun x => bit x j == b) = ((lev w a (j + 1)).take l).filter (fun x => bit x j == b) ++ (seg (lev w a (j + 1)) l r).filter (fun x => bit x j == b) := by
    rw [← List.filter_append, seg]
    congr 1
    rw [← List.take_add]
    congr 1
    omega
  rw [e2, List.length_append]
  omega

end

/-! ## Bits -/

theorem shift_step (y j : Nat) : y >>> j = 2 * (y >>> (j + 1)) + (bit y j).toNat := by
  rw [bit, Nat.shiftRight_succ]
  generalize y >>> j = t
  rcases Nat.mod_two_eq_zero_or_one t with h | h <;> simp [h] <;> omega

theorem shift_eq_iff (y j Y : Nat) (s : Bool) : y >>> j = 2 * Y + s.toNat ↔ y >>> (j + 1) = Y ∧ bit y j = s := by
  rw [shift_step y j]
  cases bit y j <;> cases s <;> simp <;> omega

theorem shift_lt_iff (y j Y : Nat) (s : Bool) : y >>> j < 2 * Y + s.toNat ↔ y >>> (j + 1) < Y ∨ (s = true ∧ y >>> (j + 1) = Y ∧ bit y j = false) := by
  rw [shift_step y j]
  cases bit y j <;> cases s <;> simp <;> omega

theorem bit_xor (v x j : Nat) : bit (v ^^^ x) j = (bit v j ^^ bit x j) := by
  have e : ∀ y, bit y j = y.testBit j := by
    intro y
    rw [bit, Nat.testBit_eq_decide_div_mod_eq, Nat.shiftRight_eq_div_pow]
    rfl
  rw [e, e, e, Nat.testBit_xor]

theorem or_shift (R j : Nat) (b : Bool) : (R <<< (j + 1)) ||| (b.toNat <<< j) = (2 * R + b.toNat) <<< j := by
  rw [Nat.shiftLeft_succ_inside]
  rw [show (2 * R) <<< j ||| b.toNat <<< j = (2 * R ||| b.toNat) <<< j from (Nat.shiftLeft_or_distrib).symm]
  congr 1
  cases b
  · simp
  · rw [Bool.toNat_true]
    apply Nat.eq_of_testBit_eq
    intro i
    rw [Nat.testBit_or]
    cases i with
    | zero => simp [Nat.testBit_zero]
    | succ i => simp [Nat.testBit_succ]; congr 1; omega

theorem shift_top {x w : Nat} (h : x < 2 ^ w) : x >>> w = 0 := by
  rw [Nat.shiftRight_eq_div_pow]
  exact Nat.div_eq_of_lt h

/-- Counting below a prefix, one bit further. -/
theorem count_step (L : List Nat) (f : Nat → Nat) (j Y : Nat) (s : Bool) :
    L.countP (fun v => decide (f v >>> j < 2 * Y + s.toNat)) = L.countP (fun v => decide (f v >>> (j + 1) < Y)) +
      s.toNat * ((L.filter fun v => decide (f v >>> (j + 1) = Y)).filter fun v => bit (f v) j == false).length := by
  induction L with
  | nil => simp
  | cons v L ih =>
    rw [List.countP_cons, List.countP_cons, ih, List.filter_cons]
    have := shift_lt_iff (f v) j Y s
    by_cases h1 : f v >>> (j + 1) < Y
    · rw [if_pos (by simpa using this.2 (Or.inl h1)), if_pos (by simpa using h1), if_neg (by simp; omega)]
      omega
    · rw [if_neg (show ¬ decide (f v >>> (j + 1) < Y) = true by simpa using h1)]
      by_cases h2 : f v >>> (j + 1) = Y
      · rw [if_pos (show decide (f v >>> (j + 1) = Y) = true by simpa using h2), List.filter_cons]
        cases s
        · rw [if_neg (by rw [decide_eq_true_eq, this]; simp; omega)]
          simp
        · cases hb : bit (f v) j
          · rw [if_pos (by rw [decide_eq_true_eq, this]; exact Or.inr ⟨rfl, h2, hb⟩), if_pos (by decide)]
            simp
            omega
          · rw [if_neg (by rw [decide_eq_true_eq, this]; simp [hb]; omega), if_neg (by decide)]
            simp
      · rw [if_neg (by rw [decide_eq_true_eq, this]; simp; omega), if_neg (by simpa using h2)]
        omega

theorem filter_step (L : List Nat) (f : Nat → Nat) (j Y : Nat) (s : Bool) :
    (L.filter fun v => decide (f v >>> (j + 1) = Y)).filter (fun v => bit (f v) j == s) = L.filter fun v => decide (f v >>> j = 2 * Y + s.toNat) := by
  rw [List.filter_filter]
  congr 1
  funext v
  rw [Bool.eq_iff_iff, Bool.and_eq_true, beq_iff_eq, decide_eq_true_eq, decide_eq_true_eq, shift_eq_iff]
  exact And.comm

/-! ## Queries -/

section
variable {w : Nat} {a : List Nat} {s : WM} (h : WBuilt w a s)
include h

theorem get_tot {i : Nat} (hi : i < a.length) (hx : a[i] < 2 ^ w) : get s w i = .ok a[i] := by
  obtain ⟨x, hxe⟩ : ∃ x, x = a[i] := ⟨_, rfl⟩
  rw [← hxe] at hx ⊢
  rw [← tot_eq, get]
  refine Tot.bind (P := fun (c : Nat × Nat) => c.2 = (x >>> 0) <<< 0) ?_ (fun c hc => Tot.pure (by rw [hc]; simp))
  refine (Tot.forDown (P := fun j (c : Nat × Nat) => seg (lev w a j) c.1 (c.1 + 1) = [x] ∧ c.1 + 1 ≤ a.length ∧ c.2 = (x >>> j) <<< j) (Nat.zero_le w) ?_ ?_).mono (fun c hc => hc.2.2)
  · refine ⟨?_, by omega, by rw [shift_top hx]; simp⟩
    rw [lev_top, seg]
    dsimp only
    rw [show i + 1 - i = 1 by omega, List.drop_eq_getElem_cons hi, ← hxe]
    rfl
  · rintro j ⟨k, res⟩ - hj ⟨h1, h2, h3⟩
    dsimp only at h1 h2 h3
    have hb := h.bv j hj
    have hsb := h.sb
    rw [getStep, rd_at (BV.empty 0) (by omega), ok_bind, get_eq hb (by omega), ok_bind]
    have hkx : bitsOf (lev w a (j + 1)) j k = bit x j := by
      rw [bitsOf, List.getD_eq_getElem?_getD]
      have : (lev w a (j + 1))[k]? = some x := by
        have : (seg (lev w a (j + 1)) k (k + 1))[0]? = some x := by rw [h1]; rfl
        rw [seg, List.getElem?_take, if_pos (by omega), List.getElem?_drop] at this
        exact this
      rw [this]
      rfl
    rw [hkx, next_eq h hj _ (by dsimp only; omega), ok_bind]
    refine Tot.pure ?_
    have h4 := seg_part j (lev w a (j + 1)) (bit x j) (Nat.le_succ k)
    rw [h1, List.filter_cons, if_pos (by simp), List.filter_nil, ← lev_step a hj] at h4
    have h5 := dest_le j (lev w a (j + 1)) (bit x j) (k + 1)
    rw [lev_length] at h5
    have h6 : dest j (lev w a (j + 1)) (bit x j) (k + 1) = dest j (lev w a (j + 1)) (bit x j) k + 1 := by
      have h7 := seg_length (S := lev w a j) (l := dest j (lev w a (j + 1)) (bit x j) k) (r := dest j (lev w a (j + 1)) (bit x j) (k + 1)) (by rw [lev_length]; exact h5)
      rw [h4] at h7
      have := dest_mono j (lev w a (j + 1)) (bit x j) (Nat.le_succ k)
      simp at h7
      omega
    rw [h6] at h4 h5
    refine ⟨h4, h5, ?_⟩
    dsimp only
    rw [h3, or_shift, ← shift_step]

theorem rankVal_tot {D val i : Nat} (hD : w < max D 32) (hv : val < 2 ^ w) (hi : i ≤ a.length) (ha : ∀ v ∈ a, v < 2 ^ w) : rankVal D w s val i = .ok ((a.take i).count val : Int) := by
  rw [← tot_eq, rankVal, checkValue, if_neg (by omega), shift_top hv, show ((0 : Nat) == 0) = true from rfl, check_true, ok_bind]
  refine Tot.bind (P := fun (c : Nat × Nat) => (c.2 : Int) - c.1 = ((a.take i).count val : Int)) ?_ (fun c hc => Tot.pure hc)
  refine (Tot.forDown (P := fun j (c : Nat × Nat) => c.1 ≤ c.2 ∧ c.2 ≤ a.length ∧ seg (lev w a j) c.1 c.2 = (a.take i).filter fun v => decide (v >>> j = val >>> j)) (Nat.zero_le w) ?_ ?_).mono ?_
  · refine ⟨Nat.zero_le _, hi, ?_⟩
    rw [lev_top, seg, List.drop_zero, shift_top hv]
    dsimp only
    rw [Nat.sub_zero]
    symm
    rw [List.filter_eq_self]
    intro v hv
    rw [decide_eq_true_eq]
    exact shift_top (ha v (List.mem_of_mem_take hv))
  · rintro j ⟨l, r⟩ - hj ⟨h1, h2, h3⟩
    dsimp only at h1 h2 h3
    obtain ⟨l', r', e, e1, e2, e3⟩ := succ_eq h hj (bit val j) h1 h2
    rw [e]
    refine Tot.pure ⟨e1, e2, ?_⟩
    dsimp only
    rw [e3, h3]
    have := filter_step (a.take i) id j (val >>> (j + 1)) (bit val j)
    rw [← shift_step] at this
    exact this
  · rintro ⟨l, r⟩ ⟨h1, h2, h3⟩
    dsimp only at h1 h2 h3 ⊢
    have h4 := congrArg List.length h3
    rw [seg_length (by rw [lev_length]; exact h2)] at h4
    rw [List.count, List.countP_eq_length_filter]
    have : (fun v => decide (v >>> 0 = val >>> 0)) = fun v => v == val := by
      funext v
      simp only [Nat.shiftRight_zero]
      rw [Bool.eq_iff_iff]
      simp
    rw [this] at h4
    omega

theorem kth_tot {D l r x dflt : Nat} {k : Int} (hD : w < max D 32) (hx : x < 2 ^ w) (ha : ∀ v ∈ a, v < 2 ^ w) (hr : r ≤ a.length) (hk : 0 ≤ k) (hk2 : k < (r : Int) - l) :
    Tot (kth D w s l r k x dflt) fun v => v ∈ seg a l r ∧ ((seg a l r).countP (fun u => decide (u ^^^ x < v ^^^ x)) : Int) ≤ k ∧
      k < ((seg a l r).countP (fun u => decide (u ^^^ x ≤ v ^^^ x)) : Int) := by
  obtain ⟨L, hL⟩ : ∃ L, L = seg a l r := ⟨_, rfl⟩
  have hLlen : L.length = r - l := by rw [hL, seg_length hr]
  have hLm : ∀ v ∈ L, v < 2 ^ w := by
    intro v hv
    rw [hL] at hv
    exact ha v (List.mem_of_mem_drop (List.mem_of_mem_take hv))
  rw [← hL, kth, if_neg (by omega), checkValue, if_neg (by omega), shift_top hx, show ((0 : Nat) == 0) = true from rfl, check_true, ok_bind]
  refine Tot.bind (P := fun (q : Q) => ∃ Y : Nat, q.res = ((Y ^^^ (x >>> 0)) <<< 0) ∧ (L.countP (fun v => decide ((v ^^^ x) >>> 0 < Y)) : Int) ≤ k ∧
    k < (L.countP (fun v => decide ((v ^^^ x) >>> 0 < Y)) : Int) + (L.filter fun v => decide ((v ^^^ x) >>> 0 = Y)).length) ?_ ?_
  · refine (Tot.forDown (P := fun j (q : Q) => q.lr.1 ≤ q.lr.2 ∧ q.lr.2 ≤ a.length ∧ ∃ Y : Nat, q.res = ((Y ^^^ (x >>> j)) <<< j) ∧
      seg (lev w a j) q.lr.1 q.lr.2 = (L.filter fun v => decide ((v ^^^ x) >>> j = Y)) ∧ q.k = k - (L.countP (fun v => decide ((v ^^^ x) >>> j < Y)) : Int) ∧
      0 ≤ q.k ∧ q.k < (L.filter fun v => decide ((v ^^^ x) >>> j = Y)).length) (Nat.zero_le w) ?_ ?_).mono ?_
    · have hz : ∀ v ∈ L, (v ^^^ x) >>> w = 0 := fun v hv => shift_top (Nat.xor_lt_two_pow (hLm v hv) hx)
      have hf : (L.filter fun v => decide ((v ^^^ x) >>> w = 0)) = L := by
        rw [List.filter_eq_self]
        intro v hv
        rw [decide_eq_true_eq]
        exact hz v hv
      refine ⟨by dsimp only; omega, hr, 0, by rw [shift_top hx]; simp, ?_, ?_, hk, ?_⟩
      · rw [lev_top, hf, hL]
      · simp
      · rw [hf]
        dsimp only
        omega
    · rintro j ⟨⟨l1, r1⟩, k1, res⟩ - hj ⟨h1, h2, Y, h3, h4, h5, h6, h7⟩
      dsimp only at h1 h2 h3 h4 h5 h6 h7
      have hsb := h.sb
      rw [kthStep]
      dsimp only
      rw [rd_at (BV.empty 0) (by omega), ok_bind, rankRange_seg h hj (bit x j) h1 h2, ok_bind, h4]
      have hc : ∀ b : Bool, (L.filter fun v => decide ((v ^^^ x) >>> (j + 1) = Y)).filter (fun v => bit v j == (bit x j ^^ b)) =
          (L.filter fun v => decide ((v ^^^ x) >>> (j + 1) = Y)).filter (fun v => bit (v ^^^ x) j == b) := by
        intro b
        congr 1
        funext v
        rw [bit_xor]
        cases bit v j <;> cases bit x j <;> cases b <;> rfl
      have hc0 := hc false
      rw [Bool.xor_false] at hc0
      rw [hc0]
      obtain ⟨c, hcd⟩ : ∃ c, c = ((L.filter fun v => decide ((v ^^^ x) >>> (j + 1) = Y)).filter fun v => bit (v ^^^ x) j == false).length := ⟨_, rfl⟩
      rw [← hcd]
      obtain ⟨sk, hsk⟩ : ∃ sk, sk = decide (k1 ≥ (c : Int)) := ⟨_, rfl⟩
      rw [← hsk]
      obtain ⟨l', r', e, e1, e2, e3⟩ := succ_eq h hj (bit x j ^^ sk) h1 h2
      rw [e, ok_bind]
      have hcs := count_step L (fun v => v ^^^ x) j Y sk
      have hfs := filter_step L (fun v => v ^^^ x) j Y sk
      rw [← hcd] at hcs
      have hlen2 : ((L.filter fun v => decide ((v ^^^ x) >>> (j + 1) = Y)).filter fun v => bit (v ^^^ x) j == false).length + ((L.filter fun v => decide ((v ^^^ x) >>> (j + 1) = Y)).filter fun v => bit (v ^^^ x) j == true).length =
          (L.filter fun v => decide ((v ^^^ x) >>> (j + 1) = Y)).length := by
        generalize (L.filter fun v => decide ((v ^^^ x) >>> (j + 1) = Y)) = G
        induction G with
        | nil => rfl
        | cons g G ih =>
          cases hb : bit (g ^^^ x) j <;> simp [List.filter_cons, hb] <;> simp at ih <;> omega
      refine Tot.pure ⟨e1, e2, 2 * Y + sk.toNat, ?_, ?_, ?_, ?_, ?_⟩
      · dsimp only
        rw [h3, or_shift]
        congr 1
        rw [shift_step x j]
        have hxor : ∀ (A C : Nat) (p q : Bool), (2 * A + p.toNat) ^^^ (2 * C + q.toNat) = 2 * (A ^^^ C) + (q ^^ p).toNat := by
          intro A C p q
          apply Nat.eq_of_testBit_eq
          intro i
          rw [Nat.testBit_xor]
          have ht : ∀ (A : Nat) (p : Bool), (2 * A + p.toNat).testBit 0 = p ∧ ∀ i, (2 * A + p.toNat).testBit (i + 1) = A.testBit i := by
            intro A p
            constructor
            · rw [Nat.testBit_zero]
              cases p <;> simp
            · intro i
              rw [Nat.testBit_succ]
              congr 1
              cases p <;> simp <;> omega
          cases i with
          | zero => rw [(ht _ _).1, (ht _ _).1, (ht _ _).1, Bool.xor_comm]
          | succ i => rw [(ht _ _).2, (ht _ _).2, (ht _ _).2, Nat.testBit_xor]
        rw [hxor]
      · dsimp only
        rw [e3, h4, hc, hfs]
      · dsimp only
        rw [hcs, h5]
        push_cast
        omega
      · dsimp only
        rw [hsk]
        by_cases hge : k1 ≥ (c : Int)
        · simp only [hge, decide_true, Bool.toNat_true]; omega
        · simp only [hge, decide_false, Bool.toNat_false]; omega
      · dsimp only
        rw [← hfs]
        by_cases hge : k1 ≥ (c : Int)
        · rw [hsk]
          simp only [hge, decide_true, Bool.toNat_true]
          omega
        · rw [hsk]
          simp only [hge, decide_false, Bool.toNat_false]
          omega
    · rintro q ⟨-, -, Y, h3, -, h5, h6, h7⟩
      exact ⟨Y, h3, by omega, by omega⟩
  · rintro q ⟨Y, h3, h4, h5⟩
    simp only [Nat.shiftRight_zero, Nat.shiftLeft_zero] at h3 h4 h5
    refine Tot.pure ?_
    have hpos : 0 < (L.filter fun v => decide (v ^^^ x = Y)).length := by omega
    obtain ⟨v, hv⟩ := List.exists_mem_of_length_pos hpos
    rw [List.mem_filter, decide_eq_true_eq] at hv
    have hres : q.res = v := by rw [h3, ← hv.2, Nat.xor_assoc, Nat.xor_self, Nat.xor_zero]
    rw [hres, hv.2]
    refine ⟨hv.1, h4, ?_⟩
    have : L.countP (fun u => decide (u ^^^ x ≤ Y)) = L.countP (fun v => decide (v ^^^ x < Y)) + (L.filter fun v => decide (v ^^^ x = Y)).length := by
      rw [← List.countP_eq_length_filter]
      clear h4 h5 hpos hv hLlen hLm hL hres h3
      induction L with
      | nil => rfl
      | cons u L ih =>
        rw [List.countP_cons, List.countP_cons, List.countP_cons, ih]
        rcases Nat.lt_trichotomy (u ^^^ x) Y with hlt | heq | hgt
        · simp [hlt, Nat.le_of_lt hlt, Nat.ne_of_lt hlt]; omega
        · simp [heq]; omega
        · simp [Nat.not_lt.2 (Nat.le_of_lt hgt), Nat.not_le.2 hgt, Nat.ne_of_gt hgt]
    omega

theorem freq_tot {D l r x upper : Nat} (hD : w < max D 32) (hx : x < 2 ^ w) (ha : ∀ v ∈ a, v < 2 ^ w) (hr : r ≤ a.length) :
    freq D w s l r x upper = .ok ((seg a l r).countP (fun v => decide (v ^^^ x < upper)) : Int) := by
  obtain ⟨L, hL⟩ : ∃ L, L = seg a l r := ⟨_, rfl⟩
  have hLlen : L.length = r - l := by rw [hL, seg_length hr]
  have hLm : ∀ v ∈ L, v < 2 ^ w := by
    intro v hv
    rw [hL] at hv
    exact ha v (List.mem_of_mem_drop (List.mem_of_mem_take hv))
  have hLx : ∀ v ∈ L, v ^^^ x < 2 ^ w := fun v hv => Nat.xor_lt_two_pow (hLm v hv) hx
  rw [← hL, ← tot_eq, freq]
  by_cases hlr : r ≤ l
  · rw [if_pos hlr]
    have : L = [] := List.eq_nil_of_length_eq_zero (by omega)
    rw [this]
    exact Tot.pure rfl
  · rw [if_neg hlr]
    by_cases hu : upper > 2 ^ w - 1
    · rw [if_pos hu]
      have : L.countP (fun v => decide (v ^^^ x < upper)) = L.length := by
        rw [List.countP_eq_length]
        intro v hv
        rw [decide_eq_true_eq]
        have := hLx v hv
        omega
      rw [this]
      exact Tot.pure (by omega)
    · have hu2 : upper < 2 ^ w := by have := Nat.two_pow_pos w; omega
      rw [if_neg hu, checkValue, if_neg (by omega), shift_top hx, show ((0 : Nat) == 0) = true from rfl, check_true, ok_bind]
      refine Tot.bind (P := fun (q : Q) => q.k = (L.countP (fun v => decide ((v ^^^ x) >>> 0 < upper >>> 0)) : Int)) ?_ ?_
      · refine (Tot.forDown (P := fun j (q : Q) => q.lr.1 ≤ q.lr.2 ∧ q.lr.2 ≤ a.length ∧
          seg (lev w a j) q.lr.1 q.lr.2 = (L.filter fun v => decide ((v ^^^ x) >>> j = upper >>> j)) ∧
          q.k = (L.countP (fun v => decide ((v ^^^ x) >>> j < upper >>> j)) : Int)) (Nat.zero_le w) ?_ ?_).mono (fun q hq => hq.2.2.2)
        · have hf : (L.filter fun v => decide ((v ^^^ x) >>> w = 0)) = L := by
            rw [List.filter_eq_self]
            intro v hv
            rw [decide_eq_true_eq]
            exact shift_top (hLx v hv)
          rw [shift_top hu2, hf, lev_top]
          refine ⟨by dsimp only; omega, hr, hL.symm, by simp⟩
        · rintro j ⟨⟨l1, r1⟩, k1, res⟩ - hj ⟨h1, h2, h4, h5⟩
          dsimp only at h1 h2 h4 h5
          have hsb := h.sb
          have hc : ∀ b : Bool, (L.filter fun v => decide ((v ^^^ x) >>> (j + 1) = upper >>> (j + 1))).filter (fun v => bit v j == (bit x j ^^ b)) =
              (L.filter fun v => decide ((v ^^^ x) >>> (j + 1) = upper >>> (j + 1))).filter (fun v => bit (v ^^^ x) j == b) := by
            intro b
            congr 1
            funext v
            rw [bit_xor]
            cases bit v j <;> cases bit x j <;> cases b <;> rfl
          have hc0 := hc false
          rw [Bool.xor_false] at hc0
          have hcs := count_step L (fun v => v ^^^ x) j (upper >>> (j + 1)) (bit upper j)
          have hfs := filter_step L (fun v => v ^^^ x) j (upper >>> (j + 1)) (bit upper j)
          rw [← shift_step] at hcs hfs
          rw [freqStep]
          dsimp only
          rw [rd_at (BV.empty 0) (by omega), ok_bind]
          have hadd : addRank (at' (BV.empty 0) s.bv j) (bit upper j) (bit x j) ⟨(l1, r1), k1, res⟩ = .ok (L.countP (fun v => decide ((v ^^^ x) >>> j < upper >>> j)) : Int) := by
            rw [addRank, hcs]
            cases bit upper j
            · rw [if_neg (by decide)]
              simp only [Bool.toNat_false, Nat.zero_mul, Nat.add_zero]
              rw [h5]
              rfl
            · rw [if_pos rfl]
              dsimp only
              rw [rankRange_seg h hj (bit x j) h1 h2, ok_bind, h4, hc0, h5]
              simp only [Bool.toNat_true, Nat.one_mul]
              rfl
          rw [hadd, ok_bind]
          obtain ⟨l', r', e, e1, e2, e3⟩ := succ_eq h hj (bit x j ^^ bit upper j) h1 h2
          rw [e, ok_bind]
          refine Tot.pure ⟨e1, e2, ?_, rfl⟩
          dsimp only
          rw [e3, h4, hc, hfs]
      · intro q hq
        simp only [Nat.shiftRight_zero] at hq
        exact Tot.pure hq

end

end WaveletMatrix
