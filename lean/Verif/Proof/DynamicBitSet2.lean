import Verif.Proof.DynamicBitSet

namespace DynamicBitSet
open Cxx
open Spec (tab)

theorem list_rep (n : Nat) (f : Nat → Bool) {s : BS} {l : List Bool} (h : R s n f) (hl : l.length = n) (hf : ∀ i, i < n → f i = Spec.get l i) : Rep s l := R.list h hl hf

/-! ## Ranges -/

theorem rangeUpd_tot {f : Block → Block → Block} {g : Block → Block} {c : Bool → Bool}
    (hf : ∀ b m : Block, ∀ o, o < 64 → (f b m).getLsbD o = if m.getLsbD o then c (b.getLsbD o) else b.getLsbD o)
    (hg : ∀ b : Block, ∀ o, o < 64 → (g b).getLsbD o = c (b.getLsbD o))
    {s : BS} {l r : Nat} (hlr : l ≤ r) (hr : r ≤ s.n) (hsz : s.blocks.size = blockNum s.n) :
    Tot (rangeUpd f g s l r) fun s' => s'.n = s.n ∧ s'.blocks.size = s.blocks.size ∧
      ∀ j, bit s'.blocks j = if l ≤ j ∧ j < r then c (bit s.blocks j) else bit s.blocks j := by
  unfold rangeUpd
  rw [decide_eq_true ⟨hlr, hr⟩, check_true, ok_bind]
  by_cases h0 : l = r
  · rw [if_pos h0]
    exact Tot.pure ⟨rfl, rfl, fun j => by rw [if_neg (by omega)]⟩
  · rw [if_neg h0]
    have hrb : (r - 1) / 64 < s.blocks.size := by rw [hsz]; exact blockNum_lt (by omega)
    have hlb : l / 64 < s.blocks.size := lt_of_le_of_lt (by omega) hrb
    obtain ⟨ri, hri⟩ : ∃ ri, ri = if r % 64 = 0 then 64 else r % 64 := ⟨_, rfl⟩
    simp only [← hri]
    have hri' : r = 64 * ((r - 1) / 64) + ri := by split at hri <;> omega
    have hri1 : 1 ≤ ri ∧ ri ≤ 64 := by split at hri <;> omega
    by_cases hb : l / 64 = (r - 1) / 64
    · rw [if_pos hb]
      refine Tot.bind (maskRange_tot (l := l % 64) (r := ri) (by omega) hri1.2) fun m hm => ?_
      rw [rd_at 0 hlb, ok_bind, wr_eq hlb, ok_bind]
      refine Tot.pure ⟨rfl, by simp, fun j => ?_⟩
      dsimp only
      rw [bit_set hlb]
      by_cases hj : j / 64 = l / 64
      · rw [if_pos hj, hf _ _ _ (by omega), hm, ← hj]
        simp only [decide_eq_true_eq]
        by_cases hx : l ≤ j ∧ j < r
        · rw [if_pos hx, if_pos (by omega)]; rfl
        · rw [if_neg hx, if_neg (by omega)]; rfl
      · rw [if_neg hj, if_neg (by omega)]
    · rw [if_neg hb]
      refine Tot.bind (maskUpper_tot ones (num := 64 - l % 64) (by omega) (by omega)) fun m hm => ?_
      rw [rd_at 0 hlb, ok_bind, wr_eq hlb, ok_bind]
      refine Tot.bind (lower_tot ones (num := ri) hri1.2) fun m' hm' => ?_
      have hrb' : (r - 1) / 64 < (s.blocks.setIfInBounds (l / 64) (f (at' 0 s.blocks (l / 64)) m)).size := by simpa using hrb
      rw [rd_at 0 hrb', ok_bind, wr_eq hrb', ok_bind]
      refine Tot.bind (Tot.forUp (P := fun k (bl : Array Block) => bl.size = s.blocks.size ∧
        ∀ j, bit bl j = if l ≤ j ∧ j < r ∧ (j < 64 * k ∨ 64 * ((r - 1) / 64) ≤ j) then c (bit s.blocks j) else bit s.blocks j) (by omega) ?_ ?_) ?_
      · refine ⟨by simp, fun j => ?_⟩
        rw [bit_set hrb', bit_set hlb]
        by_cases h1 : j / 64 = (r - 1) / 64
        · rw [if_pos h1, hf _ _ _ (by omega), hm', ones_bit (by omega), at_set 0 hlb, if_neg hb, ← h1]
          simp only [Bool.and_true, decide_eq_true_eq]
          by_cases hx : j < r
          · rw [if_pos (by omega), if_pos (by omega)]; rfl
          · rw [if_neg (by omega), if_neg (by omega)]; rfl
        · rw [if_neg h1]
          by_cases h2 : j / 64 = l / 64
          · rw [if_pos h2, hf _ _ _ (by omega), hm, ones_bit (by omega), ← h2]
            simp only [Bool.and_true, decide_eq_true_eq]
            by_cases hx : l ≤ j
            · rw [if_pos (by omega), if_pos (by omega)]; rfl
            · rw [if_neg (by omega), if_neg (by omega)]; rfl
          · rw [if_neg h2, if_neg (by omega)]
      · rintro k bl hk1 hk2 ⟨hs, hbits⟩
        have hk : k < bl.size := by omega
        rw [rd_at 0 hk, ok_bind, wr_eq hk]
        refine Tot.pure ⟨by simpa using hs, fun j => ?_⟩
        rw [bit_set hk]
        by_cases hj : j / 64 = k
        · rw [if_pos hj, hg _ _ (by omega), ← hj]
          have : (at' 0 bl (j / 64)).getLsbD (j % 64) = bit bl j := rfl
          rw [this, hbits, if_neg (by omega), if_pos (by omega)]
        · rw [if_neg hj, hbits]
          by_cases hx : l ≤ j ∧ j < r ∧ (j < 64 * k ∨ 64 * ((r - 1) / 64) ≤ j)
          · rw [if_pos hx, if_pos (by omega)]
          · rw [if_neg hx, if_neg (by omega)]
      · rintro bl ⟨hs, hbits⟩
        refine Tot.pure ⟨rfl, hs, fun j => ?_⟩
        dsimp only
        rw [hbits]
        by_cases hx : l ≤ j ∧ j < r
        · rw [if_pos hx, if_pos (by omega)]
        · rw [if_neg hx, if_neg (by omega)]

/-- One range call in terms of the bits. -/
theorem range_bits {F : BS → Nat → Nat → M BS} {c : Bool → Bool} (hF : ∀ (s : BS) (l r : Nat), l ≤ r → r ≤ s.n → s.blocks.size = blockNum s.n →
      Tot (F s l r) fun s' => s'.n = s.n ∧ s'.blocks.size = s.blocks.size ∧
        ∀ j, bit s'.blocks j = if l ≤ j ∧ j < r then c (bit s.blocks j) else bit s.blocks j)
    {s : BS} {a : List Bool} (h : Rep s a) {l r : Nat} (hlr : l ≤ r) (hr : r ≤ a.length) :
    Tot (F s l r) fun s' => Rep s' (Spec.range c a l r) := by
  refine Tot.mono (hF s l r hlr (by rw [h.n_eq]; exact hr) (by rw [h.n_eq]; exact h.size)) fun s' ⟨h1, h2, h3⟩ => ?_
  refine (h.of_bits h1 h2 fun j hj => ?_).tab
  rw [h3, h.bits j hj]

theorem rangeSet_bits (s : BS) (l r : Nat) (hlr : l ≤ r) (hr : r ≤ s.n) (hs : s.blocks.size = blockNum s.n) :
    Tot (rangeSet s l r) fun s' => s'.n = s.n ∧ s'.blocks.size = s.blocks.size ∧
      ∀ j, bit s'.blocks j = if l ≤ j ∧ j < r then (fun _ => true) (bit s.blocks j) else bit s.blocks j :=
  rangeUpd_tot (c := fun _ => true) or_form (fun _ _ h => ones_bit h) hlr hr hs

theorem rangeReset_bits (s : BS) (l r : Nat) (hlr : l ≤ r) (hr : r ≤ s.n) (hs : s.blocks.size = blockNum s.n) :
    Tot (rangeReset s l r) fun s' => s'.n = s.n ∧ s'.blocks.size = s.blocks.size ∧
      ∀ j, bit s'.blocks j = if l ≤ j ∧ j < r then (fun _ => false) (bit s.blocks j) else bit s.blocks j :=
  rangeUpd_tot (c := fun _ => false) andnot_form (fun _ o _ => zero_bit o) hlr hr hs

theorem rangeFlip_bits (s : BS) (l r : Nat) (hlr : l ≤ r) (hr : r ≤ s.n) (hs : s.blocks.size = blockNum s.n) :
    Tot (rangeFlip s l r) fun s' => s'.n = s.n ∧ s'.blocks.size = s.blocks.size ∧
      ∀ j, bit s'.blocks j = if l ≤ j ∧ j < r then !(bit s.blocks j) else bit s.blocks j :=
  rangeUpd_tot (c := not) xor_form (fun b o h => by rw [xor_form b ones o h, ones_bit h]; simp) hlr hr hs

theorem rangeUpdate_bits (v : Bool) (s : BS) (l r : Nat) (hlr : l ≤ r) (hr : r ≤ s.n) (hs : s.blocks.size = blockNum s.n) :
    Tot (rangeUpdate s l r v) fun s' => s'.n = s.n ∧ s'.blocks.size = s.blocks.size ∧
      ∀ j, bit s'.blocks j = if l ≤ j ∧ j < r then (fun _ => v) (bit s.blocks j) else bit s.blocks j := by
  unfold rangeUpdate
  cases v with
  | true => exact rangeSet_bits s l r hlr hr hs
  | false => exact rangeReset_bits s l r hlr hr hs

/-! ## Changes of the size -/

theorem resizeBlocks_size (b : Array Block) (k : Nat) : (resizeBlocks b k).size = k := by
  unfold resizeBlocks
  split
  · simp; omega
  · simp; omega

theorem resizeBlocks_at (b : Array Block) {k i : Nat} (h : i < k) (h' : i < b.size) : at' 0 (resizeBlocks b k) i = at' 0 b i := by
  unfold resizeBlocks at'
  split
  · rw [Array.getElem?_extract]; simp; rw [if_pos (by omega)]
  · rw [Array.getElem?_append_left h']

theorem resize_tot {s : BS} {a : List Bool} (h : Rep s a) (m : Nat) (fill : Bool) :
    Tot (resize s m fill) fun s' => Rep s' (Spec.resize a m fill) := by
  have hb : ∀ i, i < m → i < a.length → bit (resizeBlocks s.blocks (blockNum m)) i = Spec.get a i := by
    intro i h1 h2
    rw [← h.bits i h2]
    unfold bit
    rw [resizeBlocks_at _ (blockNum_lt h1) (by rw [h.size]; exact blockNum_lt h2)]
  have hn : s.n = a.length := h.n_eq
  unfold resize
  by_cases h1 : blockNum m < s.blocks.size
  · rw [if_pos h1]
    refine Tot.pure ?_
    refine R.tab ⟨rfl, resizeBlocks_size _ _, fun i hi => ?_⟩
    have hi' : i < a.length := by
      rw [h.size] at h1; unfold blockNum at h1; omega
    dsimp only
    rw [if_pos hi', hb i hi hi']
  · rw [if_neg h1]
    by_cases h2 : s.n ≤ m
    · rw [if_pos h2]
      refine Tot.mono (rangeUpdate_bits fill ⟨m, resizeBlocks s.blocks (blockNum m)⟩ s.n m h2 le_rfl (resizeBlocks_size _ _)) ?_
      rintro s' ⟨g1, g2, g3⟩
      refine R.tab ⟨g1, g2.trans (resizeBlocks_size _ _), fun i hi => ?_⟩
      rw [g3]
      dsimp only
      by_cases hi' : i < a.length
      · rw [if_pos hi', if_neg (by omega), hb i hi hi']
      · rw [if_neg hi', if_pos (by omega)]
    · rw [if_neg h2]
      refine Tot.pure ?_
      refine R.tab ⟨rfl, resizeBlocks_size _ _, fun i hi => ?_⟩
      dsimp only
      rw [if_pos (by omega), hb i hi (by omega)]

theorem get_append {a : List Bool} {v : Bool} {i : Nat} (h : i < a.length + 1) : Spec.get (a ++ [v]) i = if i = a.length then v else Spec.get a i := by
  unfold Spec.get
  by_cases e : i = a.length
  · subst e; simp
  · rw [if_neg e, List.getElem?_append_left (by omega)]

theorem pushBack_tot {s : BS} {a : List Bool} (h : Rep s a) (v : Bool) : Tot (pushBack s v) fun s' => Rep s' (a ++ [v]) := by
  unfold pushBack
  have hn := h.n_eq
  by_cases h0 : s.n % 64 ≠ 0
  · rw [if_pos h0]
    have hsz := h.size
    refine Tot.bind (assign_bits h (i := s.n) (by rw [hsz]; unfold blockNum; omega) v) fun s' ⟨h1, h2, h3⟩ => Tot.pure ?_
    refine list_rep (a.length + 1) (Spec.get (a ++ [v])) ⟨by dsimp only; omega, ?_, fun i hi => ?_⟩ (by simp) fun _ _ => rfl
    · dsimp only
      rw [h2, hsz]; unfold blockNum; omega
    · dsimp only
      rw [h3, get_append hi, hn]
      split
      · rfl
      · exact h.bits i (by omega)
  · rw [if_neg h0]
    have hsz := h.size
    refine Tot.pure ?_
    refine list_rep (a.length + 1) (Spec.get (a ++ [v])) ⟨by dsimp only; omega, ?_, fun i hi => ?_⟩ (by simp) fun _ _ => rfl
    · dsimp only
      rw [Array.size_push, hsz]; unfold blockNum; omega
    · dsimp only
      rw [get_append hi]
      have hB : blockNum a.length = a.length / 64 := by unfold blockNum; omega
      by_cases e : i = a.length
      · rw [if_pos e]
        unfold bit at'
        rw [show i / 64 = s.blocks.size by omega, Array.getElem?_push_size]
        rw [show i % 64 = 0 by omega]
        cases v <;> rfl
      · rw [if_neg e, ← h.bits i (by omega)]
        unfold bit at'
        rw [Array.getElem?_push, if_neg]
        rw [hsz]
        omega

theorem popBack_tot {s : BS} {a : List Bool} (h : Rep s a) (h0 : a.length ≠ 0) (h31 : a.length < 2 ^ 31) :
    Tot (popBack s) fun s' => Rep s' a.dropLast := by
  have hn := h.n_eq
  have hsz := h.size
  have hmod : (s.n + (2 ^ 64 - 1)) % 2 ^ 64 = a.length - 1 := by
    rw [hn, show a.length + (2 ^ 64 - 1) = (a.length - 1) + 2 ^ 64 by omega, Nat.add_mod_right, Nat.mod_eq_of_lt (by omega)]
  have hget : ∀ i, i < a.length - 1 → Spec.get a.dropLast i = Spec.get a i := by
    intro i hi
    unfold Spec.get
    rw [List.getElem?_dropLast, if_pos hi]
  unfold popBack
  by_cases h1 : s.n % 64 = 1
  · have hne : s.blocks.size ≠ 0 := by rw [hsz]; unfold blockNum; omega
    rw [if_pos h1, if_neg hne, pure_eq, ok_bind]
    refine Tot.pure ?_
    refine list_rep (a.length - 1) (Spec.get a.dropLast) ⟨hmod, ?_, fun i hi => ?_⟩ (by simp) fun _ _ => rfl
    · dsimp only
      rw [Array.size_pop, hsz]; unfold blockNum; omega
    · dsimp only
      rw [hget i hi, ← h.bits i (by omega)]
      unfold bit at'
      rw [Array.getElem?_pop, if_pos]
      rw [hsz]; unfold blockNum; omega
  · rw [if_neg h1, pure_eq, ok_bind]
    refine Tot.pure ?_
    refine list_rep (a.length - 1) (Spec.get a.dropLast) ⟨hmod, ?_, fun i hi => ?_⟩ (by simp) fun _ _ => rfl
    · dsimp only
      rw [hsz]; unfold blockNum; omega
    · dsimp only
      rw [hget i hi, ← h.bits i (by omega)]

/-! ## Whole objects -/

theorem zip_tot {f : Block → Block → Block} {c : Bool → Bool → Bool} (hf : ∀ a b : Block, ∀ o, (f a b).getLsbD o = c (a.getLsbD o) (b.getLsbD o))
    {x y : BS} {a b : List Bool} (hx : Rep x a) (hy : Rep y b) (hab : a.length = b.length) :
    Tot (zip f x y) fun s => Rep s (a.zipWith c b) := by
  unfold zip
  rw [decide_eq_true (by rw [hx.n_eq, hy.n_eq, hab]), check_true, ok_bind]
  have hs : x.blocks.size = y.blocks.size := by rw [hx.size, hy.size, hab]
  refine Tot.bind (Tot.forUp (P := fun k (bl : Array Block) => bl.size = x.blocks.size ∧
    ∀ j, bit bl j = if j / 64 < k then c (bit x.blocks j) (bit y.blocks j) else bit x.blocks j) (by omega) ⟨rfl, fun j => by rw [if_neg (by omega)]⟩ ?_) ?_
  · rintro k bl - hk ⟨hsz, hb⟩
    have hk' : k < bl.size := by omega
    rw [rd_at 0 hk', ok_bind, rd_at 0 hk, ok_bind, wr_eq hk']
    refine Tot.pure ⟨by simpa using hsz, fun j => ?_⟩
    rw [bit_set hk']
    by_cases hj : j / 64 = k
    · rw [if_pos hj, if_pos (by omega), hf, ← hj]
      have : (at' 0 bl (j / 64)).getLsbD (j % 64) = bit bl j := rfl
      rw [this, hb, if_neg (by omega)]
      rfl
    · rw [if_neg hj, hb]
      by_cases hl : j / 64 < k
      · rw [if_pos hl, if_pos (by omega)]
      · rw [if_neg hl, if_neg (by omega)]
  · rintro bl ⟨hsz, hb⟩
    refine Tot.pure ?_
    refine list_rep (a.length) (fun i => c (Spec.get a i) (Spec.get b i)) (hx.of_bits rfl hsz fun j hj => ?_) (by simp [hab]) ?_
    · dsimp only
      rw [hb, if_pos (by rw [← hs, hx.size]; exact blockNum_lt hj), hx.bits j hj, hy.bits j (by omega)]
    · intro i hi
      have : i < b.length := by omega
      simp [Spec.get, hi, this, List.getElem?_zipWith]

theorem make_blocks {n i : Nat} : bit (make n false).blocks i = false := by
  unfold bit make at'
  simp [Array.getElem?_replicate]
  split <;> simp

theorem compl_tot {x : BS} {a : List Bool} (hx : Rep x a) : Tot (compl x) fun s => Rep s (a.map not) := by
  unfold compl
  have hn := hx.n_eq
  have hms : (make x.n false).blocks.size = x.blocks.size := by rw [hx.size, hn]; exact (make_rep _ _).size
  refine Tot.bind (Tot.forUp (P := fun k (bl : Array Block) => bl.size = x.blocks.size ∧
    ∀ j, j / 64 < k → bit bl j = !bit x.blocks j) (by omega) ⟨hms, fun j hj => by omega⟩ ?_) ?_
  · rintro k bl - hk ⟨hsz, hb⟩
    have hk' : k < bl.size := by omega
    rw [rd_at 0 hk, ok_bind, wr_eq hk']
    refine Tot.pure ⟨by simpa using hsz, fun j hj => ?_⟩
    rw [bit_set hk']
    by_cases hj' : j / 64 = k
    · rw [if_pos hj', BitVec.getLsbD_not, ← hj', decide_eq_true (by omega : j % 64 < 64), Bool.true_and]
      rfl
    · rw [if_neg hj', hb j (by omega)]
  · rintro bl ⟨hsz, hb⟩
    refine Tot.pure ?_
    refine list_rep (a.length) (fun i => !Spec.get a i) ⟨hn, hsz.trans hx.size, fun j hj => ?_⟩ (by simp) ?_
    · dsimp only
      rw [hb j (by rw [hx.size]; exact blockNum_lt hj), hx.bits j hj]
    · intro i hi
      simp [Spec.get, hi]

theorem setAll_rep {x : BS} {a : List Bool} (hx : Rep x a) (v : Bool) : Rep (setAll x v) (a.map fun _ => v) := by
  refine list_rep (a.length) (fun _ => v) (hx.of_bits rfl (by simp [setAll]) fun j hj => ?_) (by simp) ?_
  · have hlt : j / 64 < x.blocks.size := by rw [hx.size]; exact blockNum_lt hj
    unfold bit setAll at'
    simp only [Array.getElem?_map, Array.getElem?_eq_getElem hlt, Option.map_some, Option.getD_some]
    cases v
    · simp
    · exact ones_bit (by omega)
  · intro i hi
    simp [Spec.get, hi]

theorem orAt_tot {bl : Array Block} {k : Nat} (h : k < bl.size) (v : Block) :
    Tot (orAt bl k v) fun bl' => bl'.size = bl.size ∧ ∀ j, bit bl' j = if j / 64 = k then (bit bl j || v.getLsbD (j % 64)) else bit bl j := by
  unfold orAt
  rw [rd_at 0 h, ok_bind, wr_eq h]
  refine Tot.pure ⟨by simp, fun j => ?_⟩
  rw [bit_set h]
  split
  · subst_vars; rw [BitVec.getLsbD_or]; rfl
  · rfl

theorem shiftLeft_tot {x : BS} {a : List Bool} (hx : Rep x a) (k : Nat) : Tot (shiftLeft x k) fun s => Rep s (Spec.shiftLeft a k) := by
  unfold shiftLeft
  have hn := hx.n_eq
  by_cases h0 : k ≥ x.n
  · rw [if_pos h0]
    refine Tot.pure ?_
    rw [hn]
    refine ((make_rep a.length false).congr fun i hi => ?_).tab
    rw [decide_eq_false (by omega), Bool.false_and]
  · rw [if_neg h0]
    have hms : (make x.n false).blocks.size = x.blocks.size := by rw [hx.size, hn]; exact (make_rep _ _).size
    have hB : k / 64 < x.blocks.size := by rw [hx.size]; exact blockNum_lt (by omega)
    refine Tot.bind (Tot.forUp (P := fun q (bl : Array Block) => bl.size = x.blocks.size ∧
      ∀ j, j < 64 * x.blocks.size → bit bl j = (decide (k ≤ j ∧ j - k < 64 * q) && bit x.blocks (j - k))) (by omega) ⟨hms, fun j hj => ?_⟩ ?_) ?_
    · rw [make_blocks, decide_eq_false (by omega), Bool.false_and]
    · rintro q bl - hq ⟨hsz, hb⟩
      rw [hms] at hq
      have hq1 : q < x.blocks.size := by omega
      have hq2 : q + k / 64 < bl.size := by omega
      by_cases ht : k % 64 = 0
      · rw [if_pos ht, rd_at 0 hq1, ok_bind, wr_eq hq2]
        refine Tot.pure ⟨by simpa using hsz, fun j hj => ?_⟩
        rw [bit_set hq2]
        by_cases e : j / 64 = q + k / 64
        · rw [if_pos e, decide_eq_true (by omega), Bool.true_and, block_bit _ (by omega)]
          congr 1; omega
        · rw [if_neg e, hb j hj]
          congr 1
          rw [decide_eq_decide]; omega
      · rw [if_neg ht, rd_at 0 hq1, ok_bind, shl_eq _ (by omega), ok_bind]
        refine Tot.bind (orAt_tot hq2 _) ?_
        rintro bl1 ⟨hs1, hb1⟩
        have step1 : ∀ j, j < 64 * x.blocks.size → j / 64 ≠ q + k / 64 + 1 → bit bl1 j = (decide (k ≤ j ∧ j - k < 64 * (q + 1)) && bit x.blocks (j - k)) := by
          intro j hj hne
          rw [hb1]
          by_cases e : j / 64 = q + k / 64
          · rw [if_pos e, hb j hj, BitVec.getLsbD_shiftLeft]
            by_cases ho : j % 64 < k % 64
            · rw [decide_eq_true ho]
              simp only [Bool.not_true, Bool.and_false, Bool.false_and, Bool.or_false]
              congr 1
              rw [decide_eq_decide]; omega
            · rw [decide_eq_false ho, decide_eq_true (by omega : j % 64 < 64)]
              rw [decide_eq_false (by omega), decide_eq_true (by omega), block_bit _ (by omega)]
              simp only [Bool.false_and, Bool.false_or, Bool.not_false, Bool.true_and]
              congr 1; omega
          · rw [if_neg e, hb j hj]
            congr 1
            rw [decide_eq_decide]; omega
        rw [hms]
        by_cases hl : q + k / 64 + 1 ≠ x.blocks.size
        · rw [if_pos hl, shr_eq _ (by omega), ok_bind]
          refine Tot.mono (orAt_tot (by omega) _) ?_
          rintro bl2 ⟨hs2, hb2⟩
          refine ⟨by omega, fun j hj => ?_⟩
          rw [hb2]
          by_cases e : j / 64 = q + k / 64 + 1
          · rw [if_pos e, hb1, if_neg (by omega), hb j hj, BitVec.getLsbD_ushiftRight]
            rw [decide_eq_false (by omega), Bool.false_and, Bool.false_or]
            by_cases ho : j % 64 < k % 64
            · rw [decide_eq_true (by omega), Bool.true_and, block_bit _ (by omega)]
              congr 1; omega
            · rw [decide_eq_false (by omega), Bool.false_and]
              exact BitVec.getLsbD_of_ge _ _ (by omega)
          · rw [if_neg e]
            exact step1 j hj e
        · rw [if_neg hl]
          refine Tot.pure ⟨by omega, fun j hj => step1 j hj (by omega)⟩
    · rintro bl ⟨hsz, hb⟩
      refine Tot.pure ?_
      refine R.tab ⟨hn, hsz.trans hx.size, fun j hj => ?_⟩
      have hjb : j / 64 < x.blocks.size := by rw [hx.size]; exact blockNum_lt hj
      dsimp only
      rw [hb j (by omega), hms]
      by_cases hk : k ≤ j
      · rw [decide_eq_true (by omega), decide_eq_true hk, hx.bits _ (by omega)]
      · rw [decide_eq_false (by omega), decide_eq_false hk]; simp

theorem shiftRight_tot {x : BS} {a : List Bool} (hx : Rep x a) (k : Nat) : Tot (shiftRight x k) fun s => Rep s (Spec.shiftRight a k) := by
  unfold shiftRight
  have hn := hx.n_eq
  by_cases h0 : k ≥ x.n
  · rw [if_pos h0]
    refine Tot.pure ?_
    rw [hn]
    exact ((make_rep a.length false).congr fun i hi => (get_ge (by omega)).symm).tab
  · rw [if_neg h0]
    have hms : (make x.n false).blocks.size = x.blocks.size := by rw [hx.size, hn]; exact (make_rep _ _).size
    have hB : k / 64 < x.blocks.size := by rw [hx.size]; exact blockNum_lt (by omega)
    refine Tot.bind (Tot.forUp (P := fun q (bl : Array Block) => bl.size = x.blocks.size ∧
      ∀ j, bit bl j = (decide (j < 64 * q ∧ j + k < 64 * x.blocks.size) && bit x.blocks (j + k))) (by omega) ⟨hms, fun j => ?_⟩ ?_) ?_
    · rw [make_blocks, decide_eq_false (by omega), Bool.false_and]
    · rintro q bl - hq ⟨hsz, hb⟩
      have hq1 : q + k / 64 < x.blocks.size := by omega
      have hq2 : q < bl.size := by omega
      by_cases ht : k % 64 = 0
      · rw [if_pos ht, rd_at 0 hq1, ok_bind, wr_eq hq2]
        refine Tot.pure ⟨by simpa using hsz, fun j => ?_⟩
        rw [bit_set hq2]
        by_cases e : j / 64 = q
        · rw [if_pos e, decide_eq_true (by omega), Bool.true_and, block_bit _ (by omega)]
          congr 1; omega
        · rw [if_neg e, hb j]
          congr 1
          rw [decide_eq_decide]; omega
      · rw [if_neg ht, rd_at 0 hq1, ok_bind, shr_eq _ (by omega), ok_bind]
        refine Tot.bind (orAt_tot hq2 _) ?_
        rintro bl1 ⟨hs1, hb1⟩
        by_cases hl : q + k / 64 + 1 ≠ x.blocks.size
        · rw [if_pos hl, rd_at 0 (by omega), ok_bind, shl_eq _ (by omega), ok_bind]
          refine Tot.mono (orAt_tot (by omega) _) ?_
          rintro bl2 ⟨hs2, hb2⟩
          refine ⟨by omega, fun j => ?_⟩
          rw [hb2, hb1]
          by_cases e : j / 64 = q
          · rw [if_pos e, if_pos e, hb j, BitVec.getLsbD_ushiftRight, BitVec.getLsbD_shiftLeft]
            rw [decide_eq_false (by omega), Bool.false_and, Bool.false_or, decide_eq_true (by omega : j % 64 < 64), Bool.true_and,
              decide_eq_true (by omega : j < 64 * (q + 1) ∧ j + k < 64 * x.blocks.size), Bool.true_and]
            by_cases ho : j % 64 < 64 - k % 64
            · rw [decide_eq_true ho]
              simp only [Bool.not_true, Bool.and_false, Bool.false_and, Bool.or_false]
              rw [block_bit _ (by omega)]
              congr 1; omega
            · rw [decide_eq_false ho]
              rw [BitVec.getLsbD_of_ge _ (k % 64 + j % 64) (by omega)]
              simp only [Bool.not_false, Bool.true_and, Bool.false_or]
              rw [block_bit _ (by omega)]
              congr 1; omega
          · rw [if_neg e, if_neg e, hb j]
            congr 1
            rw [decide_eq_decide]; omega
        · rw [if_neg hl]
          refine Tot.pure ⟨by omega, fun j => ?_⟩
          rw [hb1]
          by_cases e : j / 64 = q
          · rw [if_pos e, hb j, BitVec.getLsbD_ushiftRight]
            rw [decide_eq_false (by omega), Bool.false_and, Bool.false_or]
            by_cases ho : j % 64 < 64 - k % 64
            · rw [decide_eq_true (by omega), Bool.true_and, block_bit _ (by omega)]
              congr 1; omega
            · rw [decide_eq_false (by omega), Bool.false_and]
              exact BitVec.getLsbD_of_ge _ _ (by omega)
          · rw [if_neg e, hb j]
            congr 1
            rw [decide_eq_decide]; omega
    · rintro bl ⟨hsz, hb⟩
      have hd : (⟨x.n, bl⟩ : BS).blocks.size = blockNum (⟨x.n, bl⟩ : BS).n := by
        dsimp only; rw [hsz, hx.size, hn]
      refine Tot.mono (rangeReset_bits ⟨x.n, bl⟩ (x.n - k) x.n (by omega) le_rfl hd) ?_
      rintro s ⟨g1, g2, g3⟩
      refine R.tab ⟨g1.trans hn, g2.trans (hsz.trans hx.size), fun j hj => ?_⟩
      have hjb : j / 64 < x.blocks.size := by rw [hx.size]; exact blockNum_lt hj
      rw [g3]
      dsimp only
      by_cases hjk : j + k < a.length
      · have : (j + k) / 64 < x.blocks.size := by rw [hx.size]; exact blockNum_lt hjk
        rw [if_neg (by omega), hb, decide_eq_true (by omega), Bool.true_and, hx.bits _ hjk]
      · rw [if_pos (by omega), get_ge (by omega)]

end DynamicBitSet
