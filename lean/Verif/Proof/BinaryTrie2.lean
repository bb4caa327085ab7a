import Verif.Proof.BinaryTrie
import Verif.Spec.BinaryTrie

/-! # Proofs for `BinaryTrie`: the calls -/

namespace BinaryTrie
open Cxx BinaryTrieSpec

/-- The trie represents the multiset. -/
structure Holds (w : Nat) (t : Node) (S : List Nat) : Prop where
  ne : t ≠ .nul
  rep : Rep S w 0 t
  lt : ∀ v ∈ S, v < 2 ^ w
  len : S.length < 2 ^ 31

theorem holds_empty (w : Nat) : Holds w empty [] := by
  refine ⟨by simp [empty], ?_, by simp, by simp⟩
  rw [empty]
  cases w with
  | zero => exact rfl
  | succ w => exact ⟨rfl, rep_nul.2 rfl, rep_nul.2 rfl⟩

theorem pick_last {L : List Nat} {z k : Nat} (h1 : L.countP (fun u => decide (u < z)) ≤ k) (h2 : k < L.countP (fun u => decide (u ≤ z))) {q : Nat → Bool}
    (hq : ∀ a b, a ≤ b → q b = true → q a = true) :
    (k + 1 = L.countP q → q z = true ∧ ∀ u ∈ L, q u = true → u ≤ z) ∧ (k = L.countP q → ¬ q z = true ∧ ∀ u ∈ L, ¬ q u = true → z ≤ u) := by
  constructor
  · intro hk
    constructor
    · by_contra hc
      have : L.countP q ≤ L.countP (fun u => decide (u < z)) := by
        refine List.countP_mono_left fun u _ hu => ?_
        rw [decide_eq_true_eq]
        by_contra hz
        exact hc (hq z u (by omega) hu)
      omega
    · intro u hu hqu
      by_contra hc
      have := WaveletMatrix.countP_lt (L := L) (p := fun u => decide (u ≤ z)) (q := q) (fun v hv => hq v u (by rw [decide_eq_true_eq] at hv; omega) hqu) hu hqu (by simpa using hc)
      omega
  · intro hk
    constructor
    · intro hc
      have : L.countP (fun u => decide (u ≤ z)) ≤ L.countP q := by
        refine List.countP_mono_left fun u _ hu => ?_
        rw [decide_eq_true_eq] at hu
        exact hq u z hu hc
      omega
    · intro u hu hqu
      by_contra hc
      have := WaveletMatrix.countP_lt (L := L) (p := q) (q := fun u => decide (u < z)) (fun v hv => by
        rw [decide_eq_true_eq]
        by_contra hz
        exact hqu (hq u v (by omega) hv)) hu (by simpa using hc) hqu
      omega

section
variable {w : Nat} {t : Node} {S : List Nat} (h : Holds w t S)
include h

theorem size_len : size t = S.length := by
  rw [size_eq h.rep, pre]
  congr 1
  rw [List.countP_eq_length]
  intro v hv
  rw [decide_eq_true_eq]
  exact WaveletMatrix.shift_top (h.lt v hv)

theorem prefixCount_eq {v : Nat} (hv : v < 2 ^ w) (l : Nat) : prefixCount w t v l = S.countP (fun u => decide (u / 2 ^ l = v / 2 ^ l)) := by
  have hr := h.rep
  rw [← WaveletMatrix.shift_top hv] at hr
  rw [prefixCount, descend_eq v l w t hr, pre]
  congr 1
  refine List.countP_congr fun u hu => ?_
  have hul := h.lt u hu
  simp only [decide_eq_true_eq, Nat.shiftRight_eq_div_pow]
  rcases Nat.le_total w l with hl | hl
  · rw [Nat.min_eq_left hl, Nat.div_eq_of_lt hul, Nat.div_eq_of_lt hv]
    have h2 := Nat.pow_le_pow_right (show 0 < 2 by omega) hl
    rw [Nat.div_eq_of_lt (by omega), Nat.div_eq_of_lt (by omega)]
  · rw [Nat.min_eq_right hl]

theorem count_eq {v : Nat} (hv : v < 2 ^ w) : count w t v = S.count v := by
  rw [count, prefixCount_eq h hv, List.count]
  congr 1
  refine List.countP_congr fun u _ => ?_
  simp

theorem countLt_eq {x v : Nat} (hx : x < 2 ^ w) (hv : v < 2 ^ w) : xorCountLt w t x v = (img S x).countP (fun u => decide (u < v)) := by
  have hxv : x ^^^ v < 2 ^ w := Nat.xor_lt_two_pow hx hv
  have hr := h.rep
  rw [← WaveletMatrix.shift_top hxv] at hr
  rw [xorCountLt, countLoop_eq w t 0 hr]
  · rw [img, List.countP_map]
    congr 1
    refine List.countP_congr fun u _ => ?_
    simp [Nat.xor_comm]
  · rw [WaveletMatrix.shift_top hv, count_nil]
    · rfl
    · intro u _
      exact Nat.not_lt_zero _

theorem kth_tot {mq : Bool} {x y : Nat} {k : Nat} (hy : ∀ j, j < w → bit y j = (mq ^^ bit x j)) (hk : k < S.length) :
    Tot (kth mq w t x k) fun z => ∃ v ∈ S, z = x ^^^ v ∧ S.countP (fun u => decide (u ^^^ y < v ^^^ y)) ≤ k ∧ k < S.countP (fun u => decide (u ^^^ y ≤ v ^^^ y)) := by
  have hsz := size_eq h.rep
  rw [size_len h] at hsz
  have hz : S.countP (fun v => decide ((v ^^^ y) >>> w < 0 ^^^ (y >>> w))) = 0 := by
    apply count_nil
    intro v hv
    rw [Nat.shiftRight_xor_distrib, WaveletMatrix.shift_top (h.lt v hv)]
    omega
  have := kthLoop_tot (S := S) (mq := mq) (x := x) (y := y) (k := k) w 0 t k hy h.rep (by omega) (by omega) (by rw [hz]; simp)
  rw [Nat.zero_shiftLeft] at this
  rw [kth]
  refine this.mono ?_
  rintro z ⟨v, h1, h2, h3, h4⟩
  exact ⟨v, h1, h2, by exact_mod_cast h3, by exact_mod_cast h4⟩

/-- The minimum query selects from the sorted image. -/
theorem kthMin_tot {x k : Nat} (hk : k < S.length) : Tot (kth false w t x k) fun z => z ∈ img S x ∧ (img S x).countP (fun u => decide (u < z)) ≤ k ∧ k < (img S x).countP (fun u => decide (u ≤ z)) := by
  refine (kth_tot h (mq := false) (x := x) (y := x) (k := k) (fun j _ => by simp) hk).mono ?_
  rintro z ⟨v, h1, rfl, h3, h4⟩
  refine ⟨List.mem_map_of_mem h1, ?_, ?_⟩
  · rw [img, List.countP_map]
    refine le_trans (le_of_eq ?_) h3
    refine List.countP_congr fun u _ => ?_
    simp [Nat.xor_comm]
  · rw [img, List.countP_map]
    refine lt_of_lt_of_le h4 (le_of_eq ?_)
    refine List.countP_congr fun u _ => ?_
    simp [Nat.xor_comm]

theorem xorKthMin_tot {x k : Nat} (hk : k < S.length) : Tot (xorKthMin w t x k) fun z => z ∈ img S x ∧ (img S x).countP (fun u => decide (u < z)) ≤ k ∧ k < (img S x).countP (fun u => decide (u ≤ z)) := by
  have hsz := size_len h
  rw [xorKthMin, show decide (0 ≤ (k : Int) ∧ (k : Int) < size t) = true by rw [decide_eq_true_eq]; omega, check_true, ok_bind]
  exact kthMin_tot h hk

end

theorem xor_ones {w A : Nat} (hA : A < 2 ^ w) : A ^^^ (2 ^ w - 1) = 2 ^ w - 1 - A := by
  have h1 : (BitVec.ofNat w A ^^^ BitVec.allOnes w).toNat = A ^^^ (2 ^ w - 1) := by
    rw [BitVec.toNat_xor, BitVec.toNat_ofNat, BitVec.toNat_allOnes, Nat.mod_eq_of_lt hA]
  rw [← h1, BitVec.xor_allOnes, BitVec.toNat_not, BitVec.toNat_ofNat, Nat.mod_eq_of_lt hA]

theorem bit_testBit (y j : Nat) : bit y j = y.testBit j := by
  rw [bit, Nat.testBit_eq_decide_div_mod_eq, Nat.shiftRight_eq_div_pow]
  rfl

theorem bit_ones {w j : Nat} (hj : j < w) (x : Nat) : bit (x ^^^ (2 ^ w - 1)) j = (true ^^ bit x j) := by
  rw [bit_xor, bit_testBit (2 ^ w - 1), Nat.testBit_two_pow_sub_one, decide_eq_true hj]
  cases bit x j <;> rfl

theorem countP_compl (L : List Nat) (p : Nat → Bool) : L.countP (fun u => !p u) + L.countP p = L.length := by
  induction L with
  | nil => rfl
  | cons u L ih =>
    rw [List.countP_cons, List.countP_cons, List.length_cons]
    cases p u <;> simp <;> omega

section
variable {w : Nat} {t : Node} {S : List Nat} (h : Holds w t S)
include h

theorem xorKthMax_tot {x k : Nat} (hx : x < 2 ^ w) (hk : k < S.length) : Tot (xorKthMax w t x k) fun z => z ∈ img S x ∧ (img S x).countP (fun u => decide (u < z)) ≤ S.length - 1 - k ∧
    S.length - 1 - k < (img S x).countP (fun u => decide (u ≤ z)) := by
  have hsz := size_len h
  rw [xorKthMax, show decide (0 ≤ (k : Int) ∧ (k : Int) < size t) = true by rw [decide_eq_true_eq]; omega, check_true, ok_bind]
  refine (kth_tot h (mq := true) (x := x) (y := x ^^^ (2 ^ w - 1)) (k := k) (fun j hj => bit_ones hj x) hk).mono ?_
  rintro z ⟨v, h1, rfl, h3, h4⟩
  refine ⟨List.mem_map_of_mem h1, ?_⟩
  have hb : ∀ u ∈ S, u ^^^ x < 2 ^ w := fun u hu => Nat.xor_lt_two_pow (h.lt u hu) hx
  have e1 : S.countP (fun u => decide (u ^^^ (x ^^^ (2 ^ w - 1)) < v ^^^ (x ^^^ (2 ^ w - 1)))) = (img S x).countP (fun u => decide (x ^^^ v < u)) := by
    rw [img, List.countP_map]
    refine List.countP_congr fun u hu => ?_
    have a1 := hb u hu
    have a2 := hb v h1
    simp only [decide_eq_true_eq, Function.comp]
    rw [← Nat.xor_assoc, ← Nat.xor_assoc, xor_ones a1, xor_ones a2, Nat.xor_comm x u, Nat.xor_comm x v]
    omega
  have e2 : S.countP (fun u => decide (u ^^^ (x ^^^ (2 ^ w - 1)) ≤ v ^^^ (x ^^^ (2 ^ w - 1)))) = (img S x).countP (fun u => decide (x ^^^ v ≤ u)) := by
    rw [img, List.countP_map]
    refine List.countP_congr fun u hu => ?_
    have a1 := hb u hu
    have a2 := hb v h1
    simp only [decide_eq_true_eq, Function.comp]
    rw [← Nat.xor_assoc, ← Nat.xor_assoc, xor_ones a1, xor_ones a2, Nat.xor_comm x u, Nat.xor_comm x v]
    omega
  rw [e1] at h3
  rw [e2] at h4
  have hl : (img S x).length = S.length := by simp [img]
  have c1 := countP_compl (img S x) (fun u => decide (x ^^^ v < u))
  have c2 := countP_compl (img S x) (fun u => decide (x ^^^ v ≤ u))
  have d1 : (fun u => !decide (x ^^^ v < u)) = fun u => decide (u ≤ x ^^^ v) := by
    funext u
    by_cases hu : x ^^^ v < u
    · simp [hu]
    · simp [hu, Nat.le_of_not_lt hu]
  have d2 : (fun u => !decide (x ^^^ v ≤ u)) = fun u => decide (u < x ^^^ v) := by
    funext u
    by_cases hu : x ^^^ v ≤ u
    · simp [hu]
    · simp [hu, Nat.lt_of_not_le hu]
  rw [d1] at c1
  rw [d2] at c2
  constructor
  · show (img S x).countP _ ≤ _
    omega
  · show _ < (img S x).countP _
    omega

theorem countLeq_eq {v : Nat} (hv : v < 2 ^ w) : xorCountLeq w t 0 v = .ok (S.countP (fun u => decide (u ≤ v)) : Int) := by
  have h0 := Nat.two_pow_pos w
  have e : S.countP (fun u => decide (u ≤ v)) = S.countP (fun u => decide (u < v)) + S.count v := by
    have := le_split S v 0
    rw [pre_zero] at this
    simpa using this
  have hle := List.countP_le_length (p := fun u => decide (u ≤ v)) (l := S)
  have hl := h.len
  rw [xorCountLeq, countLt_eq h h0 hv, count_eq h hv, show img S 0 = S by simp [img], i32_ok ⟨by omega, by omega⟩, e]
  push_cast
  rfl

theorem orLow_tot {x dflt : Nat} {q : Nat → Bool} (hq : ∀ a b, a ≤ b → q b = true → q a = true) {k : Int} (hk : k = ((img S x).countP q : Int) - 1) :
    Tot (kthOrLow w t x k dflt) fun o => Greatest (img S x) (fun u => q u = true) dflt (o : Int) := by
  have hle := List.countP_le_length (p := q) (l := img S x)
  rw [show (img S x).length = S.length by simp [img]] at hle
  rw [kthOrLow]
  by_cases hc : k < 0
  · rw [if_pos hc]
    refine Tot.pure (Or.inr ⟨rfl, ?_⟩)
    have : (img S x).countP q = 0 := by omega
    rw [List.countP_eq_zero] at this
    exact this
  · rw [if_neg hc]
    obtain ⟨n, rfl⟩ := Int.eq_ofNat_of_zero_le (show 0 ≤ k by omega)
    refine (kthMin_tot h (x := x) (k := n) (by omega)).mono ?_
    rintro z ⟨h1, h2, h3⟩
    obtain ⟨a, b⟩ := (pick_last h2 h3 hq).1 (by omega)
    exact Or.inl ⟨z, h1, a, rfl, b⟩

theorem orHigh_tot {x dflt : Nat} {q : Nat → Bool} (hq : ∀ a b, a ≤ b → q b = true → q a = true) {k : Int} (hk : k = ((img S x).countP q : Int)) :
    Tot (kthOrHigh w t x k dflt) fun o => Least (img S x) (fun u => ¬ q u = true) dflt (o : Int) := by
  have hle := List.countP_le_length (p := q) (l := img S x)
  have hl : (img S x).length = S.length := by simp [img]
  have hsz := size_len h
  rw [kthOrHigh]
  by_cases hc : k = size t
  · rw [if_pos hc]
    refine Tot.pure (Or.inr ⟨rfl, ?_⟩)
    have : (img S x).countP q = (img S x).length := by omega
    rw [List.countP_eq_length] at this
    intro v hv
    simpa using this v hv
  · rw [if_neg hc, hk]
    refine (kthMin_tot h (x := x) (k := (img S x).countP q) (by omega)).mono ?_
    rintro z ⟨h1, h2, h3⟩
    obtain ⟨a, b⟩ := (pick_last h2 h3 hq).2 rfl
    exact Or.inl ⟨z, h1, a, rfl, b⟩

theorem insert_tot {v num : Nat} (hv : v < 2 ^ w) (hn : S.length + num < 2 ^ 31) :
    Tot (insert w t v num) fun r => Holds w r.1 (insS S v num) ∧ r.2 = if num = 0 then 0 else ((insS S v num).count v : Int) := by
  rw [insert]
  by_cases hz : num = 0
  · subst hz
    rw [if_pos rfl]
    exact Tot.pure ⟨h, by simp⟩
  · rw [if_neg (by omega)]
    have hr := h.rep
    rw [← WaveletMatrix.shift_top hv] at hr
    refine (ins_tot hn w t h.ne hr).mono ?_
    rintro r ⟨h1, h2, h3⟩
    rw [WaveletMatrix.shift_top hv] at h2
    refine ⟨⟨h1, h2, ?_, ?_⟩, ?_⟩
    · intro u hu
      rcases List.mem_append.1 hu with hu | hu
      · rw [(List.mem_replicate.1 hu).2]
        exact hv
      · exact h.lt u hu
    · rw [insS, List.length_append, List.length_replicate]
      omega
    · rw [if_neg hz, h3]

theorem erase_tot {v num : Nat} (hv : v < 2 ^ w) : Tot (erase w t v num) fun r => Holds w r.1 (eraS S v num) ∧ r.2 = (min (S.count v) num : Nat) := by
  rw [erase]
  by_cases hz : num = 0
  · subst hz
    rw [if_pos (by rfl)]
    refine Tot.pure ⟨?_, by simp⟩
    simpa [eraS] using h
  · rw [if_neg (by omega)]
    have hr := h.rep
    rw [← WaveletMatrix.shift_top hv] at hr
    refine (era_tot h.len w t h.ne hr).mono ?_
    rintro r ⟨h1, h2, h3⟩
    rw [WaveletMatrix.shift_top hv] at h2
    have hp := (perm_eraS S v num)
    refine ⟨⟨h1, h2, ?_, ?_⟩, h3⟩
    · intro u hu
      exact h.lt u (hp.mem_iff.2 (List.mem_append_right _ hu))
    · have := hp.length_eq
      rw [List.length_append] at this
      have := h.len
      omega

theorem holds_perm {S' : List Nat} (hp : S.Perm S') : Holds w t S' := by
  refine ⟨h.ne, rep_congr (fun v _ => hp.count_eq v) h.rep, fun v hv => h.lt v (hp.mem_iff.2 hv), by rw [← hp.length_eq]; exact h.len⟩

theorem eraseAll_tot {v : Nat} (hv : v < 2 ^ w) : Tot (eraseAll w t v) fun r => Holds w r.1 (S.filter (· ≠ v)) ∧ r.2 = (S.count v : Nat) := by
  rw [eraseAll]
  have hle : S.count v ≤ S.length := List.count_le_length
  have hl := h.len
  refine (erase_tot h (num := 2 ^ 31 - 1) hv).mono ?_
  rintro r ⟨h1, h2⟩
  refine ⟨holds_perm h1 ?_, ?_⟩
  · rw [List.perm_iff_count]
    intro u
    rw [count_eraS]
    by_cases hu : u = v
    · subst hu
      rw [if_pos rfl, List.count_eq_zero_of_not_mem (l := S.filter _) (by simp)]
      omega
    · rw [if_neg hu, List.count_filter (by simpa using hu)]
      rfl
  · rw [h2]
    congr 1
    omega

end

end BinaryTrie
