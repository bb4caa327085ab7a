import Verif.Model.BinaryTrie
import Verif.Proof.WaveletMatrix2
import Mathlib.Data.List.Perm.Basic
import Mathlib.Data.List.Count

/-! # Proofs for `BinaryTrie` -/

namespace BinaryTrie
open Cxx

/-- The number of elements with prefix `p` above the lowest `k` bits. -/
def pre (S : List Nat) (k p : Nat) : Nat := S.countP fun v => decide (v >>> k = p)

/-- The tree represents the elements of the multiset `S` with prefix `p`. -/
def Rep (S : List Nat) : Nat → Nat → Node → Prop
  | k, p, .nul => pre S k p = 0
  | 0, p, .node s _ _ => s = pre S 0 p
  | k + 1, p, .node s c0 c1 => s = pre S (k + 1) p ∧ Rep S k (2 * p) c0 ∧ Rep S k (2 * p + 1) c1

theorem rep_nul {S : List Nat} {k p : Nat} : Rep S k p .nul ↔ pre S k p = 0 := by cases k <;> rfl

theorem shift_step (y j : Nat) : y >>> j = 2 * (y >>> (j + 1)) + (bit y j).toNat := WaveletMatrix.shift_step y j

theorem bit_xor (v x j : Nat) : bit (v ^^^ x) j = (bit v j ^^ bit x j) := WaveletMatrix.bit_xor v x j

theorem pre_split (S : List Nat) (k p : Nat) : pre S (k + 1) p = pre S k (2 * p) + pre S k (2 * p + 1) := by
  unfold pre
  induction S with
  | nil => rfl
  | cons v S ih =>
    rw [List.countP_cons, List.countP_cons, List.countP_cons, ih]
    have h := shift_step v k
    by_cases hp : v >>> (k + 1) = p
    · rw [hp] at h
      cases hb : bit v k <;> rw [hb] at h <;> simp [hp, h] <;> omega
    · have h1 : v >>> k ≠ 2 * p := by
        cases hb : bit v k <;> rw [hb] at h <;> simp at h <;> omega
      have h2 : v >>> k ≠ 2 * p + 1 := by
        cases hb : bit v k <;> rw [hb] at h <;> simp at h <;> omega
      simp [hp, h1, h2]

theorem pre_split' (S : List Nat) (k p : Nat) (b : Bool) : pre S (k + 1) p = pre S k (2 * p + b.toNat) + pre S k (2 * p + (!b).toNat) := by
  rw [pre_split]
  cases b <;> simp
  omega

theorem size_eq {S : List Nat} {k p : Nat} {t : Node} (h : Rep S k p t) : size t = pre S k p := by
  cases t with
  | nul => rw [rep_nul.1 h]; rfl
  | node s c0 c1 =>
    cases k with
    | zero => exact h
    | succ k => exact h.1

theorem rep_pick {S : List Nat} {k p : Nat} {s : Int} {c0 c1 : Node} (h : Rep S (k + 1) p (.node s c0 c1)) (b : Bool) : Rep S k (2 * p + b.toNat) (pick b c0 c1) := by
  cases b
  · exact h.2.1
  · exact h.2.2

theorem rep_put {S : List Nat} {k p : Nat} {s : Int} {c0 c1 c : Node} {b : Bool} (hs : s = pre S (k + 1) p) (h1 : Rep S k (2 * p + b.toNat) c) (h2 : Rep S k (2 * p + (!b).toNat) (pick (!b) c0 c1)) :
    Rep S (k + 1) p (put b s c0 c1 c) := by
  cases b
  · exact ⟨hs, h1, h2⟩
  · exact ⟨hs, h2, h1⟩

theorem pre_congr {S S' : List Nat} {k p : Nat} (h : ∀ v, v >>> k = p → S.count v = S'.count v) : pre S k p = pre S' k p := by
  unfold pre
  rw [List.countP_eq_length_filter, List.countP_eq_length_filter]
  refine List.Perm.length_eq ?_
  rw [List.perm_iff_count]
  intro v
  by_cases hv : v >>> k = p
  · rw [List.count_filter (by simpa using hv), List.count_filter (by simpa using hv), h v hv]
  · rw [List.count_eq_zero_of_not_mem (by simp [hv]), List.count_eq_zero_of_not_mem (by simp [hv])]

theorem rep_congr {S S' : List Nat} {k p : Nat} {t : Node} (h : ∀ v, v >>> k = p → S.count v = S'.count v) (ht : Rep S k p t) : Rep S' k p t := by
  induction k generalizing p t with
  | zero =>
    cases t with
    | nul =>
      rw [rep_nul] at *
      rw [← pre_congr h, ht]
    | node s c0 c1 =>
      show s = pre S' 0 p
      rw [← pre_congr h]
      exact ht
  | succ k ih =>
    have hb : ∀ b : Bool, ∀ v, v >>> k = 2 * p + b.toNat → S.count v = S'.count v := by
      intro b v hv
      refine h v ?_
      have := shift_step v k
      have h1 := Bool.toNat_lt b
      have h2 := Bool.toNat_lt (bit v k)
      omega
    cases t with
    | nul =>
      rw [rep_nul] at *
      rw [← pre_congr h, ht]
    | node s c0 c1 =>
      refine ⟨?_, ih (hb false) ht.2.1, ih (hb true) ht.2.2⟩
      rw [← pre_congr h]
      exact ht.1

/-- The multiset after `insert(val, num)`. -/
def insS (S : List Nat) (val num : Nat) : List Nat := List.replicate num val ++ S

/-- The multiset after `erase(val, num)`. -/
def eraS (S : List Nat) (val num : Nat) : List Nat := S.diff (List.replicate num val)

theorem count_insS (S : List Nat) (val num v : Nat) : (insS S val num).count v = (if v = val then num else 0) + S.count v := by
  rw [insS, List.count_append, List.count_replicate]
  by_cases h : v = val
  · rw [if_pos h, if_pos (by simpa using h.symm)]
  · rw [if_neg h, if_neg (by simpa using fun e => h e.symm)]

theorem count_eraS (S : List Nat) (val num v : Nat) : (eraS S val num).count v = S.count v - (if v = val then num else 0) := by
  rw [eraS, List.count_diff, List.count_replicate]
  by_cases h : v = val
  · rw [if_pos h, if_pos (by simpa using h.symm)]
  · rw [if_neg h, if_neg (by simpa using fun e => h e.symm)]

theorem pre_insS (S : List Nat) (val num k : Nat) : pre (insS S val num) k (val >>> k) = num + pre S k (val >>> k) := by
  rw [pre, insS, List.countP_append, List.countP_replicate]
  simp [pre]

theorem perm_eraS (S : List Nat) (val num : Nat) : S.Perm (List.replicate (min (S.count val) num) val ++ eraS S val num) := by
  rw [List.perm_iff_count]
  intro v
  rw [List.count_append, List.count_replicate, count_eraS]
  by_cases h : v = val
  · subst h
    simp
    omega
  · rw [if_neg (by simpa using fun e => h e.symm), if_neg h]
    omega

theorem pre_eraS (S : List Nat) (val num k : Nat) : pre S k (val >>> k) = min (S.count val) num + pre (eraS S val num) k (val >>> k) := by
  rw [pre, (perm_eraS S val num).countP_eq, List.countP_append, List.countP_replicate]
  simp [pre]

theorem rep_off {S S' : List Nat} {k p val : Nat} {t : Node} (h : ∀ v, v ≠ val → S.count v = S'.count v) (hp : val >>> k ≠ p) (ht : Rep S k p t) : Rep S' k p t := by
  refine rep_congr (fun v hv => h v ?_) ht
  rintro rfl
  exact hp hv

theorem pre_le (S : List Nat) (k p : Nat) : pre S k p ≤ S.length := List.countP_le_length

theorem pre_zero (S : List Nat) (v : Nat) : pre S 0 v = S.count v := by
  rw [pre, List.count]
  refine List.countP_congr fun u _ => ?_
  simp

theorem other_ne (val k : Nat) : val >>> k ≠ 2 * (val >>> (k + 1)) + (!bit val k).toNat := by
  have := shift_step val k
  cases hb : bit val k <;> rw [hb] at this <;> simp at * <;> omega

theorem rep_create {S : List Nat} {k p : Nat} {t : Node} (h : Rep S k p t) : Rep S k p (create t) ∧ create t ≠ .nul := by
  cases t with
  | nul =>
    rw [rep_nul] at h
    refine ⟨?_, by simp [create, empty]⟩
    rw [create, empty]
    cases k with
    | zero => exact (by rw [h]; rfl : (0 : Int) = (pre S 0 p : Nat))
    | succ k =>
      have := pre_split S k p
      refine ⟨by rw [h]; rfl, ?_, ?_⟩
      · rw [rep_nul]; omega
      · rw [rep_nul]; omega
  | node s a b => exact ⟨h, by simp [create]⟩

theorem ins_tot {S : List Nat} {val num : Nat} (hb : S.length + num < 2 ^ 31) : ∀ k t, t ≠ .nul → Rep S k (val >>> k) t →
    Tot (ins val num k t) fun r => r.1 ≠ .nul ∧ Rep (insS S val num) k (val >>> k) r.1 ∧ r.2 = ((insS S val num).count val : Nat) := by
  have hoff : ∀ v, v ≠ val → S.count v = (insS S val num).count v := by
    intro v hv
    rw [count_insS, if_neg hv, Nat.zero_add]
  intro k
  induction k with
  | zero =>
    intro t hne ht
    cases t with
    | nul => exact absurd rfl hne
    | node s c0 c1 =>
      have hs : s = pre S 0 (val >>> 0) := ht
      have hle := pre_le S 0 (val >>> 0)
      rw [ins, i32_ok ⟨by omega, by omega⟩, ok_bind]
      refine Tot.pure ⟨by simp, ?_, ?_⟩
      · show s + num = pre _ 0 _
        rw [pre_insS]
        push_cast
        omega
      · rw [← pre_zero]
        have := pre_insS S val num 0
        rw [Nat.shiftRight_zero] at *
        rw [this]
        push_cast
        omega
  | succ k ih =>
    intro t hne ht
    cases t with
    | nul => exact absurd rfl hne
    | node s c0 c1 =>
      have hs : s = pre S (k + 1) (val >>> (k + 1)) := ht.1
      have hle := pre_le S (k + 1) (val >>> (k + 1))
      rw [ins, i32_ok ⟨by omega, by omega⟩, ok_bind]
      have hc := rep_create (rep_pick ht (bit val k))
      rw [← shift_step] at hc
      refine Tot.bind (ih _ hc.2 hc.1) ?_
      rintro ⟨c, x⟩ ⟨h1, h2, h3⟩
      refine Tot.pure ⟨?_, ?_, h3⟩
      · unfold put
        split <;> simp
      · refine rep_put ?_ (by rw [← shift_step]; exact h2) (rep_off hoff (other_ne val k) (rep_pick ht _))
        rw [pre_insS]
        push_cast
        omega

theorem era_tot {S : List Nat} {val num : Nat} (hb : S.length < 2 ^ 31) : ∀ k t, t ≠ .nul → Rep S k (val >>> k) t →
    Tot (era val num k t) fun r => r.1 ≠ .nul ∧ Rep (eraS S val num) k (val >>> k) r.1 ∧ r.2 = (min (S.count val) num : Nat) := by
  have hoff : ∀ v, v ≠ val → S.count v = (eraS S val num).count v := by
    intro v hv
    rw [count_eraS, if_neg hv, Nat.sub_zero]
  intro k
  induction k with
  | zero =>
    intro t hne ht
    cases t with
    | nul => exact absurd rfl hne
    | node s c0 c1 =>
      have hs : s = pre S 0 (val >>> 0) := ht
      have he := pre_eraS S val num 0
      rw [Nat.shiftRight_zero, pre_zero] at *
      rw [era]
      refine Tot.pure ⟨by simp, ?_, ?_⟩
      · show s - min s num = pre _ 0 _
        omega
      · show min s num = _
        omega
  | succ k ih =>
    intro t hne ht
    cases t with
    | nul => exact absurd rfl hne
    | node s c0 c1 =>
      have hs : s = pre S (k + 1) (val >>> (k + 1)) := ht.1
      have he := pre_eraS S val num (k + 1)
      have hp := rep_pick ht (bit val k)
      rw [← shift_step] at hp
      rw [era, eraseChild]
      cases hc : pick (bit val k) c0 c1 with
      | nul =>
        rw [hc, rep_nul] at hp
        have hcnt : S.count val = 0 := by
          have : ∀ v ∈ S, ¬ v >>> k = val >>> k := by
            rw [pre, List.countP_eq_zero] at hp
            simpa using hp
          rw [List.count_eq_zero]
          intro hm
          exact this val hm rfl
        have hSS : ∀ v, S.count v = (eraS S val num).count v := by
          intro v
          rw [count_eraS]
          by_cases hv : v = val
          · rw [if_pos hv, hv]; omega
          · rw [if_neg hv]; omega
        refine Tot.pure ⟨by simp, rep_congr (fun v _ => hSS v) ht, ?_⟩
        show (0 : Int) = _
        omega
      | node q d0 d1 =>
        dsimp only
        rw [hc] at hp
        refine Tot.bind (ih _ (by simp) hp) ?_
        rintro ⟨c, x⟩ ⟨h1, h2, h3⟩
        have hother := rep_off hoff (other_ne val k) (rep_pick ht (!bit val k))
        have hsz1 := size_eq hother
        have hsz2 := size_eq h2
        dsimp only at hsz2
        have hsp := pre_split' (eraS S val num) k (val >>> (k + 1)) (bit val k)
        rw [← shift_step] at hsp
        have hle := pre_le S (k + 1) (val >>> (k + 1))
        dsimp only
        rw [i32_ok ⟨by omega, by omega⟩, ok_bind]
        refine Tot.pure ⟨?_, ?_, h3⟩
        · unfold put
          split <;> simp
        · refine rep_put (by omega) (by rw [← shift_step]; exact h2) hother

theorem descend_eq {S : List Nat} (val l : Nat) : ∀ i t, Rep S i (val >>> i) t → descend val l i t = pre S (min i l) (val >>> min i l) := by
  intro i
  induction i with
  | zero =>
    intro t ht
    rw [descend.eq_def]
    dsimp only
    rw [size_eq ht, Nat.zero_min]
  | succ i ih =>
    intro t ht
    rw [descend.eq_def]
    dsimp only
    by_cases hl : i + 1 > l
    · rw [if_pos hl]
      cases t with
      | nul =>
        rw [rep_nul] at ht
        show (0 : Int) = _
        rw [show min (i + 1) l = l by omega]
        rw [pre, List.countP_eq_zero] at ht
        have : pre S l (val >>> l) = 0 := by
          rw [pre, List.countP_eq_zero]
          intro v hv h
          refine ht v hv ?_
          rw [decide_eq_true_eq] at *
          obtain ⟨d, hd⟩ : ∃ d, i + 1 = l + d := ⟨i + 1 - l, by omega⟩
          rw [hd, Nat.shiftRight_add, Nat.shiftRight_add, h]
        rw [this]
        rfl
      | node s c0 c1 =>
        have hp := rep_pick ht (bit val i)
        rw [← shift_step] at hp
        show descend val l i _ = _
        rw [ih _ hp]
        rw [show min (i + 1) l = min i l by omega]
    · rw [if_neg hl, size_eq ht, show min (i + 1) l = i + 1 by omega]

theorem count_nil {S : List Nat} {q : Nat → Prop} [DecidablePred q] (h : ∀ v ∈ S, ¬ q v) : S.countP (fun v => decide (q v)) = 0 := by
  rw [List.countP_eq_zero]
  intro v hv
  simpa using h v hv

theorem xor_two (a a' : Nat) (c c' : Bool) : (2 * a + c.toNat) ^^^ (2 * a' + c'.toNat) = 2 * (a ^^^ a') + (c ^^ c').toNat := by
  apply Nat.eq_of_testBit_eq
  intro i
  rw [Nat.testBit_xor]
  cases i with
  | zero => cases c <;> cases c' <;> simp [Nat.testBit_zero] <;> omega
  | succ i =>
    rw [Nat.testBit_succ, Nat.testBit_succ, Nat.testBit_succ]
    have h : ∀ (a : Nat) (c : Bool), (2 * a + c.toNat) / 2 = a := by
      intro a c
      have := Bool.toNat_lt c
      omega
    rw [h, h, h, Nat.testBit_xor]

theorem xor_eq_iff {a b c : Nat} : a ^^^ c = b ^^^ c ↔ a = b := by
  constructor
  · intro h
    have := congrArg (· ^^^ c) h
    simpa [Nat.xor_assoc] using this
  · rintro rfl
    rfl

/-- The elements whose image becomes smaller at level `j`. -/
theorem lt_step (S : List Nat) (y j p : Nat) (b : Bool) :
    S.countP (fun v => decide ((v ^^^ y) >>> j < (2 * p + b.toNat) ^^^ (y >>> j))) =
    S.countP (fun v => decide ((v ^^^ y) >>> (j + 1) < p ^^^ (y >>> (j + 1)))) + if b = bit y j then 0 else pre S j (2 * p + (!b).toNat) := by
  have hy := shift_step y j
  generalize hY : y >>> (j + 1) = Y at hy
  unfold pre
  rw [hy, xor_two]
  induction S with
  | nil => simp
  | cons v S ih =>
    have hv := shift_step v j
    have hv2 : (v ^^^ y) >>> j = 2 * ((v >>> (j + 1)) ^^^ Y) + (bit v j ^^ bit y j).toNat := by rw [Nat.shiftRight_xor_distrib, hv, hy, xor_two]
    have hv3 : (v ^^^ y) >>> (j + 1) = (v >>> (j + 1)) ^^^ Y := by rw [Nat.shiftRight_xor_distrib, hY]
    have hi : v >>> (j + 1) = p ↔ (v >>> (j + 1)) ^^^ Y = p ^^^ Y := xor_eq_iff.symm
    rw [List.countP_cons, List.countP_cons, List.countP_cons, ih, hv2, hv3, hv]
    generalize v >>> (j + 1) ^^^ Y = V at *
    generalize v >>> (j + 1) = V' at *
    generalize p ^^^ Y = P at *
    have h1 : ∀ (b c : Bool), (2 * V' + b.toNat = 2 * p + c.toNat) ↔ V = P ∧ b = c := by
      intro b c
      rw [← hi]
      cases b <;> cases c <;> simp <;> omega
    simp only [h1, decide_eq_true_eq]
    rcases Nat.lt_trichotomy V P with h | h | h
    · have e1 : ∀ c d : Bool, 2 * V + c.toNat < 2 * P + d.toNat := by
        intro c d
        have := Bool.toNat_lt c
        omega
      simp only [e1, h, if_true, Nat.ne_of_lt h, false_and, if_false]
      split <;> omega
    · subst h
      cases b <;> cases bit v j <;> cases bit y j <;> simp
      all_goals omega
    · have e1 : ∀ c d : Bool, ¬ 2 * V + c.toNat < 2 * P + d.toNat := by
        intro c d
        have := Bool.toNat_lt d
        omega
      simp only [e1, Nat.not_lt_of_gt h, if_false, Nat.ne_of_gt h, false_and]
      split <;> omega

theorem shr_le {a b : Nat} (h : a ≤ b) (i : Nat) : a >>> i ≤ b >>> i := by
  rw [Nat.shiftRight_eq_div_pow, Nat.shiftRight_eq_div_pow]
  exact Nat.div_le_div_right h

theorem le_split (S : List Nat) (p y : Nat) : S.countP (fun u => decide (u ^^^ y ≤ p ^^^ y)) = S.countP (fun u => decide (u ^^^ y < p ^^^ y)) + pre S 0 p := by
  unfold pre
  induction S with
  | nil => rfl
  | cons v S ih =>
    rw [List.countP_cons, List.countP_cons, List.countP_cons, ih]
    have hi : v = p ↔ v ^^^ y = p ^^^ y := xor_eq_iff.symm
    simp only [Nat.shiftRight_zero, decide_eq_true_eq, hi]
    split <;> split <;> split <;> omega

/-- The loop of `unchecked_xor_kth_element`; `y` has the flipped bits of `x` for a maximum query. -/
theorem kthLoop_tot {S : List Nat} {mq : Bool} {x y : Nat} {k : Int} : ∀ (i p : Nat) (t : Node) (rest : Int), (∀ j, j < i → bit y j = (mq ^^ bit x j)) → Rep S i p t → 0 ≤ rest → rest < pre S i p →
    rest + (S.countP (fun v => decide ((v ^^^ y) >>> i < p ^^^ (y >>> i))) : Nat) = k →
    Tot (kthLoop mq x i t rest (p <<< i)) fun z => ∃ v ∈ S, z = x ^^^ v ∧ (S.countP (fun u => decide (u ^^^ y < v ^^^ y)) : Int) ≤ k ∧ k < (S.countP (fun u => decide (u ^^^ y ≤ v ^^^ y)) : Int) := by
  intro i
  induction i with
  | zero =>
    intro p t rest _ _ h1 h2 h3
    rw [kthLoop.eq_def]
    dsimp only
    refine Tot.pure ⟨p, ?_, by simp, ?_, ?_⟩
    · by_contra hp
      rw [pre_zero, List.count_eq_zero_of_not_mem hp] at h2
      omega
    · simp only [Nat.shiftRight_zero] at h3
      omega
    · simp only [Nat.shiftRight_zero] at h3
      have := le_split S p y
      omega
  | succ i ih =>
    intro p t rest hbit ht h1 h2 h3
    have hy := hbit i (by omega)
    cases t with
    | nul =>
      rw [rep_nul.1 ht] at h2
      omega
    | node s c0 c1 =>
      rw [kthLoop, ← hy]
      have hsz := size_eq (rep_pick ht (bit y i))
      have hsp := pre_split' S i p (bit y i)
      by_cases hc : size (pick (bit y i) c0 c1) ≤ rest
      · rw [if_pos hc, WaveletMatrix.or_shift]
        have hst := lt_step S y i p (!bit y i)
        rw [if_neg (by simp), Bool.not_not] at hst
        refine ih _ _ _ (fun j hj => hbit j (by omega)) (rep_pick ht _) (by omega) (by omega) ?_
        rw [hst]
        push_cast
        omega
      · rw [if_neg hc, WaveletMatrix.or_shift]
        have hst := lt_step S y i p (bit y i)
        rw [if_pos rfl] at hst
        refine ih _ _ _ (fun j hj => hbit j (by omega)) (rep_pick ht _) (by omega) (by omega) ?_
        rw [hst]
        omega

theorem countLoop_eq {S : List Nat} {x val : Nat} : ∀ (i : Nat) (t : Node) (res : Int), Rep S i ((x ^^^ val) >>> i) t →
    res = (S.countP (fun v => decide ((v ^^^ x) >>> i < val >>> i)) : Nat) → countLoop x val i t res = (S.countP (fun v => decide (v ^^^ x < val)) : Nat) := by
  intro i
  induction i with
  | zero =>
    intro t res _ h
    rw [countLoop.eq_def]
    simpa using h
  | succ i ih =>
    intro t res ht h
    have hval : ∀ j, ((x ^^^ val) >>> j) ^^^ (x >>> j) = val >>> j := by
      intro j
      rw [← Nat.shiftRight_xor_distrib, Nat.xor_comm x val, Nat.xor_assoc, Nat.xor_self, Nat.xor_zero]
    have hst := lt_step S x i ((x ^^^ val) >>> (i + 1)) (bit (x ^^^ val) i)
    rw [← shift_step, hval, hval] at hst
    cases t with
    | nul =>
      rw [countLoop.eq_def]
      dsimp only
      rw [rep_nul] at ht
      rw [h]
      congr 1
      refine List.countP_congr fun v hv => ?_
      simp only [decide_eq_true_eq]
      rw [pre, List.countP_eq_zero] at ht
      have hne := ht v hv
      rw [decide_eq_true_eq] at hne
      have hne2 : (v ^^^ x) >>> (i + 1) ≠ val >>> (i + 1) := by
        intro e
        apply hne
        rw [← hval] at e
        rw [Nat.shiftRight_xor_distrib] at e
        exact xor_eq_iff.1 e
      constructor
      · intro hl
        by_contra hc
        exact absurd (shr_le (show val ≤ v ^^^ x by omega) (i + 1)) (by omega)
      · intro hl
        have := shr_le (show v ^^^ x ≤ val by omega) (i + 1)
        omega
    | node s c0 c1 =>
      rw [countLoop]
      have hp := rep_pick ht (bit (x ^^^ val) i)
      rw [← shift_step] at hp
      refine ih _ _ hp ?_
      rw [hst]
      by_cases hb : bit x i ≠ bit (x ^^^ val) i
      · rw [if_pos hb, if_neg (fun e => hb e.symm), size_eq (rep_pick ht (bit x i)), h]
        have : (!bit (x ^^^ val) i) = bit x i := by
          cases h1 : bit x i <;> cases h2 : bit (x ^^^ val) i <;> simp_all
        rw [this]
        push_cast
        rfl
      · rw [if_neg hb, if_pos (by simpa using (not_not.1 hb).symm), h]
        rfl

end BinaryTrie
