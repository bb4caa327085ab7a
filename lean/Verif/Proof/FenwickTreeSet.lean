import Verif.Model.FenwickTreeSet
import Verif.Proof.Fenwick
import Verif.Proof.LazySegmentTree
import Mathlib.Data.Nat.Count
import Mathlib.Tactic.Ring

/-! # fenwick_tree_set: helper lemmas -/

namespace Word
open Cxx

theorem count_congr' {p q : Nat → Prop} [DecidablePred p] [DecidablePred q] {n : Nat} (h : ∀ i < n, (p i ↔ q i)) : Nat.count p n = Nat.count q n := by
  induction n with
  | zero => simp
  | succ n ih =>
    rw [Nat.count_succ, Nat.count_succ, ih fun i hi => h i (by omega)]
    simp only [h n (by omega)]

/-- Filtering a range: the `k`-th element. -/
theorem filter_range_get (p : Nat → Bool) (N : Nat) {k : Nat} (hk : k < Nat.count (fun i => p i = true) N) :
    ∃ i, ((List.range N).filter p)[k]? = some i ∧ p i = true ∧ i < N ∧ Nat.count (fun i => p i = true) i = k := by
  induction N with
  | zero => simp at hk
  | succ N ih =>
    have hlen : ((List.range N).filter p).length = Nat.count (fun i => p i = true) N := by
      rw [← List.countP_eq_length_filter, Nat.count]; simp
    rw [List.range_succ, List.filter_append]
    by_cases hk' : k < Nat.count (fun i => p i = true) N
    · obtain ⟨i, h1, h2, h3, h4⟩ := ih hk'
      refine ⟨i, ?_, h2, by omega, h4⟩
      rw [List.getElem?_append_left (by omega), h1]
    · rw [Nat.count_succ] at hk
      by_cases hp : p N = true
      · simp only [hp, if_true] at hk
        refine ⟨N, ?_, hp, by omega, by omega⟩
        rw [List.getElem?_append_right (by omega), hlen, show k - Nat.count (fun i => p i = true) N = 0 by omega]
        simp [hp]
      · rw [if_neg hp] at hk; omega

/-- The last element of a filtered range is the largest index. -/
theorem filter_range_last (p : Nat → Bool) (N : Nat) (h : ∃ i < N, p i = true) :
    ∃ i, ((List.range N).filter p).getLast? = some i ∧ p i = true ∧ i < N ∧ ∀ j < N, p j = true → j ≤ i := by
  induction N with
  | zero => obtain ⟨i, hi, -⟩ := h; omega
  | succ N ih =>
    rw [List.range_succ, List.filter_append]
    by_cases hp : p N = true
    · refine ⟨N, by simp [hp], hp, by omega, fun j hj _ => by omega⟩
    · obtain ⟨i, hi, hpi⟩ := h
      have : i ≠ N := by rintro rfl; exact hp hpi
      obtain ⟨i, h1, h2, h3, h4⟩ := ih ⟨i, by omega, hpi⟩
      refine ⟨i, by simp [hp, h1], h2, by omega, fun j hj hpj => ?_⟩
      have : j ≠ N := by rintro rfl; exact hp hpj
      exact h4 j (by omega) hpj

/-- The first element of a filtered range is the smallest index. -/
theorem filter_range_head (p : Nat → Bool) (N : Nat) (h : ∃ i < N, p i = true) :
    ∃ i, ((List.range N).filter p).head? = some i ∧ p i = true ∧ i < N ∧ ∀ j < N, p j = true → i ≤ j := by
  induction N with
  | zero => obtain ⟨i, hi, -⟩ := h; omega
  | succ N ih =>
    rw [List.range_succ, List.filter_append]
    by_cases hex : ∃ i < N, p i = true
    · obtain ⟨i, h1, h2, h3, h4⟩ := ih hex
      refine ⟨i, by rw [List.head?_append, h1]; rfl, h2, by omega, fun j hj hpj => ?_⟩
      rcases Nat.lt_or_ge j N with c | c
      · exact h4 j c hpj
      · omega
    · have hp : p N = true := by
        obtain ⟨i, hi, hpi⟩ := h
        have : i = N := by
          by_contra hne
          exact hex ⟨i, by omega, hpi⟩
        rw [← this]; exact hpi
      have hnil : (List.range N).filter p = [] := by
        rw [List.filter_eq_nil_iff]
        intro j hj hpj
        exact hex ⟨j, List.mem_range.1 hj, hpj⟩
      refine ⟨N, by rw [hnil]; simp [hp], hp, by omega, fun j hj hpj => ?_⟩
      by_contra hc
      exact hex ⟨j, by omega, hpj⟩

theorem popcount_eq (x : Nat) : popcount x = Nat.count (fun i => x.testBit i = true) 64 := by
  unfold popcount bits
  rw [← List.countP_eq_length_filter, Nat.count]; simp

theorem exists_bit {x : Nat} (h0 : x ≠ 0) (h : x < 2 ^ 64) : ∃ i < 64, x.testBit i = true := by
  obtain ⟨i, hi⟩ := Nat.exists_testBit_of_ne_zero h0
  refine ⟨i, ?_, hi⟩
  by_contra hc
  have := Nat.testBit_lt_two_pow (lt_of_lt_of_le h (Nat.pow_le_pow_right (by omega) (show 64 ≤ i by omega)))
  rw [this] at hi; simp at hi

theorem kthSetbit_eq {x k : Nat} (hk : k < popcount x) :
    ∃ i, kthSetbit x k = .ok i ∧ x.testBit i = true ∧ i < 64 ∧ Nat.count (fun i => x.testBit i = true) i = k := by
  rw [popcount_eq] at hk
  obtain ⟨i, h1, h2⟩ := filter_range_get (fun i => x.testBit i) 64 hk
  exact ⟨i, by unfold kthSetbit bits; rw [h1], h2⟩

theorem topSetbit_eq {x : Nat} (h0 : x ≠ 0) (h : x < 2 ^ 64) :
    ∃ i, topSetbit x = .ok i ∧ x.testBit i = true ∧ i < 64 ∧ ∀ j < 64, x.testBit j = true → j ≤ i := by
  obtain ⟨i, h1, h2⟩ := filter_range_last (fun i => x.testBit i) 64 (exists_bit h0 h)
  exact ⟨i, by unfold topSetbit bits; rw [h1], h2⟩

theorem ctzll_eq {x : Nat} (h0 : x ≠ 0) (h : x < 2 ^ 64) :
    ∃ i, ctzll x = .ok i ∧ x.testBit i = true ∧ i < 64 ∧ ∀ j < 64, x.testBit j = true → i ≤ j := by
  obtain ⟨i, h1, h2⟩ := filter_range_head (fun i => x.testBit i) 64 (exists_bit h0 h)
  exact ⟨i, by unfold ctzll bits; rw [h1], h2⟩

theorem maskLow_testBit (x : Nat) {u : Nat} (hu : u < 64) (i : Nat) : (shr (shl x (63 - u)) (63 - u)).testBit i = (decide (i ≤ u) && x.testBit i) := by
  unfold shr shl
  rw [Nat.testBit_div_two_pow, Nat.testBit_mod_two_pow, Nat.testBit_mul_two_pow]
  rw [show i + (63 - u) - (63 - u) = i by omega]
  by_cases h : i ≤ u
  · simp [h, show i + (63 - u) < 64 by omega]
  · simp [h, show ¬ i + (63 - u) < 64 by omega]

theorem maskHigh_testBit (x : Nat) {u : Nat} (i : Nat) (hi : i < 64) : (shl (shr x u) u).testBit i = (decide (u ≤ i) && x.testBit i) := by
  unfold shr shl
  rw [Nat.testBit_mod_two_pow, Nat.testBit_mul_two_pow, Nat.testBit_div_two_pow]
  by_cases h : u ≤ i
  · simp [h, hi]
  · simp [h]

theorem shl_lt (x u : Nat) : shl x u < 2 ^ 64 := Nat.mod_lt _ (by norm_num)

theorem shr_lt {x u : Nat} (h : x < 2 ^ 64) : shr x u < 2 ^ 64 := lt_of_le_of_lt (Nat.div_le_self _ _) h

theorem shl6_or {t u : Nat} (hu : u < 64) : t <<< 6 ||| u = 64 * t + u := by
  rw [← Nat.shiftLeft_add_eq_or_of_lt (show u < 2 ^ 6 by omega), Nat.shiftLeft_eq]; omega

theorem popcount_low (x : Nat) {u : Nat} (hu : u ≤ 64) : popcount (x &&& (1 <<< u - 1)) = Nat.count (fun i => x.testBit i = true) u := by
  rw [popcount_eq, Nat.one_shiftLeft, Nat.and_two_pow_sub_one_eq_mod]
  obtain ⟨k, hk⟩ : ∃ k, 64 = u + k := ⟨64 - u, by omega⟩
  rw [hk, Nat.count_add]
  have h2 : Nat.count (fun i => (x % 2 ^ u).testBit (u + i) = true) k = 0 := by
    rw [Nat.count_iff_forall_not]
    intro m _
    rw [Nat.testBit_mod_two_pow]; simp
  rw [h2, Nat.add_zero]
  exact count_congr' fun i hi => by rw [Nat.testBit_mod_two_pow]; simp [hi]

end Word

namespace FenwickTreeSet
open Cxx Word

/-- Number of elements below `v`. -/
def cnt (S : Finset Nat) (v : Nat) : Nat := Nat.count (· ∈ S) v

theorem cnt_eq (S : Finset Nat) (v : Nat) : cnt S v = (S.filter (· < v)).card := by
  unfold cnt
  rw [Nat.count_eq_card_filter_range]
  congr 1
  ext x
  simp [and_comm]

theorem cnt_mono (S : Finset Nat) {a b : Nat} (h : a ≤ b) : cnt S a ≤ cnt S b := Nat.count_monotone _ h

theorem cnt_succ (S : Finset Nat) {a : Nat} (h : a ∈ S) : cnt S (a + 1) = cnt S a + 1 := Nat.count_succ_eq_succ_count_iff.2 h

/-- Word `t`. -/
def W (s : State) (t : Nat) : Nat := at' 0 s.bs t

/-- Representation invariant. -/
structure Inv (n : Nat) (s : State) (S : Finset Nat) : Prop where
  hn : s.n = n
  wn : n ≤ 64 * s.wn
  wn0 : 0 < s.wn
  lg : s.lg = Nat.log2 s.wn
  bsz : s.bs.size = s.wn
  lt : ∀ t, W s t < 2 ^ 64
  mem : ∀ v, v ∈ S ↔ (W s (v / 64)).testBit (v % 64) = true
  sub : ∀ v ∈ S, v < n
  rep : Fenwick.Rep 0 s.wn (fun t => (popcount (W s t) : Int)) s.d
  siz : s.siz = S.card

theorem cnt_word {s : State} {S : Finset Nat} (hm : ∀ v, v ∈ S ↔ (W s (v / 64)).testBit (v % 64) = true) (t : Nat) {u : Nat} (hu : u ≤ 64) :
    cnt S (64 * t + u) = cnt S (64 * t) + Nat.count (fun i => (W s t).testBit i = true) u := by
  unfold cnt
  rw [Nat.count_add]
  congr 1
  refine count_congr' fun i hi => ?_
  rw [hm, show (64 * t + i) / 64 = t by omega, show (64 * t + i) % 64 = i by omega]

theorem sum_words {s : State} {S : Finset Nat} (hm : ∀ v, v ∈ S ↔ (W s (v / 64)).testBit (v % 64) = true) (t : Nat) :
    ∑ i ∈ Finset.range t, (popcount (W s i) : Int) = cnt S (64 * t) := by
  induction t with
  | zero => simp [cnt]
  | succ t ih =>
    rw [Finset.sum_range_succ, ih, popcount_eq, show 64 * (t + 1) = 64 * t + 64 by ring, cnt_word hm t le_rfl]
    push_cast; rfl

theorem cnt_card {n : Nat} {S : Finset Nat} (hs : ∀ v ∈ S, v < n) {v : Nat} (h : n ≤ v) : cnt S v = S.card := by
  rw [cnt_eq, Finset.filter_true_of_mem]
  intro x hx
  exact lt_of_lt_of_le (hs x hx) h

theorem rdW {n : Nat} {s : State} {S : Finset Nat} (h : Inv n s S) {t : Nat} (ht : t < s.wn) : rd s.bs t = .ok (W s t) :=
  rd_at 0 (by rw [h.bsz]; exact ht)

theorem contains_eq {n : Nat} {s : State} {S : Finset Nat} (h : Inv n s S) (v : Int) : contains s v = .ok (decide (0 ≤ v ∧ v.toNat ∈ S)) := by
  unfold contains
  have hwn := h.wn
  rw [h.hn]
  split
  next c =>
    rw [rdW h (by omega), ok_bind, pure_eq]
    congr 1
    rw [Bool.eq_iff_iff, decide_eq_true_iff, h.mem]
    simp [c.1]
  next c =>
    rw [pure_eq]
    congr 1
    symm
    rw [decide_eq_false_iff_not]
    rintro ⟨h1, h2⟩
    have := h.sub _ h2
    omega

theorem countLt_eq {n : Nat} {s : State} {S : Finset Nat} (h : Inv n s S) (v : Int) : countLt s v = .ok (cnt S v.toNat : Int) := by
  unfold countLt
  have hwn := h.wn
  rw [h.hn]
  split
  next c =>
    rw [pure_eq, show v.toNat = 0 by omega]
    simp [cnt]
  next c =>
    split
    next c2 => rw [pure_eq, h.siz, cnt_card h.sub (show n ≤ v.toNat by omega)]
    next c2 =>
      rw [rdW h (by omega), ok_bind, Fenwick.sumLoop_tot h.rep _ (by omega), sum_words h.mem, popcount_low _ (by omega)]
      congr 1
      have := cnt_word h.mem (v.toNat / 64) (u := v.toNat % 64) (by omega)
      rw [show 64 * (v.toNat / 64) + v.toNat % 64 = v.toNat by omega] at this
      rw [this]
      push_cast
      ring

/-- The Fenwick descent finds the word that contains the `k`-th element. -/
theorem kthElement_eq {n : Nat} {s : State} {S : Finset Nat} (h : Inv n s S) (k : Int) :
    Tot (kthElement s k) fun o => (¬ (0 ≤ k ∧ k < S.card) ∧ o = -1) ∨ ((0 ≤ k ∧ k < S.card) ∧ ∃ x ∈ S, o = (x : Int) ∧ (cnt S x : Int) = k) := by
  unfold kthElement
  rw [h.siz]
  split
  case isFalse c => exact Tot.pure (Or.inl ⟨c, rfl⟩)
  case isTrue c =>
    have hwn0 := h.wn0
    have hlg1 : 2 ^ s.lg ≤ s.wn := by rw [h.lg]; exact Nat.log2_self_le (by omega)
    have hlg2 : s.wn < 2 * 2 ^ s.lg := by rw [h.lg, ← pow_succ']; exact Nat.lt_log2_self
    -- prefix sums over words
    obtain ⟨f, hf⟩ : ∃ f : Nat → Int, f = fun b => (cnt S (64 * b) : Int) := ⟨_, rfl⟩
    have hfm : ∀ a b, a ≤ b → f a ≤ f b := fun a b hab => by
      rw [hf]; dsimp only; exact_mod_cast cnt_mono S (Nat.mul_le_mul_left 64 hab)
    have hfw : f s.wn = S.card := by
      rw [hf]; dsimp only; rw [cnt_card h.sub h.wn]
    -- a node
    have hnode : ∀ c i, (2 * c + 1) * 2 ^ i ≤ s.wn → rd s.d ((2 * c + 1) * 2 ^ i) = .ok (f ((2 * c + 1) * 2 ^ i) - f (2 * c * 2 ^ i)) := by
      intro c i hle
      have hp := SegTree.pow_pos' i
      have := h.rep.2 ((2 * c + 1) * 2 ^ i) (Nat.mul_pos (by omega) hp) hle
      rw [Nat.sub_zero] at this
      rw [rd_some this]
      congr 1
      unfold Fenwick.node
      rw [SegTree.lowbit_mul_pow, show (2 * c + 1) * 2 ^ i - 2 ^ i = 2 * c * 2 ^ i by
        rw [show (2 * c + 1) * 2 ^ i = 2 * c * 2 ^ i + 2 ^ i by ring]; omega]
      rw [Finset.sum_Ico_eq_sub _ (Nat.mul_le_mul_right _ (by omega)), sum_words h.mem, sum_words h.mem, hf]
    have hnext : ∀ c i k', ∃ nk, nextK s ((2 * c + 1) * 2 ^ i) k' = .ok nk ∧
        (((2 * c + 1) * 2 ^ i ≤ s.wn ∧ nk = k' - (f ((2 * c + 1) * 2 ^ i) - f (2 * c * 2 ^ i))) ∨ (s.wn < (2 * c + 1) * 2 ^ i ∧ nk = -1)) := by
      intro c i k'
      unfold nextK
      split
      next hle => exact ⟨_, by rw [hnode c i hle, ok_bind]; rfl, Or.inl ⟨hle, rfl⟩⟩
      next hle => exact ⟨-1, rfl, Or.inr ⟨by omega, rfl⟩⟩
    have hloop : Tot (loop (kthStep s) (2 ^ s.lg) (2 ^ s.lg, k, 2 ^ s.lg / 2)) fun q => ∃ c : Nat, q.1 = 2 * c + 1 ∧
        q.2.1 = k - f (2 * c) ∧ 0 ≤ q.2.1 ∧ k < f (min (2 * c + 2) s.wn) := by
      refine Tot.loop (P := fun (q : Nat × Int × Nat) => ∃ c i : Nat, q.1 = (2 * c + 1) * 2 ^ i ∧ q.2.2 = 2 ^ i / 2 ∧
        q.2.1 = k - f (2 * c * 2 ^ i) ∧ 0 ≤ q.2.1 ∧ k < f (min ((2 * c + 2) * 2 ^ i) s.wn)) (fun q => q.2.2) ?_ ?_ (by om)
      · rintro ⟨t, k', p⟩ ⟨c', i, h1, h2, h3, h4, h5⟩
        dsimp only at h1 h2 h3 h4 h5
        unfold kthStep
        dsimp only
        cases i with
        | zero =>
          rw [if_pos (by rw [h2]; rfl)]
          refine Tot.pure ⟨c', ?_, ?_, h4, ?_⟩
          · simpa using h1
          · simpa using h3
          · simpa using h5
        | succ i =>
          have hp := SegTree.pow_pos' i
          have hp2 : p = 2 ^ i := by rw [h2, pow_succ]; omega
          rw [if_neg (by omega)]
          obtain ⟨nk, e, hnk⟩ := hnext c' (i + 1) k'
          rw [h1, e, ok_bind]
          split
          next hge =>
            rcases hnk with ⟨hle, hnk⟩ | ⟨_, hnk⟩
            · refine Tot.pure ⟨⟨2 * c' + 1, i, ?_, by rw [hp2], ?_, by om, ?_⟩, by om⟩
              · dsimp only; rw [hp2]; ring
              · dsimp only
                rw [hnk, h3, show 2 * (2 * c' + 1) * 2 ^ i = (2 * c' + 1) * 2 ^ (i + 1) by ring]
                ring
              · skip
                rw [show (2 * (2 * c' + 1) + 2) * 2 ^ i = (2 * c' + 2) * 2 ^ (i + 1) by ring]
                exact h5
            · omega
          next hge =>
            refine Tot.pure ⟨⟨2 * c', i, ?_, by rw [hp2], ?_, by om, ?_⟩, by om⟩
            · dsimp only
              rw [hp2, show (2 * c' + 1) * 2 ^ (i + 1) = (2 * (2 * c') + 1) * 2 ^ i + 2 ^ i by ring]; omega
            · dsimp only
              rw [h3, show 2 * (2 * c') * 2 ^ i = 2 * c' * 2 ^ (i + 1) by ring]
            · skip
              rw [show (2 * (2 * c') + 2) * 2 ^ i = (2 * c' + 1) * 2 ^ (i + 1) by ring]
              rcases hnk with ⟨hle, hnk⟩ | ⟨hlt, _⟩
              · rw [min_eq_left hle]; omega
              · rw [min_eq_right hlt.le, hfw]; exact c.2
      · refine ⟨0, s.lg, by simp, rfl, ?_, c.1, ?_⟩
        · simp [hf, cnt]
        · rw [min_eq_right (by omega), hfw]; exact c.2
    refine Tot.bind hloop ?_
    rintro ⟨t, k', p⟩ ⟨c', h1, h3, h4, h5⟩
    dsimp only at h1 h3 h4 h5 ⊢
    obtain ⟨nk, e, hnk⟩ := hnext c' 0 k'
    rw [pow_zero, Nat.mul_one] at e
    rw [pow_zero, Nat.mul_one, Nat.mul_one] at hnk
    rw [h1, e, ok_bind]
    -- the word found
    have key : ∀ t' k'', t' < s.wn → k'' = k - f t' → 0 ≤ k'' → k < f (t' + 1) →
        Tot (do
          let b ← rd s.bs t'
          let u ← kthSetbit b k''.toNat
          return ((t' <<< 6 ||| u : Nat) : Int)) fun o => (¬ (0 ≤ k ∧ k < S.card) ∧ o = -1) ∨ ((0 ≤ k ∧ k < S.card) ∧ ∃ x ∈ S, o = (x : Int) ∧ (cnt S x : Int) = k) := by
      intro t' k'' ht hk hk0 hk1
      rw [rdW h ht, ok_bind]
      have hc := cnt_word h.mem t' (u := 64) le_rfl
      rw [← popcount_eq] at hc
      have hk2 : k''.toNat < popcount (W s t') := by
        rw [hf] at hk hk1
        dsimp only at hk hk1
        rw [show 64 * (t' + 1) = 64 * t' + 64 by ring, hc] at hk1
        push_cast at hk1
        omega
      obtain ⟨i, e1, e2, e3, e4⟩ := kthSetbit_eq hk2
      rw [e1, ok_bind]
      refine Tot.pure (Or.inr ⟨c, 64 * t' + i, ?_, by rw [shl6_or e3], ?_⟩)
      · rw [h.mem, show (64 * t' + i) / 64 = t' by omega, show (64 * t' + i) % 64 = i by omega]; exact e2
      · rw [cnt_word h.mem t' (by omega), e4]
        rw [hf] at hk
        push_cast
        dsimp only at hk
        omega
    split
    next hge =>
      rcases hnk with ⟨hle, hnk⟩ | ⟨_, hnk⟩
      · dsimp only
        rw [show 2 * c' + 1 + 1 - 1 = 2 * c' + 1 by omega]
        have hlt : 2 * c' + 1 < s.wn := by
          by_contra hc
          rw [min_eq_right (by omega)] at h5
          have := hfm s.wn (2 * c' + 1) (by omega)
          omega
        refine key _ _ hlt (by omega) hge ?_
        rw [min_eq_left (by omega)] at h5
        exact h5
      · omega
    next hge =>
      dsimp only
      rw [show 2 * c' + 1 - 1 = 2 * c' by omega]
      have hlt : 2 * c' < s.wn := by
        by_contra hc
        rw [min_eq_right (by omega)] at h5
        have := hfm s.wn (2 * c') (by omega)
        omega
      refine key _ _ hlt h3 h4 ?_
      rcases hnk with ⟨hle, hnk⟩ | ⟨hlt', hnk⟩
      · omega
      · omega

/-! ### insert and erase -/

theorem popcount_or {b u : Nat} (hu : u < 64) (h : b.testBit u = false) : popcount (b ||| 1 <<< u) = popcount b + 1 := by
  rw [popcount_eq, popcount_eq, Nat.count_eq_card_filter_range, Nat.count_eq_card_filter_range]
  rw [show (Finset.range 64).filter (fun i => (b ||| 1 <<< u).testBit i = true) = Insert.insert u ((Finset.range 64).filter fun i => b.testBit i = true) by
    ext i
    simp only [Finset.mem_filter, Finset.mem_range, Finset.mem_insert, Nat.testBit_or, Nat.one_shiftLeft, Nat.testBit_two_pow, Bool.or_eq_true, decide_eq_true_iff]
    constructor
    · rintro ⟨h1, h2 | h2⟩
      · exact Or.inr ⟨h1, h2⟩
      · exact Or.inl h2.symm
    · rintro (rfl | h2)
      · exact ⟨hu, Or.inr rfl⟩
      · exact ⟨h2.1, Or.inl h2.2⟩]
  rw [Finset.card_insert_of_notMem]
  simp [h]

theorem testBit_clear (b u i : Nat) (hi : i < 64) : (b &&& ((2 ^ 64 - 1) ^^^ (1 <<< u))).testBit i = (b.testBit i && decide (i ≠ u)) := by
  rw [Nat.testBit_and, Nat.testBit_xor, Nat.testBit_two_pow_sub_one, Nat.one_shiftLeft, Nat.testBit_two_pow]
  by_cases h : u = i
  · subst h; simp [hi]
  · simp [h, hi, Ne.symm h]

theorem popcount_clear {b u : Nat} (hu : u < 64) (h : b.testBit u = true) : popcount (b &&& ((2 ^ 64 - 1) ^^^ (1 <<< u))) + 1 = popcount b := by
  rw [popcount_eq, popcount_eq, Nat.count_eq_card_filter_range, Nat.count_eq_card_filter_range]
  rw [show (Finset.range 64).filter (fun i => b.testBit i = true) = Insert.insert u ((Finset.range 64).filter fun i => (b &&& ((2 ^ 64 - 1) ^^^ (1 <<< u))).testBit i = true) by
    ext i
    simp only [Finset.mem_filter, Finset.mem_range, Finset.mem_insert]
    constructor
    · rintro ⟨h1, h2⟩
      by_cases e : i = u
      · exact Or.inl e
      · exact Or.inr ⟨h1, by rw [testBit_clear _ _ _ h1]; simp [h2, e]⟩
    · rintro (rfl | h2)
      · exact ⟨hu, h⟩
      · rw [testBit_clear _ _ _ h2.1] at h2; simp at h2; exact ⟨h2.1, h2.2.1⟩]
  rw [Finset.card_insert_of_notMem]
  rw [Finset.mem_filter, testBit_clear _ _ _ hu]
  simp

/-- Change of one bit, with the matching change of the Fenwick tree. -/
theorem setWord {n : Nat} {s : State} {S S' : Finset Nat} (h : Inv n s S) {v x : Nat} (hv : v < n) {k : Int} {d : Array Int}
    (hd : Fenwick.Rep 0 s.wn (fun t => (popcount (W s t) : Int) + if t = v / 64 then k else 0) d)
    (hx : x < 2 ^ 64) (hxb : ∀ i < 64, i ≠ v % 64 → x.testBit i = (W s (v / 64)).testBit i) (hxv : x.testBit (v % 64) = true ↔ v ∈ S')
    (hpc : (popcount x : Int) = popcount (W s (v / 64)) + k) (hS : ∀ y, y ≠ v → (y ∈ S' ↔ y ∈ S)) (hcard : (S'.card : Int) = S.card + k) :
    Inv n { s with siz := s.siz + k, d := d, bs := s.bs.setIfInBounds (v / 64) x } S' := by
  have hwn := h.wn
  have hsz : v / 64 < s.bs.size := by rw [h.bsz]; omega
  have hW : ∀ t, W { s with siz := s.siz + k, d := d, bs := s.bs.setIfInBounds (v / 64) x } t = if v / 64 = t then x else W s t := by
    intro t
    unfold W
    exact at_set 0 hsz _ _
  refine ⟨h.hn, h.wn, h.wn0, h.lg, by simpa using h.bsz, fun t => ?_, fun y => ?_, fun y hy => ?_, ?_, ?_⟩
  · rw [hW]; split; exacts [hx, h.lt t]
  · rw [hW]
    by_cases e : y = v
    · subst e; rw [if_pos rfl, hxv]
    · rw [hS y e, h.mem]
      split
      next c =>
        rw [← c, hxb _ (by omega) (by omega)]
      next c => rfl
  · by_cases e : y = v
    · rw [e]; exact hv
    · exact h.sub y ((hS y e).1 hy)
  · refine ⟨hd.1, fun j h1 h2 => ?_⟩
    rw [hd.2 j h1 h2]
    congr 2
    funext t
    rw [hW]
    by_cases e : t = v / 64
    · subst e; rw [if_pos rfl, if_pos rfl, hpc]
    · rw [if_neg e, if_neg (Ne.symm e), add_zero]
  · show s.siz + k = _
    rw [h.siz, hcard]

theorem add_tot {n : Nat} {s : State} {S : Finset Nat} (h : Inv n s S) {v : Nat} (hv : v < n) (k : Int) :
    Tot (add s k v) fun s' => ∃ d, s' = { s with siz := s.siz + k, d := d } ∧
      Fenwick.Rep 0 s.wn (fun t => (popcount (W s t) : Int) + if t = v / 64 then k else 0) d := by
  unfold add
  rw [decide_eq_true (show 0 ≤ (v : Int) ∧ (v : Int) < s.n by rw [h.hn]; omega), check_true, ok_bind]
  have := Fenwick.addLoop_tot (by omega) h.rep (v / 64) k
  rw [Int.toNat_natCast]
  exact Tot.bind this fun d hd => Tot.pure ⟨d, rfl, hd⟩

theorem insert_tot {n : Nat} {s : State} {S : Finset Nat} (h : Inv n s S) {v : Nat} (hv : v < n) :
    Tot (insert s v) fun r => Inv n r.1 (Insert.insert v S) ∧ r.2 = decide (v ∉ S) := by
  unfold insert
  rw [contains_eq h, ok_bind]
  have hwn := h.wn
  by_cases c : v ∈ S
  · rw [if_pos (by simpa using c)]
    refine Tot.pure ⟨?_, by simp [c]⟩
    rw [Finset.insert_eq_self.2 c]; exact h
  · rw [if_neg (by simpa using c)]
    refine Tot.bind (add_tot h hv 1) ?_
    rintro s' ⟨d, rfl, hd⟩
    dsimp only
    rw [Int.toNat_natCast, rdW h (by omega), ok_bind, wr_eq (by rw [h.bsz]; omega), ok_bind]
    have hb : (W s (v / 64)).testBit (v % 64) = false := by
      rw [← Bool.not_eq_true, ← h.mem]; exact c
    refine Tot.pure ⟨?_, by simp [c]⟩
    refine setWord h hv hd ?_ ?_ ?_ ?_ ?_ ?_
    · refine Nat.or_lt_two_pow (h.lt _) ?_
      rw [Nat.one_shiftLeft]
      exact Nat.pow_lt_pow_right (by omega) (by omega)
    · intro i _ hi
      rw [Nat.testBit_or, Nat.one_shiftLeft, Nat.testBit_two_pow]
      simp [Ne.symm hi]
    · rw [Nat.testBit_or, Nat.one_shiftLeft, Nat.testBit_two_pow]
      simp
    · rw [popcount_or (by omega) hb]; push_cast; rfl
    · intro y hy; simp [hy]
    · rw [Finset.card_insert_of_notMem c]; push_cast; rfl

theorem erase_tot {n : Nat} {s : State} {S : Finset Nat} (h : Inv n s S) (v : Int) :
    Tot (erase s v) fun r => Inv n r.1 (if 0 ≤ v then S.erase v.toNat else S) ∧ r.2 = decide (0 ≤ v ∧ v.toNat ∈ S) := by
  unfold erase
  rw [contains_eq h, ok_bind]
  have hwn := h.wn
  by_cases c : 0 ≤ v ∧ v.toNat ∈ S
  · rw [if_pos (by simpa using c), if_pos c.1]
    have hv := h.sub _ c.2
    obtain ⟨w, rfl⟩ : ∃ w : Nat, v = w := ⟨v.toNat, by omega⟩
    rw [Int.toNat_natCast] at *
    refine Tot.bind (add_tot h hv (-1)) ?_
    rintro s' ⟨d, rfl, hd⟩
    dsimp only
    rw [rdW h (by omega), ok_bind, wr_eq (by rw [h.bsz]; omega), ok_bind]
    have hb : (W s (w / 64)).testBit (w % 64) = true := (h.mem w).1 c.2
    refine Tot.pure ⟨?_, by simp [c.2]⟩
    refine setWord h hv hd ?_ ?_ ?_ ?_ ?_ ?_
    · exact lt_of_le_of_lt Nat.and_le_left (h.lt _)
    · intro i hi hi'
      rw [testBit_clear _ _ _ hi]
      simp [hi']
    · rw [testBit_clear _ _ _ (by omega)]
      simp
    · have := popcount_clear (show w % 64 < 64 by omega) hb
      omega
    · intro y hy; simp [hy]
    · have := Finset.card_erase_add_one c.2
      omega
  · rw [if_neg (by simpa using c)]
    refine Tot.pure ⟨?_, by simp only; rw [decide_eq_false c]⟩
    split
    next h0 =>
      rw [Finset.erase_eq_of_notMem (fun hm => c ⟨h0, hm⟩)]; exact h
    next => exact h

/-! ### Neighbours -/

/-- The largest element `≤ v`, or -1. -/
def MaxLe (S : Finset Nat) (v o : Int) : Prop :=
  (o = -1 ∧ ∀ x ∈ S, v < (x : Int)) ∨ ∃ x ∈ S, o = (x : Int) ∧ (x : Int) ≤ v ∧ ∀ y ∈ S, (y : Int) ≤ v → y ≤ x

/-- The smallest element `≥ v`, or -1. -/
def MinGe (S : Finset Nat) (v o : Int) : Prop :=
  (o = -1 ∧ ∀ x ∈ S, (x : Int) < v) ∨ ∃ x ∈ S, o = (x : Int) ∧ v ≤ (x : Int) ∧ ∀ y ∈ S, v ≤ (y : Int) → x ≤ y

theorem mem_word {n : Nat} {s : State} {S : Finset Nat} (h : Inv n s S) {t u : Nat} (hu : u < 64) : 64 * t + u ∈ S ↔ (W s t).testBit u = true := by
  rw [h.mem, show (64 * t + u) / 64 = t by omega, show (64 * t + u) % 64 = u by omega]

theorem maxLeq_tot {n : Nat} {s : State} {S : Finset Nat} (h : Inv n s S) (v : Int) (hv : v < 0 ∨ 0 < n) :
    Tot (maxLeq s v) fun o => MaxLe S v o := by
  unfold maxLeq
  have hwn := h.wn
  split
  next c => exact Tot.pure (Or.inl ⟨rfl, fun x hx => by omega⟩)
  next c =>
    rw [h.hn]
    dsimp only
    rw [if_neg (show ¬ min v ((n : Int) - 1) < 0 by omega)]
    obtain ⟨w, hw⟩ : ∃ w : Nat, min v ((n : Int) - 1) = w := ⟨(min v ((n : Int) - 1)).toNat, by omega⟩
    rw [hw, Int.toNat_natCast]
    have hred : ∀ o, MaxLe S w o → MaxLe S v o := by
      rintro o (⟨h1, h2⟩ | ⟨x, h1, h2, h3, h4⟩)
      · refine Or.inl ⟨h1, fun x hx => ?_⟩
        have := h2 x hx; have := h.sub x hx; omega
      · exact Or.inr ⟨x, h1, h2, by omega, fun y hy hyv => h4 y hy (by have := h.sub y hy; omega)⟩
    refine Tot.mono ?_ hred
    rw [rdW h (by omega), ok_bind]
    have hu : w % 64 < 64 := by omega
    have hmask := maskLow_testBit (W s (w / 64)) hu
    obtain ⟨b, hb⟩ : ∃ b, b = shr (shl (W s (w / 64)) (63 - w % 64)) (63 - w % 64) := ⟨_, rfl⟩
    rw [← hb] at hmask ⊢
    have hb64 : b < 2 ^ 64 := by rw [hb]; exact shr_lt (shl_lt _ _)
    split
    next c1 =>
      obtain ⟨u, e1, e2, e3, e4⟩ := topSetbit_eq c1 hb64
      rw [e1, ok_bind, shl6_or e3]
      rw [hmask] at e2
      simp only [Bool.and_eq_true, decide_eq_true_iff] at e2
      refine Tot.pure (Or.inr ⟨64 * (w / 64) + u, (mem_word h e3).2 e2.2, rfl, by omega, fun y hy hyw => ?_⟩)
      rcases Nat.lt_or_ge (y / 64) (w / 64) with c2 | c2
      · omega
      · have hy' := (h.mem y).1 hy
        have e : y / 64 = w / 64 := by omega
        have := e4 (y % 64) (by omega) (by rw [hmask, ← e, hy']; simp; omega)
        omega
    next c1 =>
      have hb0 : b = 0 := by omega
      have hno : ∀ y ∈ S, (y : Int) ≤ w → y / 64 < w / 64 := by
        intro y hy hyw
        by_contra hc
        have hy' := (h.mem y).1 hy
        have e : y / 64 = w / 64 := by omega
        have := hmask (y % 64)
        rw [hb0, ← e, hy'] at this
        simp at this
        omega
      split
      next c2 =>
        exact Tot.pure (Or.inl ⟨rfl, fun y hy => by
          by_contra hc
          have := hno y hy (by omega)
          omega⟩)
      next c2 =>
        rw [rdW h (by omega), ok_bind]
        split
        next c3 =>
          obtain ⟨u, e1, e2, e3, e4⟩ := topSetbit_eq c3 (h.lt _)
          rw [e1, ok_bind, shl6_or e3]
          refine Tot.pure (Or.inr ⟨64 * (w / 64 - 1) + u, (mem_word h e3).2 e2, rfl, by omega, fun y hy hyw => ?_⟩)
          have := hno y hy hyw
          rcases Nat.lt_or_ge (y / 64) (w / 64 - 1) with c4 | c4
          · omega
          · have hy' := (h.mem y).1 hy
            have e : y / 64 = w / 64 - 1 := by omega
            rw [e] at hy'
            have := e4 (y % 64) (by omega) hy'
            omega
        next c3 =>
          rw [countLt_eq h, ok_bind, show ((w : Int) + 1).toNat = w + 1 by omega]
          refine Tot.mono (kthElement_eq h _) ?_
          rintro o (⟨h1, h2⟩ | ⟨h1, x, h2, h3, h4⟩)
          · refine Or.inl ⟨h2, fun y hy => ?_⟩
            by_contra hc
            have h5 := cnt_succ S hy
            have h6 := cnt_mono S (show y + 1 ≤ w + 1 by omega)
            have h7 : cnt S (w + 1) ≤ S.card := by rw [cnt_eq]; exact Finset.card_le_card (Finset.filter_subset _ _)
            omega
          · refine Or.inr ⟨x, h2, h3, ?_, fun y hy hyw => ?_⟩
            · by_contra hc
              have := cnt_mono S (show w + 1 ≤ x by omega)
              omega
            · by_contra hc
              have h5 := cnt_succ S h2
              have h6 := cnt_mono S (show x + 1 ≤ y by omega)
              have h7 := cnt_succ S hy
              have h8 := cnt_mono S (show y + 1 ≤ w + 1 by omega)
              omega

theorem minGeq_tot {n : Nat} {s : State} {S : Finset Nat} (h : Inv n s S) (v : Int) : Tot (minGeq s v) fun o => MinGe S v o := by
  unfold minGeq
  have hwn := h.wn
  have hwn0 := h.wn0
  rw [h.hn]
  split
  next c => exact Tot.pure (Or.inl ⟨rfl, fun x hx => by have := h.sub x hx; omega⟩)
  next c =>
    dsimp only
    obtain ⟨w, hw⟩ : ∃ w : Nat, max v 0 = w := ⟨(max v 0).toNat, by omega⟩
    rw [hw, Int.toNat_natCast]
    have hred : ∀ o, MinGe S w o → MinGe S v o := by
      rintro o (⟨h1, h2⟩ | ⟨x, h1, h2, h3, h4⟩)
      · refine Or.inl ⟨h1, fun x hx => ?_⟩
        have := h2 x hx; omega
      · exact Or.inr ⟨x, h1, h2, by omega, fun y hy hyv => h4 y hy (by omega)⟩
    refine Tot.mono ?_ hred
    have hwt : w / 64 < s.wn := by omega
    rw [rdW h hwt, ok_bind]
    have hmask := maskHigh_testBit (W s (w / 64)) (u := w % 64)
    obtain ⟨b, hb⟩ : ∃ b, b = shl (shr (W s (w / 64)) (w % 64)) (w % 64) := ⟨_, rfl⟩
    rw [← hb] at hmask ⊢
    have hb64 : b < 2 ^ 64 := by rw [hb]; exact shl_lt _ _
    split
    next c1 =>
      obtain ⟨u, e1, e2, e3, e4⟩ := ctzll_eq c1 hb64
      rw [e1, ok_bind, shl6_or e3]
      rw [hmask _ e3] at e2
      simp only [Bool.and_eq_true, decide_eq_true_iff] at e2
      refine Tot.pure (Or.inr ⟨64 * (w / 64) + u, (mem_word h e3).2 e2.2, rfl, by omega, fun y hy hyw => ?_⟩)
      rcases Nat.lt_or_ge (w / 64) (y / 64) with c2 | c2
      · omega
      · have hy' := (h.mem y).1 hy
        have e : y / 64 = w / 64 := by omega
        have := e4 (y % 64) (by omega) (by rw [hmask _ (by omega), ← e, hy']; simp; omega)
        omega
    next c1 =>
      have hb0 : b = 0 := by omega
      have hno : ∀ y ∈ S, (w : Int) ≤ y → w / 64 < y / 64 := by
        intro y hy hyw
        by_contra hc
        have hy' := (h.mem y).1 hy
        have e : y / 64 = w / 64 := by omega
        have := hmask (y % 64) (by omega)
        rw [hb0, ← e, hy'] at this
        simp at this
        omega
      split
      next c2 =>
        exact Tot.pure (Or.inl ⟨rfl, fun y hy => by
          by_contra hc
          have := hno y hy (by omega)
          have hy' := (h.mem y).1 hy
          unfold W at hy'
          rw [at_ge 0 (by rw [h.bsz]; omega)] at hy'
          simp at hy'⟩)
      next c2 =>
        rw [rdW h (by omega), ok_bind]
        split
        next c3 =>
          obtain ⟨u, e1, e2, e3, e4⟩ := ctzll_eq c3 (h.lt _)
          rw [e1, ok_bind, shl6_or e3]
          refine Tot.pure (Or.inr ⟨64 * (w / 64 + 1) + u, (mem_word h e3).2 e2, rfl, by omega, fun y hy hyw => ?_⟩)
          have := hno y hy hyw
          rcases Nat.lt_or_ge (w / 64 + 1) (y / 64) with c4 | c4
          · omega
          · have hy' := (h.mem y).1 hy
            have e : y / 64 = w / 64 + 1 := by omega
            rw [e] at hy'
            have := e4 (y % 64) (by omega) hy'
            omega
        next c3 =>
          rw [countLt_eq h, ok_bind, Int.toNat_natCast]
          refine Tot.mono (kthElement_eq h _) ?_
          rintro o (⟨h1, h2⟩ | ⟨h1, x, h2, h3, h4⟩)
          · refine Or.inl ⟨h2, fun y hy => ?_⟩
            by_contra hc
            have h5 := cnt_succ S hy
            have h6 := cnt_mono S (show w ≤ y by omega)
            have h7 : cnt S (y + 1) ≤ S.card := by rw [cnt_eq]; exact Finset.card_le_card (Finset.filter_subset _ _)
            omega
          · refine Or.inr ⟨x, h2, h3, ?_, fun y hy hyw => ?_⟩
            · by_contra hc
              have := cnt_mono S (show x + 1 ≤ w by omega)
              have := cnt_succ S h2
              omega
            · by_contra hc
              have h5 := cnt_succ S hy
              have h6 := cnt_mono S (show y + 1 ≤ x by omega)
              have h8 := cnt_mono S (show w ≤ y by omega)
              omega

/-! ### Constructors -/

theorem init_inv (n : Nat) : Inv n (init n) ∅ := by
  have hW : ∀ t, W (init n) t = 0 := by
    intro t
    unfold W init at'
    rw [Array.getElem?_replicate]
    split <;> rfl
  refine ⟨rfl, ?_, ?_, rfl, by simp [init], fun t => by rw [hW]; norm_num, fun v => by rw [hW]; simp, by simp, ?_, rfl⟩
  · simp only [init]; omega
  · simp only [init]; omega
  · have := Fenwick.rep_init (T := Int) (off := 0) (by omega) (init n).wn
    have e : (fun t => (popcount (W (init n) t) : Int)) = fun _ => 0 := by
      funext t
      rw [hW, popcount_eq, Nat.count_iff_forall_not.2 (by simp)]; rfl
    rw [e]
    exact this

/-- State while the values are being read: `_d[t + 1]` counts word `t`. -/
structure Raw (n : Nat) (s : State) (S : Finset Nat) : Prop where
  hn : s.n = n
  wn : n ≤ 64 * s.wn
  wn0 : 0 < s.wn
  lg : s.lg = Nat.log2 s.wn
  bsz : s.bs.size = s.wn
  lt : ∀ t, W s t < 2 ^ 64
  mem : ∀ v, v ∈ S ↔ (W s (v / 64)).testBit (v % 64) = true
  sub : ∀ v ∈ S, v < n
  dsz : s.d.size = s.wn + 1
  dat : ∀ j, 0 < j → j ≤ s.wn → s.d[j]? = some (popcount (W s (j - 1)) : Int)
  siz : s.siz = S.card

theorem addValue_tot {n : Nat} {s : State} {S : Finset Nat} (h : Raw n s S) {v : Nat} (hv : v < n) :
    Tot (addValue s v) fun s' => Raw n s' (Insert.insert v S) := by
  unfold addValue
  have hwn := h.wn
  have hr : rd s.bs (v / 64) = .ok (W s (v / 64)) := rd_at 0 (by rw [h.bsz]; omega)
  rw [decide_eq_true (show v < s.n by rw [h.hn]; exact hv), check_true, ok_bind, hr, ok_bind]
  split
  next c =>
    rw [Finset.insert_eq_self.2 ((h.mem v).2 c)]
    exact Tot.pure h
  next c =>
    have hnS : v ∉ S := fun hm => c ((h.mem v).1 hm)
    rw [rd_some (h.dat (v / 64 + 1) (by omega) (by omega)), ok_bind, wr_eq (by rw [h.dsz]; omega), ok_bind, wr_eq (by rw [h.bsz]; omega), ok_bind]
    refine Tot.pure ?_
    have hsz : v / 64 < s.bs.size := by rw [h.bsz]; omega
    obtain ⟨s', hs'⟩ : ∃ s', s' = { s with siz := s.siz + 1, d := s.d.setIfInBounds (v / 64 + 1) ((popcount (W s (v / 64 + 1 - 1)) : Int) + 1), bs := s.bs.setIfInBounds (v / 64) (W s (v / 64) ||| 1 <<< (v % 64)) } := ⟨_, rfl⟩
    have hW : ∀ t, W s' t = if v / 64 = t then W s (v / 64) ||| 1 <<< (v % 64) else W s t := by
      intro t
      rw [hs']
      unfold W
      exact at_set 0 hsz _ _
    rw [← hs']
    have e1 : s'.wn = s.wn := by rw [hs']
    refine ⟨by rw [hs']; exact h.hn, by rw [e1]; exact h.wn, by rw [e1]; exact h.wn0, by rw [hs']; exact h.lg, by rw [hs']; simpa using h.bsz, fun t => ?_, fun y => ?_, fun y hy => ?_, by rw [hs']; simpa using h.dsz, fun j h1 h2 => ?_, ?_⟩
    · rw [hW]; split
      · refine Nat.or_lt_two_pow (h.lt _) ?_
        rw [Nat.one_shiftLeft]
        exact Nat.pow_lt_pow_right (by omega) (by omega)
      · exact h.lt t
    · rw [hW, Finset.mem_insert, h.mem]
      split
      next e =>
        rw [Nat.testBit_or, Nat.one_shiftLeft, Nat.testBit_two_pow, Bool.or_eq_true, decide_eq_true_iff, e]
        constructor
        · rintro (rfl | hy)
          · exact Or.inr rfl
          · exact Or.inl hy
        · rintro (hy | hy)
          · exact Or.inr hy
          · exact Or.inl (by omega)
      next e =>
        constructor
        · rintro (rfl | hy)
          · exact absurd rfl e
          · exact hy
        · exact Or.inr
    · rcases Finset.mem_insert.1 hy with rfl | hy
      · exact hv
      · exact h.sub y hy
    · rw [e1] at h2
      have : s'.d = s.d.setIfInBounds (v / 64 + 1) ((popcount (W s (v / 64 + 1 - 1)) : Int) + 1) := by rw [hs']
      rw [this, get?_set _ _ _ _ (by rw [h.dsz]; omega), hW]
      by_cases e : v / 64 + 1 = j
      · subst e
        rw [if_pos rfl, Nat.add_sub_cancel, if_pos rfl, popcount_or (by omega) (by simpa using c)]
        push_cast; rfl
      · rw [if_neg e, if_neg (by omega)]
        exact h.dat j h1 h2
    · rw [Finset.card_insert_of_notMem hnS]
      have : s'.siz = s.siz + 1 := by rw [hs']
      rw [this, h.siz]; push_cast; rfl

theorem init_raw (n : Nat) : Raw n (init n) ∅ := by
  have h := init_inv n
  have hW : ∀ t, W (init n) t = 0 := by
    intro t
    unfold W init at'
    rw [Array.getElem?_replicate]
    split <;> rfl
  refine ⟨h.hn, h.wn, h.wn0, h.lg, h.bsz, h.lt, h.mem, h.sub, by simp [init], fun j h1 h2 => ?_, h.siz⟩
  rw [hW, popcount_eq, Nat.count_iff_forall_not.2 (by simp)]
  have h2' : j < (init n).wn + 1 := by omega
  show (Array.replicate ((init n).wn + 1) (0 : Int))[j]? = _
  rw [Array.getElem?_replicate, if_pos h2']
  rfl

theorem ofValues_tot {n : Nat} {vs : List Nat} (hv : ∀ v ∈ vs, v < n) : Tot (ofValues n vs) fun s => Inv n s vs.toFinset := by
  unfold ofValues
  have h1 : ∀ (vs : List Nat) (s : State) (S : Finset Nat), (∀ v ∈ vs, v < n) → Raw n s S → Tot (forEach vs s addValue) fun s' => Raw n s' (S ∪ vs.toFinset) := by
    intro vs
    induction vs with
    | nil => intro s S _ h; exact Tot.pure (by simpa using h)
    | cons v vs ih =>
      intro s S hv h
      refine Tot.bind (addValue_tot h (hv v (by simp))) fun s' h' => ?_
      refine Tot.mono (ih s' _ (fun w hw => hv w (by simp [hw])) h') fun a ha => ?_
      rw [show S ∪ (v :: vs).toFinset = Insert.insert v S ∪ vs.toFinset by ext x; simp]
      exact ha
  refine Tot.bind (h1 vs (init n) ∅ hv (init_raw n)) fun s h => ?_
  rw [Finset.empty_union] at h
  refine Tot.bind (Fenwick.build_tot (off := 0) (by omega) (f := fun t => (popcount (W s t) : Int)) h.dsz fun j h1 h2 => h.dat j h1 h2) fun d hd => ?_
  exact Tot.pure ⟨h.hn, h.wn, h.wn0, h.lg, h.bsz, h.lt, h.mem, h.sub, hd, h.siz⟩

end FenwickTreeSet
