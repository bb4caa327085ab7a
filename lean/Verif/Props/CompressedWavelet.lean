import Verif.Proof.CompressedWavelet

/-!
# C80: `CompressedWaveletMatrix`

`w` is `log_max_len`; the number of different values is at most `2^w`, `w ≤ 31`. `mx` is `numeric_limits<T>::max()`.
The range `[l, r)` of the values `a` is `(a.drop l).take (r - l)`, empty for `r ≤ l`.
-/

namespace CompressedWaveletProps
open Cxx CompressedWavelet

/-- The object constructed from the vector `a`. -/
def Of (w : Nat) (a : List Int) (s : CW) : Prop := make w a = .ok s

theorem of_built {w : Nat} {a : List Int} {s : CW} (h : Of w a s) : CBuilt w a s := by
  obtain ⟨s', e, h'⟩ := make_tot w a
  rw [Of, e] at h
  cases h
  exact h'

/-- The constructor never fails. -/
theorem cwm_make (w : Nat) (a : List Int) : ∃ s, Of w a s := by
  obtain ⟨s, e, -⟩ := make_tot w a
  exact ⟨s, e⟩

variable {w : Nat} {a : List Int} {s : CW}

/-- C80. `operator[](i)` is the `i`-th value; `rank(val, i)` counts `val` among the first `i` values, for every `val`. -/
theorem cwm_access_rank (h : Of w a s) (hw : w ≤ 31) (hc : a.toFinset.card ≤ 2 ^ w) :
    (∀ i, (hi : i < a.length) → get w s i = .ok a[i]) ∧ ∀ val i, i ≤ a.length → rank w s val i = .ok ((a.take i).count val : Int) :=
  ⟨fun _ hi => get_tot (of_built h) hc hi, fun _ _ hi => rank_tot (of_built h) hw hc hi⟩

/-- C80. `range_kth_smallest(l, r, k)` and `range_kth_largest(l, r, k)` select from the sorted range; other `k` give the default value. -/
theorem cwm_range_kth (h : Of w a s) (hw : w ≤ 31) (hc : a.toFinset.card ≤ 2 ^ w) {l r : Nat} (hr : r ≤ a.length) (h31 : a.length < 2 ^ 31) (dflt : Int) :
    (∀ k : Nat, k < r - l → ∃ v, kthSmallest w s l r k dflt = .ok v ∧ (((a.drop l).take (r - l)).mergeSort fun x y => decide (x ≤ y))[k]? = some v) ∧
    (∀ k : Nat, k < r - l → ∃ v, kthLargest w s l r k dflt = .ok v ∧ (((a.drop l).take (r - l)).mergeSort fun x y => decide (x ≤ y))[r - l - 1 - k]? = some v) ∧
    ∀ k : Int, k < 0 ∨ (r : Int) - l ≤ k → kthSmallest w s l r k dflt = .ok dflt := by
  have hb := of_built h
  have key : ∀ k : Nat, k < r - l → ∃ v, kthSmallest w s l r k dflt = .ok v ∧ (((a.drop l).take (r - l)).mergeSort fun x y => decide (x ≤ y))[k]? = some v := by
    intro k hk
    obtain ⟨v, e, h1, h2, h3⟩ := kth_tot hb hw hc hr (k := k) (l := l) (by omega) (by omega) absent
    refine ⟨v, ?_, sorted_kth _ (by exact_mod_cast h2) (by exact_mod_cast h3)⟩
    rw [kthSmallest, e, ok_bind, restore_code hb hw hc (rng_sub h1)]
  refine ⟨key, fun k hk => ?_, fun k hk => ?_⟩
  · obtain ⟨v, e, h2⟩ := key (r - l - 1 - k) (by omega)
    refine ⟨v, ?_, h2⟩
    rw [CompressedWavelet.kthLargest, WaveletMatrix.kthLargest, i32_ok ⟨by omega, by omega⟩, ok_bind, ← e, kthSmallest]
    congr 2
    omega
  · rw [kthSmallest, WaveletMatrix.kth_default hk, ok_bind, restore, if_pos rfl]
    rfl

/-- C80. `range_freq(l, r, upper)` and `range_freq(l, r, lower, upper)` count the values in the interval; the bounds need not occur in the sequence. -/
theorem cwm_range_freq (h : Of w a s) (hw : w ≤ 31) (hc : a.toFinset.card ≤ 2 ^ w) {l r : Nat} (hr : r ≤ a.length) :
    (∀ upper, rangeFreq w s l r upper = .ok (((a.drop l).take (r - l)).countP (fun v => decide (v < upper)) : Int)) ∧
    ∀ lower upper, rangeFreq2 w s l r lower upper = .ok (((a.drop l).take (r - l)).countP (fun v => decide (lower ≤ v ∧ v < upper)) : Int) := by
  have key : ∀ upper, rangeFreq w s l r upper = .ok (((a.drop l).take (r - l)).countP (fun v => decide (v < upper)) : Int) := fun upper => rangeFreq_tot (of_built h) hw hc hr
  refine ⟨key, fun lower upper => ?_⟩
  generalize hL : (a.drop l).take (r - l) = L at key
  rw [rangeFreq2]
  by_cases hlu : lower ≥ upper
  · rw [if_pos hlu]
    have : L.countP (fun v => decide (lower ≤ v ∧ v < upper)) = 0 := by
      rw [List.countP_eq_zero]
      intro v _
      simp
      omega
    rw [this]
    rfl
  · rw [if_neg hlu, key, ok_bind, key, ok_bind]
    have : L.countP (fun v => decide (v < upper)) = L.countP (fun v => decide (v < lower)) + L.countP (fun v => decide (lower ≤ v ∧ v < upper)) := by
      clear hL key
      induction L with
      | nil => rfl
      | cons v L ih =>
        rw [List.countP_cons, List.countP_cons, List.countP_cons, ih]
        by_cases h1 : v < lower
        · simp [h1, show v < upper by omega, show ¬ lower ≤ v by omega]
          omega
        · by_cases h2 : v < upper
          · simp [h1, h2, show lower ≤ v by omega]
            omega
          · simp [h1, h2]
    show Except.ok _ = Except.ok _
    congr 1
    omega

/-- C80. `range_min` and `range_max` of a non-empty range. -/
theorem cwm_range_min_max (h : Of w a s) (hw : w ≤ 31) (hc : a.toFinset.card ≤ 2 ^ w) {l r : Nat} (hlr : l < r) (hr : r ≤ a.length) (h31 : a.length < 2 ^ 31) :
    (∃ v, rangeMin w s l r = .ok v ∧ v ∈ (a.drop l).take (r - l) ∧ ∀ u ∈ (a.drop l).take (r - l), v ≤ u) ∧
    ∃ v, rangeMax w s l r = .ok v ∧ v ∈ (a.drop l).take (r - l) ∧ ∀ u ∈ (a.drop l).take (r - l), u ≤ v := by
  have hb := of_built h
  have hlen : (rng a l r).length = r - l := by
    rw [List.length_take, List.length_drop]
    omega
  constructor
  · obtain ⟨v, e, h1, h2, h3⟩ := kth_tot hb hw hc hr (k := 0) (l := l) (by omega) (by omega) (2 ^ 32 - 1)
    refine ⟨v, ?_, h1, fun u hu => ?_⟩
    · rw [rangeMin, WaveletMatrix.xorMin, show decide (l < r) = true by simpa using hlr, check_true, ok_bind, e, ok_bind, decomp_code hb.sort hb.mem (rng_sub h1)]
    · by_contra hlt
      have : 0 < (rng a l r).countP (fun u => decide (u < v)) := List.countP_pos_iff.2 ⟨u, hu, by simpa using hlt⟩
      omega
  · obtain ⟨v, e, h1, h2, h3⟩ := kth_tot hb hw hc hr (k := (r : Int) - l - 1 - 0) (l := l) (by omega) (by omega) (2 ^ 32 - 1)
    refine ⟨v, ?_, h1, fun u hu => ?_⟩
    · rw [rangeMax, WaveletMatrix.xorMax, show decide (l < r) = true by simpa using hlr, check_true, ok_bind, WaveletMatrix.kthLargest, i32_ok ⟨by omega, by omega⟩, ok_bind, e, ok_bind, decomp_code hb.sort hb.mem (rng_sub h1)]
    · have k4 := List.countP_le_length (p := fun u => decide (u ≤ v)) (l := rng a l r)
      have k5 : (rng a l r).countP (fun u => decide (u ≤ v)) = (rng a l r).length := by omega
      rw [List.countP_eq_length] at k5
      simpa using k5 u hu

/-- C80. `range_min_geq`, `range_min_gt` and `range_max_lt`: the nearest value, or the default value if there is none. -/
theorem cwm_range_order (h : Of w a s) (hw : w ≤ 31) (hc : a.toFinset.card ≤ 2 ^ w) {l r : Nat} (hr : r ≤ a.length) (dflt : Int) :
    (∀ lower, ∃ v, rangeMinGeq w s l r lower dflt = .ok v ∧ if ∃ u ∈ (a.drop l).take (r - l), lower ≤ u then
      v ∈ (a.drop l).take (r - l) ∧ lower ≤ v ∧ ∀ u ∈ (a.drop l).take (r - l), lower ≤ u → v ≤ u else v = dflt) ∧
    (∀ mx lower, (∀ u ∈ a, u ≤ mx) → ∃ v, rangeMinGt mx w s l r lower dflt = .ok v ∧ if ∃ u ∈ (a.drop l).take (r - l), lower < u then
      v ∈ (a.drop l).take (r - l) ∧ lower < v ∧ ∀ u ∈ (a.drop l).take (r - l), lower < u → v ≤ u else v = dflt) ∧
    ∀ upper, ∃ v, rangeMaxLt w s l r upper dflt = .ok v ∧ if ∃ u ∈ (a.drop l).take (r - l), u < upper then
      v ∈ (a.drop l).take (r - l) ∧ v < upper ∧ ∀ u ∈ (a.drop l).take (r - l), u < upper → u ≤ v else v = dflt := by
  refine ⟨fun lower => rangeMinGeq_tot (of_built h) hw hc hr, fun mx lower hmx => ?_, fun upper => rangeMaxLt_tot (of_built h) hw hc hr⟩
  rw [rangeMinGt]
  by_cases he : lower = mx
  · rw [if_pos he]
    refine ⟨dflt, rfl, ?_⟩
    rw [if_neg]
    rintro ⟨u, hu, h2⟩
    have := hmx u (rng_sub hu)
    omega
  · rw [if_neg he]
    exact rangeMinGeq_tot (of_built h) (lower := lower + 1) (dflt := dflt) (l := l) hw hc hr

/-- C80, `range_max_leq`: the default value is returned for *every* range with `l ≤ r`.
Missing from the property: the largest value at most `upper` of the range. -/
theorem cwm_max_leq_partial (mx : Int) (w : Nat) (s : CW) {l r : Nat} (hlr : l ≤ r) (upper dflt : Int) : rangeMaxLeq mx w s l r upper dflt = .ok dflt := by
  rw [rangeMaxLeq, if_pos hlr]
  rfl

/-- C80 fails for `range_max_leq`: in the sequence `5`, the largest value at most 7 is 5, but the default value is returned. -/
theorem cwm_max_leq_wrong : (do let s ← make 1 [5]; rangeMaxLeq (2 ^ 31 - 1) 1 s 0 1 7 (-1)) = .ok (-1) := by decide +kernel

/-- The hypotheses are satisfiable. -/
example : ∃ s, Of 3 [50, -10, 70, -10, 30] s ∧ rank 3 s (-10) 4 = .ok 2 := by
  obtain ⟨s, hs⟩ := cwm_make 3 [50, -10, 70, -10, 30]
  exact ⟨s, hs, (cwm_access_rank hs (by decide) (by decide)).2 (-10) 4 (by decide)⟩

end CompressedWaveletProps
