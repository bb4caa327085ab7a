import Verif.Proof.WaveletMatrix2

/-!
# C56, C78, C79: `BitVector` and `WaveletMatrix`

`D` is the number of bits of the value type, `w` is `bit_num`; the queries shift by `bit_num`, which is defined if `w < max D 32`.
The range `[l, r)` of the values `a` is `(a.drop l).take (r - l)`, empty for `r ≤ l`.
-/

namespace WaveletMatrixProps
open Cxx BitVector WaveletMatrix

/-! ## Bit vectors -/

/-- C56. A bit vector gives back its bits, `rank(val, i)` is the number of `val` before `i`, `rank(val, l, r)` the difference. -/
theorem bv_rank (n : Nat) (g : Nat → Bool) : ∃ v, BitVector.make n (fun i => .ok (g i)) = .ok v ∧ (∀ i, i < n → BitVector.get v i = .ok (g i)) ∧
    (∀ val i, i ≤ n → rank v val i = .ok ((((List.range i).map g).count val : Nat) : Int)) ∧
    ∀ val l r, l ≤ n → r ≤ n → rankRange v val l r = .ok ((((List.range r).map g).count val : Int) - ((List.range l).map g).count val) := by
  obtain ⟨v, e, h⟩ := BitVector.make_tot (g := g) (gen := fun i => .ok (g i)) (n := n) (fun _ _ => rfl)
  exact ⟨v, e, fun i hi => get_eq h hi, fun val i hi => rank_cnt h hi val, fun val l r hl hr => rankRange_cnt h hl hr val⟩

/-- C79. If there is a `num`-th `val`, `select(val, num)` is the position *after* it; otherwise the default value is returned.
Missing from the property: the documented result is the position itself. -/
theorem bv_select_partial (n : Nat) (g : Nat → Bool) (val : Bool) (num : Nat) (dflt : Int) (h1 : 1 ≤ num) :
    ∃ v, BitVector.make n (fun i => .ok (g i)) = .ok v ∧
      if num ≤ ((List.range n).map g).count val then ∃ i, i < n ∧ g i = val ∧ ((List.range i).map g).count val + 1 = num ∧ select v val num dflt = .ok ((i : Int) + 1)
      else select v val num dflt = .ok dflt := by
  obtain ⟨v, e, h⟩ := BitVector.make_tot (g := g) (gen := fun i => .ok (g i)) (n := n) (fun _ _ => rfl)
  refine ⟨v, e, ?_⟩
  obtain ⟨r, e2, h2⟩ := select_tot h val num dflt
  by_cases hn : num ≤ ((List.range n).map g).count val
  · rw [if_pos (by show (num : Int) ≤ (((List.range n).map g).count val : Nat); omega)] at h2
    obtain ⟨i, rfl, k1, k2, k3⟩ := h2
    have hi : i ≠ 0 := by
      rintro rfl
      simp [cnt] at k2
      omega
    obtain ⟨j, rfl⟩ : ∃ j, i = j + 1 := ⟨i - 1, by omega⟩
    have k4 := k3 j (by omega)
    have hs : cnt g val (j + 1) = cnt g val j + if g j == val then 1 else 0 := by
      rw [cnt, cnt, List.range_succ, List.map_append, List.count_append]
      simp [List.count_cons]
    rw [hs] at k2
    rw [if_pos hn]
    by_cases hg : g j = val
    · rw [if_pos (by simpa using hg)] at k2
      refine ⟨j, by omega, hg, ?_, ?_⟩
      · show cnt g val j + 1 = num
        omega
      · rw [e2]
        rfl
    · rw [if_neg (by simpa using hg)] at k2
      omega
  · rw [if_neg (by show ¬ (num : Int) ≤ (((List.range n).map g).count val : Nat); omega)] at h2
    rw [if_neg hn, e2, h2]

/-- C79 fails: in the bit vector `1`, the first `1` is at position 0, but `select(1, 1)` is 1. -/
theorem bv_select_off_by_one : (do let v ← BitVector.make 1 (fun _ => .ok true); select v true 1 (-1)) = .ok 1 := by decide +kernel

/-! ## Wavelet matrices -/

/-- The object constructed from the vector `a`. -/
def Of (w : Nat) (a : List Nat) (s : WM) : Prop := WaveletMatrix.make w a.length (fun i => a.getD i 0) = .ok s

theorem of_built {w : Nat} {a : List Nat} {s : WM} (h : Of w a s) : WBuilt w a s := by
  obtain ⟨s', e, h'⟩ := WaveletMatrix.make_tot w a.length (fun i => a.getD i 0)
  rw [Of, e] at h
  cases h
  have := range_map_getD a (Nat.le_refl a.length)
  rw [List.take_length] at this
  rwa [this] at h'

/-- The constructor never fails. -/
theorem wm_make (w : Nat) (a : List Nat) : ∃ s, Of w a s := by
  obtain ⟨s, e, -⟩ := WaveletMatrix.make_tot w a.length (fun i => a.getD i 0)
  exact ⟨s, e⟩

variable {w : Nat} {a : List Nat} {s : WM}

/-- C56. `operator[](i)` is the `i`-th value. -/
theorem wm_access (h : Of w a s) {i : Nat} (hi : i < a.length) (hx : a[i] < 2 ^ w) : WaveletMatrix.get s w i = .ok a[i] := WaveletMatrix.get_tot (of_built h) hi hx

/-- C56. `rank(val, i)` counts `val` among the first `i` values. -/
theorem wm_rank (h : Of w a s) {D : Nat} (hD : w < max D 32) (ha : ∀ v ∈ a, v < 2 ^ w) {val i : Nat} (hv : val < 2 ^ w) (hi : i ≤ a.length) :
    rankVal D w s val i = .ok ((a.take i).count val : Int) := rankVal_tot (of_built h) hD hv hi ha

theorem map_xor_zero (L : List Nat) : L.map (· ^^^ 0) = L := by simp

/-- C56. `range_kth_smallest(l, r, k)` and `range_kth_largest(l, r, k)` select from the sorted range; other `k` give the default value. -/
theorem wm_range_kth (h : Of w a s) {D : Nat} (hD : w < max D 32) (ha : ∀ v ∈ a, v < 2 ^ w) {l r : Nat} (hr : r ≤ a.length) (h31 : a.length < 2 ^ 31) (dflt : Nat) :
    (∀ k : Nat, k < r - l → ∃ v, kth D w s l r k 0 dflt = .ok v ∧ (((a.drop l).take (r - l)).mergeSort (· ≤ ·))[k]? = some v) ∧
    (∀ k : Nat, k < r - l → ∃ v, kthLargest D w s l r k 0 dflt = .ok v ∧ (((a.drop l).take (r - l)).mergeSort (· ≤ ·))[r - l - 1 - k]? = some v) ∧
    ∀ k : Int, k < 0 ∨ (r : Int) - l ≤ k → kth D w s l r k 0 dflt = .ok dflt := by
  refine ⟨fun k hk => ?_, fun k hk => ?_, fun k hk => kth_default hk⟩
  · obtain ⟨v, e, -, h2⟩ := kth_sorted (of_built h) (dflt := dflt) (l := l) (x := 0) hD (Nat.two_pow_pos w) ha hr hk
    rw [map_xor_zero, Nat.xor_zero] at h2
    exact ⟨v, e, h2⟩
  · obtain ⟨v, e, -, h2⟩ := kth_sorted (of_built h) (dflt := dflt) (l := l) (x := 0) hD (Nat.two_pow_pos w) ha hr (k := r - l - 1 - k) (by omega)
    rw [map_xor_zero, Nat.xor_zero] at h2
    refine ⟨v, ?_, h2⟩
    rw [kthLargest, i32_ok ⟨by omega, by omega⟩, ok_bind, ← e]
    congr 1
    omega

/-- C56. `range_freq(l, r, upper)` and `range_freq(l, r, lower, upper)` count the values in the interval. -/
theorem wm_range_freq (h : Of w a s) {D : Nat} (hD : w < max D 32) (ha : ∀ v ∈ a, v < 2 ^ w) {l r : Nat} (hr : r ≤ a.length) :
    (∀ upper, freq D w s l r 0 upper = .ok (((a.drop l).take (r - l)).countP (fun v => decide (v < upper)) : Int)) ∧
    ∀ lower upper, freq2 D w s l r 0 lower upper = .ok (((a.drop l).take (r - l)).countP (fun v => decide (lower ≤ v ∧ v < upper)) : Int) := by
  have key : ∀ upper, freq D w s l r 0 upper = .ok (((a.drop l).take (r - l)).countP (fun v => decide (v < upper)) : Int) := by
    intro upper
    rw [freq_tot (of_built h) hD (Nat.two_pow_pos w) ha hr]
    simp [seg]
  refine ⟨key, fun lower upper => ?_⟩
  generalize hL : (a.drop l).take (r - l) = L at key
  rw [freq2]
  by_cases hlu : lower ≥ upper
  · rw [if_pos hlu]
    have : L.countP (fun v => decide (lower ≤ v ∧ v < upper)) = 0 := by
      rw [List.countP_eq_zero]
      intro v _
      simp
      omega
    rw [this]
    rfl
  · rw [if_neg hlu, key, ok_bind, key, ok_bind]
    have : L.countP (fun v => decide (v < upper)) = L.countP (fun v => decide (v < lower)) + L.countP (fun v => decide (lower ≤ v ∧ v < upper)) := by
      clear hL key
      induction L with
      | nil => rfl
      | cons v L ih =>
        rw [List.countP_cons, List.countP_cons, List.countP_cons, ih]
        by_cases h1 : v < lower
        · simp [h1, show v < upper by omega, show ¬ lower ≤ v by omega]
          omega
        · by_cases h2 : v < upper
          · simp [h1, h2, show lower ≤ v by omega]
            omega
          · simp [h1, h2]
    show Except.ok _ = Except.ok _
    congr 1
    omega

/-- C56. The order queries `range_min`, `range_max`, `range_min_geq`, `range_min_gt`, `range_max_lt`, `range_max_leq`. -/
theorem wm_range_order (h : Of w a s) {D : Nat} (hD : w < max D 32) (hw : w ≤ D) (ha : ∀ v ∈ a, v < 2 ^ w) {l r : Nat} (hr : r ≤ a.length) (h31 : a.length < 2 ^ 31) (dflt : Nat) :
    (l < r → ∃ v, xorMin D w s l r 0 = .ok v ∧ v ∈ (a.drop l).take (r - l) ∧ ∀ u ∈ (a.drop l).take (r - l), v ≤ u) ∧
    (l < r → ∃ v, xorMax D w s l r 0 = .ok v ∧ v ∈ (a.drop l).take (r - l) ∧ ∀ u ∈ (a.drop l).take (r - l), u ≤ v) ∧
    (∀ lower, ∃ v, minGeq D w s l r 0 lower dflt = .ok v ∧ if ∃ u ∈ (a.drop l).take (r - l), lower ≤ u then
      v ∈ (a.drop l).take (r - l) ∧ lower ≤ v ∧ ∀ u ∈ (a.drop l).take (r - l), lower ≤ u → v ≤ u else v = dflt) ∧
    (∀ lower, lower + 1 < 2 ^ D ∨ lower = 2 ^ w - 1 → ∃ v, minGt D w s l r 0 lower dflt = .ok v ∧ if ∃ u ∈ (a.drop l).take (r - l), lower < u then
      v ∈ (a.drop l).take (r - l) ∧ lower < v ∧ ∀ u ∈ (a.drop l).take (r - l), lower < u → v ≤ u else v = dflt) ∧
    (∀ upper, ∃ v, maxLt D w s l r 0 upper dflt = .ok v ∧ if ∃ u ∈ (a.drop l).take (r - l), u < upper then
      v ∈ (a.drop l).take (r - l) ∧ v < upper ∧ ∀ u ∈ (a.drop l).take (r - l), u < upper → u ≤ v else v = dflt) ∧
    (∀ upper, upper + 1 < 2 ^ D ∨ upper = 2 ^ w - 1 → ∃ v, maxLeq D w s l r 0 upper dflt = .ok v ∧ if ∃ u ∈ (a.drop l).take (r - l), u ≤ upper then
      v ∈ (a.drop l).take (r - l) ∧ v ≤ upper ∧ ∀ u ∈ (a.drop l).take (r - l), u ≤ upper → u ≤ v else v = dflt) := by
  have hb := of_built h
  have h0 : 0 < 2 ^ w := Nat.two_pow_pos w
  have hmem : ∀ u ∈ (a.drop l).take (r - l), u < 2 ^ w := fun u hu => ha u (List.mem_of_mem_drop (List.mem_of_mem_take hu))
  have kmin : ∀ k : Int, 0 ≤ k → k < (r : Int) - l → ∀ d, ∃ v, kth D w s l r k 0 d = .ok v ∧ v ∈ (a.drop l).take (r - l) ∧
      (((a.drop l).take (r - l)).countP (fun u => decide (u < v)) : Int) ≤ k ∧ k < (((a.drop l).take (r - l)).countP (fun u => decide (u ≤ v)) : Int) := by
    intro k hk1 hk2 d
    obtain ⟨v, e, h1, h2, h3⟩ := kth_tot hb (dflt := d) (l := l) (x := 0) hD h0 ha hr hk1 hk2
    simp only [Nat.xor_zero] at h2 h3
    exact ⟨v, e, h1, h2, h3⟩
  have hmax : l < r → ∃ v, xorMax D w s l r 0 = .ok v ∧ v ∈ (a.drop l).take (r - l) ∧ ∀ u ∈ (a.drop l).take (r - l), u ≤ v := by
    intro hlr
    obtain ⟨v, e, h1, h2, h3⟩ := kmin ((r : Int) - l - 1 - 0) (by omega) (by omega) (2 ^ D - 1)
    refine ⟨v, ?_, h1, fun u hu => ?_⟩
    · rw [xorMax, show decide (l < r) = true by simpa using hlr, check_true, ok_bind, kthLargest, i32_ok ⟨by omega, by omega⟩, ok_bind, e]
    · by_contra hlt
      have k1 := countP_lt (p := fun u => decide (u ≤ v)) (q := fun _ => true) (fun _ _ => rfl) hu rfl (by simpa using hlt)
      have k2 := List.countP_le_length (p := fun _ => true) (l := (a.drop l).take (r - l))
      have k3 := seg_length (l := l) hr
      rw [seg] at k3
      omega
  have hgeq : ∀ lower, ∃ v, minGeq D w s l r 0 lower dflt = .ok v ∧ if ∃ u ∈ (a.drop l).take (r - l), lower ≤ u then
      v ∈ (a.drop l).take (r - l) ∧ lower ≤ v ∧ ∀ u ∈ (a.drop l).take (r - l), lower ≤ u → v ≤ u else v = dflt := by
    intro lower
    obtain ⟨v, e, h1⟩ := minGeq_tot hb (dflt := dflt) (lower := lower) (l := l) (x := 0) hD h0 ha hr
    simp only [Nat.xor_zero] at h1
    exact ⟨v, e, h1⟩
  have hlt : ∀ upper, ∃ v, maxLt D w s l r 0 upper dflt = .ok v ∧ if ∃ u ∈ (a.drop l).take (r - l), u < upper then
      v ∈ (a.drop l).take (r - l) ∧ v < upper ∧ ∀ u ∈ (a.drop l).take (r - l), u < upper → u ≤ v else v = dflt := by
    intro upper
    obtain ⟨v, e, h1⟩ := maxLt_tot hb (dflt := dflt) (upper := upper) (l := l) (x := 0) hD h0 ha hr
    simp only [Nat.xor_zero] at h1
    exact ⟨v, e, h1⟩
  refine ⟨fun hlr => ?_, hmax, hgeq, fun lower hl => ?_, hlt, fun upper hu => ?_⟩
  · obtain ⟨v, e, h1, h2, h3⟩ := kmin 0 (by omega) (by omega) (2 ^ D - 1)
    refine ⟨v, ?_, h1, fun u hu => ?_⟩
    · rw [xorMin, show decide (l < r) = true by simpa using hlr, check_true, ok_bind, e]
    · by_contra hlt
      have k1 := countP_lt (p := fun _ => false) (q := fun u => decide (u < v)) (fun _ h => by simp at h) hu (by simpa using hlt) (by decide)
      omega
  · rw [minGt]
    by_cases hm : lower = 2 ^ w - 1
    · rw [if_pos hm]
      refine ⟨dflt, rfl, ?_⟩
      rw [if_neg]
      rintro ⟨u, hu, hu2⟩
      have := hmem u hu
      omega
    · rw [if_neg hm, Nat.mod_eq_of_lt (by omega)]
      exact hgeq (lower + 1)
  · rw [maxLeq]
    by_cases hlr : l ≥ r
    · rw [if_pos hlr]
      refine ⟨dflt, rfl, ?_⟩
      rw [if_neg]
      rintro ⟨u, hu, -⟩
      rw [show r - l = 0 by omega, List.take_zero] at hu
      simp at hu
    · rw [if_neg hlr]
      by_cases hm : upper = 2 ^ w - 1
      · rw [if_pos hm]
        obtain ⟨v, e, h1, h2⟩ := hmax (by omega)
        refine ⟨v, e, ?_⟩
        have := hmem v h1
        rw [if_pos ⟨v, h1, by omega⟩]
        exact ⟨h1, by omega, fun u hu _ => h2 u hu⟩
      · rw [if_neg hm, Nat.mod_eq_of_lt (by omega)]
        obtain ⟨v, e, h1⟩ := hlt (upper + 1)
        simp only [Nat.lt_succ_iff] at h1
        exact ⟨v, e, h1⟩

/-- C78. `range_xor_kth_smallest(l, r, k, x)` returns the element `v` of the range for which `v ^ x` is the `k`-th smallest of the values `u ^ x`.
Missing from the property: the documented result is `v ^ x`. -/
theorem wm_range_xor_kth_partial (h : Of w a s) {D : Nat} (hD : w < max D 32) (ha : ∀ v ∈ a, v < 2 ^ w) {x : Nat} (hx : x < 2 ^ w) {l r : Nat} (hr : r ≤ a.length) (dflt : Nat) {k : Nat} (hk : k < r - l) :
    ∃ v, kth D w s l r k x dflt = .ok v ∧ v ∈ (a.drop l).take (r - l) ∧ ((((a.drop l).take (r - l)).map (· ^^^ x)).mergeSort (· ≤ ·))[k]? = some (v ^^^ x) :=
  kth_sorted (of_built h) hD hx ha hr hk

/-- C78 fails: the only value of `{1 ^ 1}` is 0, but the result is 1; likewise for `range_xor_min`. -/
theorem wm_range_xor_wrong : (do let s ← WaveletMatrix.make 2 1 (fun _ => 1); kth 32 2 s 0 1 0 1 9) = .ok 1 ∧
    (do let s ← WaveletMatrix.make 2 1 (fun _ => 1); xorMin 32 2 s 0 1 1) = .ok 1 := by decide +kernel

/-- C78. `range_xor_freq` counts the `v` with `v ^ x` in the interval. -/
theorem wm_range_xor_freq (h : Of w a s) {D : Nat} (hD : w < max D 32) (ha : ∀ v ∈ a, v < 2 ^ w) {x : Nat} (hx : x < 2 ^ w) {l r : Nat} (hr : r ≤ a.length) (upper : Nat) :
    freq D w s l r x upper = .ok (((a.drop l).take (r - l)).countP (fun v => decide (v ^^^ x < upper)) : Int) := freq_tot (of_built h) hD hx ha hr

/-- C78. `range_xor_min_geq` and `range_xor_max_lt` return the element `v` with the least (greatest) `v ^ x` that satisfies the bound. -/
theorem wm_range_xor_order (h : Of w a s) {D : Nat} (hD : w < max D 32) (ha : ∀ v ∈ a, v < 2 ^ w) {x : Nat} (hx : x < 2 ^ w) {l r : Nat} (hr : r ≤ a.length) (dflt b : Nat) :
    (∃ v, minGeq D w s l r x b dflt = .ok v ∧ if ∃ u ∈ (a.drop l).take (r - l), b ≤ u ^^^ x then
      v ∈ (a.drop l).take (r - l) ∧ b ≤ v ^^^ x ∧ ∀ u ∈ (a.drop l).take (r - l), b ≤ u ^^^ x → v ^^^ x ≤ u ^^^ x else v = dflt) ∧
    ∃ v, maxLt D w s l r x b dflt = .ok v ∧ if ∃ u ∈ (a.drop l).take (r - l), u ^^^ x < b then
      v ∈ (a.drop l).take (r - l) ∧ v ^^^ x < b ∧ ∀ u ∈ (a.drop l).take (r - l), u ^^^ x < b → u ^^^ x ≤ v ^^^ x else v = dflt :=
  ⟨minGeq_tot (of_built h) hD hx ha hr, maxLt_tot (of_built h) hD hx ha hr⟩

/-- With the default `bit_num` of a 32 or 64 bit type, `rank` shifts by the width of the type. -/
theorem wm_default_bits_undefined (D : Nat) (hD : 32 ≤ D) (s : WM) (val i : Nat) : rankVal D D s val i = .error .ub := by
  rw [rankVal, checkValue, if_pos (by omega)]
  rfl

example : (do let v ← BitVector.make 300 (fun i => .ok (i % 3 == 0)); rank v true 299) = .ok 100 := by decide +kernel
example : (do let s ← WaveletMatrix.make 3 5 (fun i => [5, 1, 7, 1, 3].getD i 0); let x ← kth 32 3 s 1 5 2 0 9; let y ← freq 32 3 s 0 4 0 5; return (x, y)) = .ok (3, 2) := by decide +kernel
/-- The hypotheses are satisfiable. -/
example : ∃ s, Of 3 [5, 1, 7, 1, 3] s ∧ rankVal 32 3 s 1 4 = .ok 2 := by
  obtain ⟨s, hs⟩ := wm_make 3 [5, 1, 7, 1, 3]
  exact ⟨s, hs, wm_rank hs (by decide) (by decide) (by decide) (by decide)⟩

end WaveletMatrixProps
