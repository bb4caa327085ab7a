import Verif.Model.Quotient
import Verif.Proof.GraphBasic
import Mathlib.Data.Nat.Sqrt
import Mathlib.Data.List.Sort
import Mathlib.Data.Finset.Card
import Mathlib.Data.Finset.Image
import Mathlib.Order.Interval.Finset.Nat
import Mathlib.Tactic.Linarith

/-! # Proofs about `library/number/enumerate_quotient.hpp` and `library/number/kth_root_round.hpp` -/

namespace Quotient
open Cxx

/-- `d` is a positive quotient of `n`. -/
def IsQuot (n d : Nat) : Prop := 0 < d ∧ ∃ x, 0 < x ∧ n / x = d

theorem le_div_div {n d : Nat} (h : n / d ≠ 0) : d ≤ n / (n / d) := by
  rw [Nat.le_div_iff_mul_le (Nat.pos_of_ne_zero h)]
  exact Nat.mul_div_le n d

/-- The quotients are exactly the fixed points of `d ↦ n / (n / d)`. -/
theorem IsQuot.invol {n d : Nat} (h : IsQuot n d) : n / (n / d) = d := by
  obtain ⟨hd, x, hx, rfl⟩ := h
  have h1 : x ≤ n / (n / x) := le_div_div (by omega)
  have h2 : n / (n / (n / x)) ≤ n / x := Nat.div_le_div_left h1 hx
  have hy : 0 < n / (n / x) := by omega
  have h3 := le_div_div (n := n) (d := n / x) (by omega)
  omega

theorem IsQuot.div {n d : Nat} (h : IsQuot n d) : IsQuot n (n / d) := by
  refine ⟨?_, d, h.1, rfl⟩
  obtain ⟨hd, x, hx, rfl⟩ := h
  have : n / x ≤ n := Nat.div_le_self _ _
  exact Nat.div_pos this hd

theorem IsQuot.lt {n d d' : Nat} (h : IsQuot n d) (h' : IsQuot n d') (hlt : d < d') : n / d' < n / d := by
  have h1 : n / d' ≤ n / d := Nat.div_le_div_left hlt.le h.1
  rcases Nat.lt_or_ge (n / d') (n / d) with g | g
  · exact g
  · have : n / d = n / d' := by omega
    have h2 := h.invol
    rw [this, h'.invol] at h2
    omega

/-- The calls of `f` for `n > 0`. -/
def calls (n : Nat) : List Nat :=
  (List.range' 1 (Nat.sqrt n)) ++ ((List.range' 1 (Nat.sqrt n - (if Nat.sqrt n = n / Nat.sqrt n then 1 else 0))).map (n / ·)).reverse

theorem sqrt_mul_le (n : Nat) : Nat.sqrt n * Nat.sqrt n ≤ n := by
  have := Nat.sqrt_le' n
  rwa [Nat.pow_two] at this

theorem lt_sqrt_mul (n : Nat) : n < (Nat.sqrt n + 1) * (Nat.sqrt n + 1) := by
  have := Nat.lt_succ_sqrt' n
  rwa [Nat.pow_two] at this

theorem sqrt_le_div {n l : Nat} (h1 : 1 ≤ l) (h2 : l ≤ Nat.sqrt n) : Nat.sqrt n ≤ n / l := by
  rw [Nat.le_div_iff_mul_le h1]
  exact le_trans (Nat.mul_le_mul_left _ h2) (sqrt_mul_le n)

theorem isQuot_small {n l : Nat} (h1 : 1 ≤ l) (h2 : l ≤ Nat.sqrt n) : IsQuot n l := by
  have h3 := sqrt_le_div h1 h2
  refine ⟨h1, n / l, by omega, ?_⟩
  have h4 := le_div_div (n := n) (d := l) (by omega)
  have h5 : n / (n / l) < l + 1 := by
    rw [Nat.div_lt_iff_lt_mul (by omega)]
    have h6 := Nat.lt_mul_div_succ n h1
    have h7 : (l + 1) * (n / l) = l * (n / l) + n / l := by rw [Nat.add_mul, Nat.one_mul]
    rw [Nat.mul_succ] at h6
    omega
  omega

theorem same_iff {n : Nat} (hn : 0 < n) : Nat.sqrt n = n / Nat.sqrt n ↔ n < Nat.sqrt n * (Nat.sqrt n + 1) := by
  have h0 : 0 < Nat.sqrt n := Nat.sqrt_pos.2 hn
  have h1 := sqrt_le_div (n := n) (l := Nat.sqrt n) h0 (le_refl _)
  rw [Nat.mul_comm, ← Nat.div_lt_iff_lt_mul h0]
  omega

/-- The second half starts above the first. -/
theorem sqrt_lt_div {n l : Nat} (h1 : 1 ≤ l) (h2 : l ≤ Nat.sqrt n - (if Nat.sqrt n = n / Nat.sqrt n then 1 else 0)) : Nat.sqrt n < n / l := by
  have h0 : 1 ≤ Nat.sqrt n := by omega
  have h3 := sqrt_le_div (n := n) (l := l) h1 (by omega)
  by_cases h : Nat.sqrt n = n / Nat.sqrt n
  · rw [if_pos h] at h2
    have := IsQuot.lt (isQuot_small h1 (by omega : l ≤ Nat.sqrt n)) (isQuot_small h0 (le_refl _)) (by omega)
    omega
  · rw [if_neg h] at h2
    have h4 : n / Nat.sqrt n ≤ n / l := Nat.div_le_div_left (by omega) h1
    have h5 := sqrt_le_div (n := n) (l := Nat.sqrt n) h0 (le_refl _)
    omega

theorem calls_sorted (n : Nat) : (calls n).Pairwise (· < ·) := by
  rw [calls, List.pairwise_append]
  refine ⟨List.pairwise_lt_range', ?_, ?_⟩
  · rw [List.pairwise_reverse, List.pairwise_map]
    refine (List.pairwise_lt_range' (s := 1)).imp_of_mem ?_
    intro a b ha hb hab
    rw [List.mem_range'_1] at ha hb
    exact IsQuot.lt (isQuot_small (by omega) (by omega)) (isQuot_small (by omega) (by omega)) hab
  · intro a ha b hb
    rw [List.mem_range'_1] at ha
    rw [List.mem_reverse, List.mem_map] at hb
    obtain ⟨l, hl, rfl⟩ := hb
    rw [List.mem_range'_1] at hl
    have := sqrt_lt_div (n := n) (l := l) (by omega) (by omega)
    omega

theorem mem_calls {n d : Nat} : d ∈ calls n ↔ IsQuot n d := by
  rw [calls, List.mem_append, List.mem_range'_1, List.mem_reverse, List.mem_map]
  constructor
  · rintro (h | ⟨l, hl, rfl⟩)
    · exact isQuot_small (by omega) (by omega)
    · rw [List.mem_range'_1] at hl
      exact (isQuot_small (by omega) (by omega)).div
  · rintro ⟨hd, x, hx, rfl⟩
    by_cases hle : n / x ≤ Nat.sqrt n
    · exact Or.inl ⟨hd, by omega⟩
    · right
      have hxs : x ≤ Nat.sqrt n := by
        by_contra hc
        have h1 : n / x ≤ n / (Nat.sqrt n + 1) := Nat.div_le_div_left (by omega) (by omega)
        have h2 : n / (Nat.sqrt n + 1) < Nat.sqrt n + 1 := by
          rw [Nat.div_lt_iff_lt_mul (by omega)]
          exact lt_sqrt_mul n
        omega
      refine ⟨x, ?_, rfl⟩
      rw [List.mem_range'_1]
      by_cases h : Nat.sqrt n = n / Nat.sqrt n
      · rw [if_pos h]
        have : x ≠ Nat.sqrt n := fun e => by rw [e] at hle; omega
        omega
      · rw [if_neg h]
        omega

theorem calls_length {n : Nat} : (calls n).length = Nat.sqrt n + (Nat.sqrt n - (if Nat.sqrt n = n / Nat.sqrt n then 1 else 0)) := by
  simp [calls]

/-! ## Loops -/

theorem forN_forEach {σ : Type} (f : Nat → σ → M σ) (k i : Nat) (s : σ) : forN f k i s = forEach (List.range' i k) s (fun s j => f j s) := by
  induction k generalizing i s with
  | zero => rfl
  | succ k ih =>
    rw [List.range'_succ, forN, forEach]
    congr
    funext s'
    exact ih (i + 1) s'

theorem forEach_map {σ α β : Type} (g : α → β) (xs : List α) (s : σ) (f : σ → β → M σ) : forEach (xs.map g) s f = forEach xs s (fun s x => f s (g x)) := by
  induction xs generalizing s with
  | nil => rfl
  | cons x xs ih =>
    rw [List.map_cons, forEach, forEach]
    congr
    funext s'
    exact ih s'

theorem forEach_append {σ α : Type} (xs ys : List α) (s : σ) (f : σ → α → M σ) : forEach (xs ++ ys) s f = forEach xs s f >>= fun s => forEach ys s f := by
  induction xs generalizing s with
  | nil => rfl
  | cons x xs ih =>
    rw [List.cons_append, forEach, forEach]
    cases f s x with
    | error e => rfl
    | ok s' => exact ih s'

theorem forDown_forEach {σ : Type} (f : Nat → σ → M σ) (hi lo : Nat) (s : σ) : forDown hi lo s f = forEach (List.range' lo (hi - lo)).reverse s (fun s j => f j s) := by
  rw [forDown, forN_forEach, ← forEach_map (fun j => hi + lo - 1 - j) _ s (fun s j => f j s)]
  congr 1
  apply List.ext_getElem
  · simp
  · intro k h1 h2
    simp at h1 h2 ⊢
    omega

theorem foreach_eq {σ : Type} {n : Nat} (hn : n < 2 ^ 60) (f : σ → Nat → M σ) (c : σ) : foreachQuotients n f c = forEach (calls n) c f := by
  have hs : Nat.sqrt n < 2 ^ 30 := by
    rw [Nat.sqrt_lt']
    norm_num
    omega
  rw [foreachQuotients]
  by_cases h0 : n = 0
  · subst h0
    rw [if_pos rfl]
    rfl
  · rw [if_neg h0, i32_ok ⟨by omega, by omega⟩, ok_bind, i32_ok ⟨by omega, by omega⟩, ok_bind]
    dsimp only
    rw [Int.toNat_natCast, calls, forEach_append, ← List.map_reverse]
    have hm : ((2 * (Nat.sqrt n : Int) - isSame (Nat.sqrt n) n) % 2).toNat = if Nat.sqrt n = n / Nat.sqrt n then 1 else 0 := by
      rw [isSame]
      split <;> omega
    rw [hm]
    simp only [forUp, forN_forEach, forDown_forEach, forEach_map, Nat.add_sub_cancel]

theorem foreach_overflow {σ : Type} {n : Nat} (hn : 2 ^ 60 ≤ n) (f : σ → Nat → M σ) (c : σ) : foreachQuotients n f c = .error .ub := by
  have hs : 2 ^ 30 ≤ Nat.sqrt n := by
    rw [Nat.le_sqrt']
    norm_num
    omega
  rw [foreachQuotients, if_neg (by omega)]
  by_cases h : Nat.sqrt n < 2 ^ 31
  · rw [i32_ok ⟨by omega, by omega⟩, ok_bind, i32, if_neg (by omega)]
    rfl
  · rw [i32, if_neg (by omega)]
    rfl

theorem quotientNum_eq {n : Nat} (hn : n < 2 ^ 63) : quotientNum n = .ok ((calls n).length : Int) := by
  have hs : Nat.sqrt n < 3037000500 := by
    rw [Nat.sqrt_lt']
    norm_num
    omega
  have hp : (Nat.sqrt n : Int) * (Nat.sqrt n + 1) = ((Nat.sqrt n * (Nat.sqrt n + 1) : Nat) : Int) := by push_cast; rfl
  have hb : Nat.sqrt n * (Nat.sqrt n + 1) ≤ 3037000499 * 3037000500 := Nat.mul_le_mul (by omega) (by omega)
  rw [quotientNum, hp, i64_ok ⟨by omega, by omega⟩, ok_bind, i64_ok ⟨by omega, by omega⟩, ok_bind, calls_length]
  by_cases h0 : n = 0
  · subst h0
    rfl
  · have := same_iff (n := n) (by omega)
    by_cases h : Nat.sqrt n = n / Nat.sqrt n
    · rw [if_pos h, if_pos (by have := this.1 h; omega)]
      have : 0 < Nat.sqrt n := Nat.sqrt_pos.2 (by omega)
      rw [i64_ok ⟨by omega, by omega⟩]
      congr 1
      omega
    · rw [if_neg h, if_neg (by have := mt this.2 h; omega)]
      rw [i64_ok ⟨by omega, by omega⟩]
      congr 1
      omega

theorem enumerate_eq {n : Nat} (hn : n < 2 ^ 60) : enumerateQuotients n = .ok (calls n).toArray := by
  rw [enumerateQuotients, quotientNum_eq (by omega), ok_bind, foreach_eq hn, Int.toNat_natCast]
  have : Tot (forEach (calls n) (0, Array.replicate (calls n).length 0) store) fun s => s.2 = (calls n).toArray := by
    refine Tot.mono (P := fun (s : Nat × Array Nat) => s.1 = (calls n).length ∧ s.2.size = (calls n).length ∧ ∀ k < (calls n).length, s.2[k]? = (calls n)[k]?) ?_ ?_
    · refine Tot.forEach (P := fun pre (s : Nat × Array Nat) => s.1 = pre.length ∧ s.2.size = (calls n).length ∧ ∀ k < pre.length, s.2[k]? = pre[k]?) ?_ ?_
      · exact ⟨rfl, by simp, fun k hk => by simp at hk⟩
      · rintro pre x post ⟨it, q⟩ hpre ⟨h1, h2, h3⟩
        dsimp only at h1 h2 h3
        have hlen : pre.length < (calls n).length := by rw [hpre]; simp
        rw [store, wr_eq (by dsimp only; omega), ok_bind]
        refine Tot.pure ⟨by simp [h1], by simpa using h2, fun k hk => ?_⟩
        dsimp only
        rw [List.length_append, List.length_singleton] at hk
        by_cases e : k = pre.length
        · subst e
          rw [h1, Array.getElem?_setIfInBounds_self_of_lt (by omega)]
          simp
        · rw [Array.getElem?_setIfInBounds_ne (by omega), h3 k (by omega), List.getElem?_append_left (by omega)]
    · rintro ⟨it, q⟩ ⟨h1, h2, h3⟩
      dsimp only at h1 h2 h3 ⊢
      apply Array.ext_getElem?
      intro k
      by_cases hk : k < (calls n).length
      · rw [h3 k hk, List.getElem?_toArray]
      · rw [Array.getElem?_eq_none (by omega), Array.getElem?_eq_none (by simpa using hk)]
  obtain ⟨s, hs1, hs2⟩ := this
  rw [hs1, ok_bind, hs2]
  rfl

/-! ## Ranges -/

theorem calls_reverse (n : Nat) : ((calls n).map (n / ·)).reverse = calls n := by
  have h1 : (((calls n).map (n / ·)).reverse).Pairwise (· < ·) := by
    rw [List.pairwise_reverse, List.pairwise_map]
    refine (calls_sorted n).imp_of_mem ?_
    intro a b ha hb hab
    exact IsQuot.lt (mem_calls.1 ha) (mem_calls.1 hb) hab
  refine List.Pairwise.eq_of_mem_iff h1 (calls_sorted n) (fun d => ?_)
  rw [List.mem_reverse, List.mem_map, mem_calls]
  constructor
  · rintro ⟨x, hx, rfl⟩
    exact (mem_calls.1 hx).div
  · intro h
    exact ⟨n / d, mem_calls.2 h.div, h.invol⟩

/-- The range of the `i`-th quotient. -/
theorem range_iff {n i r : Nat} (hr : (calls n)[i]? = some r) {d : Nat} (hd : 0 < d) :
    n / d = n / r ↔ (∀ l, i ≠ 0 → (calls n)[i - 1]? = some l → l < d) ∧ d ≤ r := by
  have hrq : IsQuot n r := mem_calls.1 (List.mem_of_getElem? hr)
  obtain ⟨hi, -⟩ := List.getElem?_eq_some_iff.1 hr
  have hdiv : 0 < n / r := hrq.div.1
  constructor
  · intro h
    refine ⟨fun l hi0 hl => ?_, ?_⟩
    · have hlq : IsQuot n l := mem_calls.1 (List.mem_of_getElem? hl)
      have hlr : l < r := by
        obtain ⟨hl1, rfl⟩ := List.getElem?_eq_some_iff.1 hl
        obtain ⟨hr1, rfl⟩ := List.getElem?_eq_some_iff.1 hr
        exact List.pairwise_iff_getElem.1 (calls_sorted n) _ _ hl1 hr1 (by omega)
      by_contra hc
      have h1 : n / l ≤ n / d := Nat.div_le_div_left (by omega) hd
      have h2 := IsQuot.lt hlq hrq hlr
      omega
    · have h1 := le_div_div (n := n) (d := d) (by omega)
      rwa [h, hrq.invol] at h1
  · rintro ⟨h1, h2⟩
    have h3 : n / r ≤ n / d := Nat.div_le_div_left h2 hd
    have hq' : IsQuot n (n / d) := ⟨by omega, d, hd, rfl⟩
    have hy : d ≤ n / (n / d) := le_div_div (by omega)
    obtain ⟨k, hk⟩ := List.getElem?_of_mem (mem_calls.2 hq'.div)
    have hki : i ≤ k := by
      by_contra hc
      have hpe : (calls n)[i - 1]? = some (calls n)[i - 1] := List.getElem?_eq_getElem (by omega)
      have h4 := h1 _ (by omega) hpe
      obtain ⟨hk1, hk2⟩ := List.getElem?_eq_some_iff.1 hk
      have : (calls n)[k] ≤ (calls n)[i - 1] := by
        by_cases e : k = i - 1
        · subst e
          exact le_refl _
        · exact (List.pairwise_iff_getElem.1 (calls_sorted n) k (i - 1) hk1 (by omega) (by omega)).le
      omega
    have hrk : r ≤ n / (n / d) := by
      obtain ⟨hk1, hk2⟩ := List.getElem?_eq_some_iff.1 hk
      obtain ⟨hr1, hr2⟩ := List.getElem?_eq_some_iff.1 hr
      rw [← hk2, ← hr2]
      by_cases e : i = k
      · subst e
        exact le_refl _
      · exact (List.pairwise_iff_getElem.1 (calls_sorted n) i k hr1 hk1 (by omega)).le
    have h5 : n / (n / (n / d)) ≤ n / r := Nat.div_le_div_left hrk hrq.1
    rw [hq'.invol] at h5
    omega

/-- What `quotient_ranges` returns: consecutive intervals `[l, r]`, each being the set of divisors with quotient `q`. -/
def Ranges (n : Nat) (res : List (Nat × Nat × Nat)) : Prop :=
  (∀ x ∈ res, x.1 ≤ x.2.1 ∧ ∀ d, 0 < d → (n / d = x.2.2 ↔ x.1 ≤ d ∧ d ≤ x.2.1)) ∧
  (∀ d, 0 < d → d ≤ n → ∃ x ∈ res, x.1 ≤ d ∧ d ≤ x.2.1) ∧ (∀ x ∈ res, 0 < x.1 ∧ x.2.1 ≤ n) ∧
  res.Pairwise fun x y => x.2.1 < y.1 ∧ y.2.2 < x.2.2

theorem ranges_tot {n : Nat} (hn : n < 2 ^ 60) : Tot (quotientRanges n) fun res => Ranges n res.toList := by
  rw [quotientRanges, enumerate_eq hn, ok_bind]
  obtain ⟨L, hL⟩ : ∃ L, L = calls n := ⟨_, rfl⟩
  have hrev := calls_reverse n
  have hsort := calls_sorted n
  rw [← hL] at hrev hsort ⊢
  have hsize : L.toArray.size = L.length := by simp
  -- the stored triples
  refine Tot.mono (P := fun (res : Array (Nat × Nat × Nat)) => res.size = L.length ∧ ∀ i < L.length, ∃ l r q, res[i]? = some (l, r, q) ∧ L[i]? = some r ∧ L[L.length - i - 1]? = some q ∧
      (i = 0 ∧ l = 1 ∨ i ≠ 0 ∧ ∃ l', L[i - 1]? = some l' ∧ l = l' + 1)) ?_ ?_
  · rw [hsize]
    refine Tot.forUp (P := fun k (res : Array (Nat × Nat × Nat)) => res.size = L.length ∧ ∀ i < k, ∃ l r q, res[i]? = some (l, r, q) ∧ L[i]? = some r ∧ L[L.length - i - 1]? = some q ∧
      (i = 0 ∧ l = 1 ∨ i ≠ 0 ∧ ∃ l', L[i - 1]? = some l' ∧ l = l' + 1)) (Nat.zero_le _) ?_ ?_
    · exact ⟨by simp, fun i hi => by omega⟩
    · rintro i res - hi ⟨h1, h2⟩
      have hlow : ∃ l, lower L.toArray i = .ok l ∧ (i = 0 ∧ l = 1 ∨ i ≠ 0 ∧ ∃ l', L[i - 1]? = some l' ∧ l = l' + 1) := by
        rw [lower]
        by_cases h0 : i = 0
        · rw [if_neg (by simpa using h0)]
          exact ⟨1, rfl, Or.inl ⟨h0, rfl⟩⟩
        · have hpe : L[i - 1]? = some L[i - 1] := List.getElem?_eq_getElem (by omega)
          rw [if_pos h0, rd_some (by rw [List.getElem?_toArray]; exact hpe), ok_bind]
          exact ⟨_, rfl, Or.inr ⟨h0, _, hpe, rfl⟩⟩
      obtain ⟨l, hl1, hl2⟩ := hlow
      have hr : L[i]? = some L[i] := List.getElem?_eq_getElem hi
      have hq : L[L.length - i - 1]? = some L[L.length - i - 1] := List.getElem?_eq_getElem (by omega)
      rw [rangeStep, hl1, ok_bind, rd_some (by rw [List.getElem?_toArray]; exact hr), ok_bind, hsize, rd_some (by rw [List.getElem?_toArray]; exact hq), ok_bind, wr_eq (by omega)]
      refine Tot.pure ⟨by simpa using h1, fun k hk => ?_⟩
      by_cases e : k = i
      · subst e
        exact ⟨l, _, _, Array.getElem?_setIfInBounds_self_of_lt (by omega), hr, hq, hl2⟩
      · rw [Array.getElem?_setIfInBounds_ne (Ne.symm e)]
        exact h2 k (by omega)
  · rintro res ⟨h1, h2⟩
    -- the quotient is `n / r`
    have hquot : ∀ i r q, i < L.length → L[i]? = some r → L[L.length - i - 1]? = some q → q = n / r := by
      intro i r q hi hr hq
      have e : L[L.length - i - 1]? = ((L.map (n / ·)).reverse)[L.length - i - 1]? := by rw [hrev]
      rw [e, List.getElem?_reverse (by simp; omega), List.length_map, List.getElem?_map, show L.length - 1 - (L.length - i - 1) = i by omega, hr] at hq
      simpa using hq.symm
    have hmem : ∀ x ∈ res.toList, ∃ i, i < L.length ∧ res[i]? = some x := by
      intro x hx
      obtain ⟨i, hi⟩ := Array.getElem?_of_mem (Array.mem_toList_iff.1 hx)
      obtain ⟨hlt, -⟩ := Array.getElem?_eq_some_iff.1 hi
      exact ⟨i, by omega, hi⟩
    have hdesc : ∀ i x, i < L.length → res[i]? = some x → L[i]? = some x.2.1 ∧ x.2.2 = n / x.2.1 ∧ (i = 0 ∧ x.1 = 1 ∨ i ≠ 0 ∧ ∃ l', L[i - 1]? = some l' ∧ x.1 = l' + 1) := by
      intro i x hi hx
      obtain ⟨l, r, q, k1, k2, k3, k4⟩ := h2 i hi
      rw [hx] at k1
      cases k1
      exact ⟨k2, hquot i r q hi k2 k3, k4⟩
    have hlr : ∀ i x, i < L.length → res[i]? = some x → 0 < x.1 ∧ x.1 ≤ x.2.1 := by
      intro i x hi hx
      obtain ⟨k1, -, k3⟩ := hdesc i x hi hx
      have hrq : IsQuot n x.2.1 := mem_calls.1 (hL ▸ List.mem_of_getElem? k1)
      rcases k3 with ⟨-, k3⟩ | ⟨hi0, l', k3, k4⟩
      · have := hrq.1
        omega
      · obtain ⟨hl1, hl2⟩ := List.getElem?_eq_some_iff.1 k3
        obtain ⟨hr1, hr2⟩ := List.getElem?_eq_some_iff.1 k1
        have := List.pairwise_iff_getElem.1 hsort _ _ hl1 hr1 (by omega)
        omega
    have hset : ∀ i x, i < L.length → res[i]? = some x → ∀ d, 0 < d → (n / d = x.2.2 ↔ x.1 ≤ d ∧ d ≤ x.2.1) := by
      intro i x hi hx d hd
      obtain ⟨k1, k2, k3⟩ := hdesc i x hi hx
      rw [k2, range_iff (by rw [← hL]; exact k1) hd, ← hL]
      rcases k3 with ⟨rfl, k3⟩ | ⟨hi0, l', k3, k4⟩
      · rw [k3]
        exact ⟨fun h => ⟨hd, h.2⟩, fun h => ⟨fun l h0 => absurd rfl h0, h.2⟩⟩
      · rw [k4]
        constructor
        · rintro ⟨q1, q2⟩
          exact ⟨q1 l' hi0 k3, q2⟩
        · rintro ⟨q1, q2⟩
          refine ⟨fun l _ hl => ?_, q2⟩
          rw [k3] at hl
          cases hl
          omega
    refine ⟨?_, ?_, ?_, ?_⟩
    · intro x hx
      obtain ⟨i, hi, hxi⟩ := hmem x hx
      exact ⟨(hlr i x hi hxi).2, hset i x hi hxi⟩
    · intro d hd hdn
      have hq : IsQuot n (n / d) := ⟨Nat.div_pos hdn hd, d, hd, rfl⟩
      obtain ⟨i, hi⟩ := List.getElem?_of_mem (mem_calls.2 hq.div)
      rw [← hL] at hi
      obtain ⟨hlt, -⟩ := List.getElem?_eq_some_iff.1 hi
      obtain ⟨l, r, q, k1, k2, k3, k4⟩ := h2 i hlt
      refine ⟨(l, r, q), Array.mem_toList_iff.2 (Array.mem_of_getElem? k1), ?_⟩
      have := (hset i (l, r, q) hlt k1 d hd).1
      apply this
      dsimp only
      rw [hi] at k2
      cases k2
      rw [hquot i _ q hlt hi k3, hq.invol]
    · intro x hx
      obtain ⟨i, hi, hxi⟩ := hmem x hx
      refine ⟨(hlr i x hi hxi).1, ?_⟩
      obtain ⟨k1, -, -⟩ := hdesc i x hi hxi
      obtain ⟨-, y, -, hy⟩ : IsQuot n x.2.1 := mem_calls.1 (hL ▸ List.mem_of_getElem? k1)
      rw [← hy]
      exact Nat.div_le_self _ _
    · rw [List.pairwise_iff_getElem]
      intro i j hi hj hij
      rw [Array.length_toList] at hi hj
      have hxi : res[i]? = some res.toList[i] := by simp [hi]
      have hxj : res[j]? = some res.toList[j] := by simp [hj]
      obtain ⟨a1, a2, a3⟩ := hdesc i _ (by omega) hxi
      obtain ⟨b1, b2, b3⟩ := hdesc j _ (by omega) hxj
      have q1 : IsQuot n (res.toList[i]).2.1 := mem_calls.1 (hL ▸ List.mem_of_getElem? a1)
      have q2 : IsQuot n (res.toList[j]).2.1 := mem_calls.1 (hL ▸ List.mem_of_getElem? b1)
      have hmono : ∀ a b u v : Nat, a ≤ b → L[a]? = some u → L[b]? = some v → u ≤ v := by
        intro a b u v hab hu hv
        obtain ⟨w1, w2⟩ := List.getElem?_eq_some_iff.1 hu
        obtain ⟨w3, w4⟩ := List.getElem?_eq_some_iff.1 hv
        by_cases e : a = b
        · subst e
          omega
        · have := List.pairwise_iff_getElem.1 hsort a b w1 w3 (by omega)
          omega
      have hstrict : (res.toList[i]).2.1 < (res.toList[j]).2.1 := by
        obtain ⟨w1, w2⟩ := List.getElem?_eq_some_iff.1 a1
        obtain ⟨w3, w4⟩ := List.getElem?_eq_some_iff.1 b1
        have := List.pairwise_iff_getElem.1 hsort i j w1 w3 hij
        omega
      constructor
      · rcases b3 with ⟨b3, -⟩ | ⟨-, l', b3, b4⟩
        · omega
        · have := hmono i (j - 1) _ _ (by omega) a1 b3
          omega
      · rw [a2, b2]
        exact IsQuot.lt q1 q2 hstrict

/-! ## Several values -/

/-- What `multiple_quotients_ranges` returns up to divisor `b`. -/
def MultiRanges (vs : Array Nat) (b : Nat) (res : List (Nat × Nat × Array Nat)) : Prop :=
  (∀ x ∈ res, 0 < x.1 ∧ x.1 ≤ x.2.1 ∧ x.2.1 ≤ b ∧ x.2.2.size = vs.size ∧
    ∀ d, 0 < d → ((∀ i v : Nat, vs[i]? = some v → x.2.2[i]? = some (v / d)) ↔ x.1 ≤ d ∧ d ≤ x.2.1)) ∧
  (∀ d, 0 < d → d ≤ b → ∃ x ∈ res, x.1 ≤ d ∧ d ≤ x.2.1) ∧ res.Pairwise fun x y => x.2.1 < y.1

theorem le_foldl_max (l : List Nat) (a : Nat) : a ≤ l.foldl max a ∧ (∀ x ∈ l, x ≤ l.foldl max a) ∧ (l.foldl max a = a ∨ l.foldl max a ∈ l) := by
  induction l generalizing a with
  | nil => simp
  | cons x l ih =>
    obtain ⟨h1, h2, h3⟩ := ih (max a x)
    rw [List.foldl_cons]
    refine ⟨by omega, ?_, ?_⟩
    · intro y hy
      rw [List.mem_cons] at hy
      rcases hy with rfl | hy
      · omega
      · exact h2 y hy
    · rcases h3 with h3 | h3
      · rcases Nat.le_total a x with h | h
        · rw [h3, Nat.max_eq_right h]
          simp
        · rw [h3, Nat.max_eq_left h]
          simp
      · exact Or.inr (List.mem_cons_of_mem _ h3)

theorem multi_tot (vs : Array Nat) (hne : 0 < vs.size) (hlt : ∀ v ∈ vs, v < 2 ^ 63 - 1) :
    Tot (multipleRanges vs) fun res => MultiRanges vs (vs.toList.foldl max 0) res.toList := by
  obtain ⟨mx, hmx⟩ : ∃ mx, mx = vs.toList.foldl max 0 := ⟨_, rfl⟩
  obtain ⟨-, hm1, hm2⟩ := le_foldl_max vs.toList 0
  rw [← hmx] at hm1 hm2 ⊢
  have hmlt : mx < 2 ^ 63 - 1 := by
    rcases hm2 with h | h
    · omega
    · exact hlt mx (Array.mem_toList_iff.1 h)
  rw [multipleRanges, if_neg (by omega), ← hmx]
  dsimp only
  refine Tot.bind (P := fun (s : Nat × Array (Nat × Nat × Array Nat)) => MultiRanges vs mx s.2.toList) ?_ (fun s h => Tot.pure h)
  refine Tot.loop (P := fun (s : Nat × Array (Nat × Nat × Array Nat)) => 0 < s.1 ∧ s.1 ≤ mx + 1 ∧ MultiRanges vs (s.1 - 1) s.2.toList ∧
      (s.1 ≠ 1 → ∃ i v : Nat, vs[i]? = some v ∧ v / s.1 < v / (s.1 - 1))) (fun s => mx + 1 - s.1) ?_ ?_ (by dsimp only; omega)
  · rintro ⟨l, res⟩ ⟨h1, h2, h3, h4⟩
    dsimp only at h1 h2 h3 h4
    rw [multiBody]
    dsimp only
    by_cases hl : l ≤ mx
    · rw [if_pos hl]
      refine Tot.bind (P := fun (t : Nat × Array Nat) => t.2.size = vs.size ∧ (∀ i v : Nat, vs[i]? = some v → t.2[i]? = some (v / l)) ∧ t.1 ≤ maxT ∧
          (∀ i v : Nat, vs[i]? = some v → v / l ≠ 0 → t.1 ≤ v / (v / l)) ∧ (t.1 = maxT ∨ ∃ i v : Nat, vs[i]? = some v ∧ v / l ≠ 0 ∧ t.1 = v / (v / l))) ?_ ?_
      · refine Tot.mono (P := fun (t : Nat × Array Nat) => t.2.size = vs.size ∧ (∀ i v : Nat, i < vs.size → vs[i]? = some v → t.2[i]? = some (v / l)) ∧ t.1 ≤ maxT ∧
          (∀ i v : Nat, i < vs.size → vs[i]? = some v → v / l ≠ 0 → t.1 ≤ v / (v / l)) ∧ (t.1 = maxT ∨ ∃ i v : Nat, vs[i]? = some v ∧ v / l ≠ 0 ∧ t.1 = v / (v / l))) ?_ ?_
        · refine Tot.forUp (P := fun k (t : Nat × Array Nat) => t.2.size = vs.size ∧ (∀ i v : Nat, i < k → vs[i]? = some v → t.2[i]? = some (v / l)) ∧ t.1 ≤ maxT ∧
            (∀ i v : Nat, i < k → vs[i]? = some v → v / l ≠ 0 → t.1 ≤ v / (v / l)) ∧ (t.1 = maxT ∨ ∃ i v : Nat, vs[i]? = some v ∧ v / l ≠ 0 ∧ t.1 = v / (v / l))) (Nat.zero_le _) ?_ ?_
          · exact ⟨by simp, fun i v hi => by omega, le_refl _, fun i v hi => by omega, Or.inl rfl⟩
          · rintro k ⟨r, qs⟩ - hk ⟨k1, k2, k3, k4, k5⟩
            dsimp only at k1 k2 k3 k4 k5
            have hv : vs[k]? = some vs[k] := Array.getElem?_eq_getElem hk
            rw [multiStep, rd_some hv, ok_bind, wr_eq (by dsimp only; omega), ok_bind]
            refine Tot.pure ⟨by simpa using k1, fun i v hi hvi => ?_, by dsimp only; omega, fun i v hi hvi hne => ?_, ?_⟩
            · dsimp only
              by_cases e : i = k
              · subst e
                rw [hv] at hvi
                cases hvi
                rw [Array.getElem?_setIfInBounds_self_of_lt (by omega)]
              · rw [Array.getElem?_setIfInBounds_ne (Ne.symm e)]
                exact k2 i v (by omega) hvi
            · dsimp only
              by_cases e : i = k
              · subst e
                rw [hv] at hvi
                cases hvi
                rw [if_neg hne]
                omega
              · have := k4 i v (by omega) hvi hne
                omega
            · dsimp only
              by_cases hz : vs[k] / l = 0
              · rw [if_pos hz, Nat.min_eq_left k3]
                exact k5
              · rw [if_neg hz]
                rcases Nat.le_total r (vs[k] / (vs[k] / l)) with h | h
                · rw [Nat.min_eq_left h]
                  exact k5
                · rw [Nat.min_eq_right h]
                  exact Or.inr ⟨k, _, hv, hz, rfl⟩
        · rintro t ⟨k1, k2, k3, k4, k5⟩
          exact ⟨k1, fun i v hv => k2 i v (Array.getElem?_eq_some_iff.1 hv).1 hv, k3, fun i v hv => k4 i v (Array.getElem?_eq_some_iff.1 hv).1 hv, k5⟩
      · rintro ⟨r, qs⟩ ⟨k1, k2, k3, k4, k5⟩
        dsimp only at k1 k2 k3 k4 k5
        -- the maximum has a positive quotient
        obtain ⟨im, him⟩ : ∃ i : Nat, vs[i]? = some mx := by
          rcases hm2 with h | h
          · omega
          · exact Array.getElem?_of_mem (Array.mem_toList_iff.1 h)
        have hqm : mx / l ≠ 0 := Nat.pos_iff_ne_zero.1 (Nat.div_pos hl h1)
        have hrm : r ≤ mx := le_trans (k4 im mx him hqm) (Nat.div_le_self _ _)
        have hatt : ∃ i v : Nat, vs[i]? = some v ∧ v / l ≠ 0 ∧ r = v / (v / l) := by
          rcases k5 with h | h
          · unfold maxT at h
            omega
          · exact h
        obtain ⟨i0, v0, hv0, hq0, hr0⟩ := hatt
        have hlr : l ≤ r := by rw [hr0]; exact le_div_div hq0
        dsimp only
        rw [i64_ok ⟨by omega, by omega⟩, ok_bind]
        have hnext : v0 / (r + 1) < v0 / r := by
          have e1 : v0 / r = v0 / l := by
            rw [hr0]
            exact IsQuot.invol ⟨Nat.pos_of_ne_zero hq0, l, h1, rfl⟩
          rw [e1, Nat.div_lt_iff_lt_mul (by omega), hr0, Nat.mul_comm]
          have := Nat.lt_mul_div_succ v0 (Nat.pos_of_ne_zero hq0)
          rwa [Nat.mul_comm] at this
        have hset : ∀ d, 0 < d → ((∀ i v : Nat, vs[i]? = some v → qs[i]? = some (v / d)) ↔ l ≤ d ∧ d ≤ r) := by
          intro d hd
          constructor
          · intro h
            have heq : ∀ i v : Nat, vs[i]? = some v → v / d = v / l := by
              intro i v hv
              have := h i v hv
              rw [k2 i v hv] at this
              exact (Option.some.inj this).symm
            refine ⟨?_, ?_⟩
            · by_contra hc
              obtain ⟨i, v, hv, hvl⟩ := h4 (by omega)
              have q1 : v / (l - 1) ≤ v / d := Nat.div_le_div_left (by omega) hd
              have := heq i v hv
              omega
            · rw [hr0, ← heq i0 v0 hv0]
              exact le_div_div (by rw [heq i0 v0 hv0]; exact hq0)
          · rintro ⟨hd1, hd2⟩ i v hv
            rw [k2 i v hv]
            congr 1
            have q1 : v / d ≤ v / l := Nat.div_le_div_left hd1 h1
            by_cases hz : v / l = 0
            · exact (hz.trans (Nat.le_zero.1 (hz ▸ q1)).symm)
            · have q2 := le_trans hd2 (k4 i v hv hz)
              have q3 : v / l ≤ v / d := by
                rw [Nat.le_div_iff_mul_le hd]
                calc v / l * d ≤ v / l * (v / (v / l)) := Nat.mul_le_mul_left _ q2
                  _ ≤ v := Nat.mul_div_le _ _
              omega
        refine Tot.pure ⟨⟨by dsimp only; omega, by dsimp only; omega, ⟨?_, ?_, ?_⟩, ?_⟩, by dsimp only; omega⟩
        · intro x hx
          dsimp only at hx ⊢
          rw [Array.toList_push, List.mem_append, List.mem_singleton] at hx
          rcases hx with hx | rfl
          · obtain ⟨q1, q2, q3, q4, q5⟩ := h3.1 x hx
            exact ⟨q1, q2, by omega, q4, q5⟩
          · exact ⟨h1, hlr, by dsimp only; omega, k1, hset⟩
        · intro d hd hdr
          dsimp only at hdr ⊢
          rw [Array.toList_push]
          by_cases hdl : d < l
          · obtain ⟨x, hx, q⟩ := h3.2.1 d hd (by omega)
            exact ⟨x, List.mem_append_left _ hx, q⟩
          · exact ⟨(l, r, qs), by simp, by dsimp only; omega, by dsimp only; omega⟩
        · dsimp only
          rw [Array.toList_push, List.pairwise_append]
          refine ⟨h3.2.2, by simp, fun x hx y hy => ?_⟩
          rw [List.mem_singleton] at hy
          subst hy
          have := (h3.1 x hx).2.2.1
          dsimp only
          omega
        · intro _
          dsimp only
          refine ⟨i0, v0, hv0, ?_⟩
          rw [show ((r : Int) + 1).toNat = r + 1 by omega, Nat.add_sub_cancel]
          exact hnext
    · rw [if_neg hl]
      refine Tot.pure ?_
      have : mx = l - 1 := by omega
      dsimp only
      rw [this]
      exact h3
  · exact ⟨by omega, by dsimp only; omega, ⟨by simp, fun d h1 h2 => by simp at h2; omega, by simp⟩, fun h => absurd rfl h⟩

end Quotient

namespace KthRoot
open Cxx

/-- `r` is the largest integer with `r ^ k ≤ x`. -/
def IsRoot (x k r : Nat) : Prop := r ^ k ≤ x ∧ x < (r + 1) ^ k

theorem floor_tot {guess : Nat → Nat → Nat} {x k : Nat} (hk : 1 ≤ k) (hx : x < 2 ^ 64) (hg : 3 ≤ k → k < 64 → guess x k ^ k ≤ x) :
    Tot (floorRoot guess x k) (IsRoot x k) := by
  rw [floorRoot]
  by_cases h1 : k = 1 ∨ x = 0 ∨ x = 1
  · rw [if_pos h1]
    refine Tot.pure ?_
    rcases h1 with rfl | rfl | rfl
    · exact ⟨by simp, by simp⟩
    · exact ⟨by rw [Nat.zero_pow (by omega)], by simp⟩
    · refine ⟨by simp, ?_⟩
      calc 1 < 2 := by omega
        _ = 2 ^ 1 := rfl
        _ ≤ (1 + 1) ^ k := Nat.pow_le_pow_right (by omega) hk
  · rw [if_neg h1]
    by_cases h2 : k = 2
    · subst h2
      rw [if_pos rfl]
      exact Tot.pure ⟨Nat.sqrt_le' x, Nat.lt_succ_sqrt' x⟩
    · rw [if_neg h2]
      by_cases h3 : k ≥ 64
      · rw [if_pos h3]
        refine Tot.pure ⟨by rw [Nat.one_pow]; omega, ?_⟩
        calc x < 2 ^ 64 := hx
          _ ≤ (1 + 1) ^ k := Nat.pow_le_pow_right (by omega) h3
      · rw [if_neg h3]
        have hle : ∀ r, r ^ k ≤ x → r ≤ x := fun r hr => le_trans (Nat.le_self_pow (by omega) r) hr
        refine Tot.loop (P := fun r => r ^ k ≤ x) (fun r => x - r) ?_ (hg (by omega) (by omega)) (by omega)
        intro r hr
        rw [climb]
        by_cases hc : (r + 1) ^ k ≤ x
        · rw [if_pos hc]
          have := hle _ hc
          exact Tot.pure ⟨hc, by omega⟩
        · rw [if_neg hc]
          exact Tot.pure ⟨hr, Nat.lt_of_not_le hc⟩

/-- `r` is the least integer with `x ≤ r ^ k`. -/
def IsCeil (x k r : Nat) : Prop := x ≤ r ^ k ∧ ∀ s, x ≤ s ^ k → r ≤ s

theorem ceil_tot {guess : Nat → Nat → Nat} {x k : Nat} (hk : 1 ≤ k) (hx : x < 2 ^ 64) (hg : 3 ≤ k → k < 64 → guess x k ^ k ≤ x) :
    Tot (ceilRoot guess x k) (IsCeil x k) := by
  rw [ceilRoot]
  refine Tot.bind (floor_tot hk hx hg) ?_
  rintro r ⟨h1, h2⟩
  refine Tot.pure ?_
  by_cases hc : r ^ k < x
  · rw [if_pos hc]
    refine ⟨h2.le, fun s hs => ?_⟩
    by_contra hn
    have : s ^ k ≤ r ^ k := Nat.pow_le_pow_left (by omega) k
    omega
  · rw [if_neg hc, Nat.add_zero]
    refine ⟨by omega, fun s hs => ?_⟩
    by_contra hn
    have : s ^ k < r ^ k := Nat.pow_lt_pow_left (by omega) (by omega)
    omega

end KthRoot
