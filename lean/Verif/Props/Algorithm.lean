import Verif.Proof.LIS
import Verif.Proof.Subsequences
import Verif.Proof.MaxRectangle
import Verif.Proof.MaxSquare
import Verif.Proof.InversionNumber
import Mathlib.Algebra.Ring.Int.Defs
import Mathlib.Data.Set.Card
import Mathlib.Data.Nat.Basic

/-!
# C53, C54, C57, C58, C76: subsequences, rectangles, monotone minima, inversions
-/

namespace AlgorithmProps
open Cxx

/-! ## C53 -/

section LIS
variable {α : Type} [LinearOrder α]

/-- Increasing positions of `a` whose values are related by `R`, each one to all later ones. -/
def IsSubseq (R : α → α → Prop) (a : Array α) (c : List Nat) : Prop :=
  (∀ i ∈ c, i < a.size) ∧ c.Pairwise fun i j => i < j ∧ ∃ x y, a[i]? = some x ∧ a[j]? = some y ∧ R x y

/-- A longest such list of positions. -/
def IsLongest (R : α → α → Prop) (a : Array α) (c : List Nat) : Prop := IsSubseq R a c ∧ ∀ c', IsSubseq R a c' → c'.length ≤ c.length

theorem of_longest {R : α → α → Prop} [DecidableRel R] {a : Array α} {c : List Nat} (h : LIS.Longest (fun x y => decide (R x y)) a c) : IsLongest R a c := by
  obtain ⟨h1, h2, h3⟩ := h
  refine ⟨⟨h2, h1.imp fun h => ?_⟩, fun c' hc => h3 c' (hc.2.imp fun h => ?_) hc.1⟩
  · simpa only [LIS.Next, decide_eq_true_eq] using h
  · simpa only [LIS.Next, decide_eq_true_eq] using h

/-- C53: `longest_increasing_subsequence`. -/
theorem longest_increasing (a : Array α) : ∃ r, LIS.increasing a = .ok r ∧ IsLongest (· < ·) a r.toList := by
  obtain ⟨r, h1, h2⟩ := LIS.solve_tot LIS.cmp_lt a
  exact ⟨r, h1, of_longest h2⟩

/-- C53: `longest_nondecreasing_subsequence`. -/
theorem longest_nondecreasing (a : Array α) : ∃ r, LIS.nondecreasing a = .ok r ∧ IsLongest (· ≤ ·) a r.toList := by
  obtain ⟨r, h1, h2⟩ := LIS.solve_tot LIS.cmp_le a
  exact ⟨r, h1, of_longest h2⟩

/-- C53: `longest_nonincreasing_subsequence`. -/
theorem longest_nonincreasing (a : Array α) : ∃ r, LIS.nonincreasing a = .ok r ∧ IsLongest (· ≥ ·) a r.toList := by
  obtain ⟨r, h1, h2⟩ := LIS.solve_tot LIS.cmp_ge a
  exact ⟨r, h1, of_longest h2⟩

/-- C53: `longest_decreasing_subsequence`. -/
theorem longest_decreasing (a : Array α) : ∃ r, LIS.decreasing a = .ok r ∧ IsLongest (· > ·) a r.toList := by
  obtain ⟨r, h1, h2⟩ := LIS.solve_tot LIS.cmp_gt a
  exact ⟨r, h1, of_longest h2⟩

end LIS

example : LIS.increasing (#[3, 1, 4, 1, 5, 9, 2, 6] : Array Int) = .ok #[1, 2, 4, 7] ∧ LIS.nondecreasing (#[3, 1, 4, 1, 5, 9, 2, 6] : Array Int) = .ok #[1, 3, 6, 7] ∧
    LIS.nonincreasing (#[3, 1, 4, 1, 5, 9, 2, 6] : Array Int) = .ok #[0, 1, 3] ∧ LIS.decreasing (#[3, 1, 4, 1, 5, 9, 2, 6] : Array Int) = .ok #[5, 7] := by decide +kernel

/-! ## C54 -/

/-- C54: the result is the number of different non-empty subsequences, in the ring of the result type. -/
theorem number_of_subsequences {α R : Type} [LinearOrder α] [CommRing R] (a : Array α) :
    Subsequences.run R a = .ok (({t : List α | t ≠ [] ∧ t.Sublist a.toList}.ncard : Nat) : R) := by
  obtain ⟨r, h1, rfl⟩ := Subsequences.run_tot (R := R) a
  rw [h1]
  congr 2
  rw [← Set.ncard_coe_finset]
  congr 1
  ext t
  simp [Subsequences.mem_S, and_comm]

example : Subsequences.run Int (#[1, 2, 1, 1] : Array Int) = .ok 9 := by
  obtain ⟨r, h1, rfl⟩ := Subsequences.run_tot (R := Int) (#[1, 2, 1, 1] : Array Int)
  rw [h1]
  decide +kernel

/-! ## C57 -/

open Grid

/-- C57: `maximum_rectngle` returns an all-true rectangle `[u, d) × [l, r)` of the grid of largest area, with that area. -/
theorem maximum_rectangle (g : Array (Array Bool)) (m : Nat) (hg : Rect g m) (hsz : g.size * m < 2 ^ 31) :
    ∃ u d l r : Nat, MaxRectangle.maximum g = .ok ((((d - u) * (r - l) : Nat) : Int), (u : Int), (d : Int), l, r) ∧
      u ≤ d ∧ d ≤ g.size ∧ l ≤ r ∧ r ≤ m ∧ AllTrue g u d l r ∧
      ∀ u' d' l' r', d' ≤ g.size → r' ≤ m → AllTrue g u' d' l' r' → (d' - u') * (r' - l') ≤ (d - u) * (r - l) := by
  obtain ⟨⟨A, U, D, l, r⟩, h1, u, d, h2, h3, h4, h5, h6, h7, h8, h9, h10⟩ := MaxRectangle.maximum_tot hg hsz
  dsimp only at h2 h3 h6 h7 h8 h9 h10
  subst h2 h3 h9
  refine ⟨u, d, l, r, h1, h4, h5, h6, h7, h8, fun u' d' l' r' k1 k2 k3 => ?_⟩
  by_cases ku : u' ≤ d'
  · by_cases kl : l' ≤ r'
    · exact_mod_cast h10 u' d' l' r' ku k1 kl k2 k3
    · rw [show r' - l' = 0 by omega]
      simp
  · rw [show d' - u' = 0 by omega]
    simp

/-- C57: `maximum_square`. -/
theorem maximum_square (g : Array (Array Bool)) (m : Nat) (hg : Rect g m) (hsz : g.size * m < 2 ^ 31) (h0 : g.size = 0 → m = 0) :
    ∃ u d l r : Nat, MaxSquare.maximum g = .ok ((((d - u) * (r - l) : Nat) : Int), (u : Int), (d : Int), (l : Int), (r : Int)) ∧
      u ≤ d ∧ d ≤ g.size ∧ l ≤ r ∧ r ≤ m ∧ d - u = r - l ∧ AllTrue g u d l r ∧
      ∀ u' d' l' r', u' ≤ d' → d' ≤ g.size → l' ≤ r' → r' ≤ m → d' - u' = r' - l' → AllTrue g u' d' l' r' → d' - u' ≤ d - u := by
  obtain ⟨⟨A, B⟩, h1, u, d, l, r, h2, h4, h5, h6, h7, h8, h9, h10, h11⟩ := MaxSquare.maximum_tot hg h0 hsz
  dsimp only at h2 h10 h11
  subst h2 h10
  refine ⟨u, d, l, r, h1, h4, h5, h6, h7, h8, h9, fun u' d' l' r' k1 k2 k3 k4 k5 k6 => ?_⟩
  have := h11 u' d' l' r' k1 k2 k3 k4 k5 k6
  rw [← k5, ← h8] at this
  have h : (d' - u') * (d' - u') ≤ (d - u) * (d - u) := by exact_mod_cast this
  exact Nat.mul_self_le_mul_self_iff.1 h

/-- C57: `maximal_rectangles` only reports all-true rectangles `(u, d, l, r)`, and every inclusion-maximal non-empty one is among them. -/
theorem maximal_rectangles (g : Array (Array Bool)) (m : Nat) (hg : Rect g m) :
    ∃ rep, MaxRectangle.collect g = .ok rep ∧
      (∀ x ∈ rep, ∃ u d l r : Nat, x = ((u : Int), (d : Int), l, r) ∧ u ≤ d ∧ d ≤ g.size ∧ l < r ∧ r ≤ m ∧ AllTrue g u d l r) ∧
      ∀ u d l r : Nat, u < d → d ≤ g.size → l < r → r ≤ m → AllTrue g u d l r →
        (∀ u' d' l' r', u' ≤ u → d ≤ d' → d' ≤ g.size → l' ≤ l → r ≤ r' → r' ≤ m → AllTrue g u' d' l' r' → (u', d', l', r') = (u, d, l, r)) →
        ((u : Int), (d : Int), l, r) ∈ rep := by
  obtain ⟨c, h1, rep, h2, h3, h4⟩ := MaxRectangle.rectangles_tot hg (f := fun acc u d l r => return acc ++ [(u, d, l, r)])
    (Q := fun rep c => c = rep) (c := []) (fun rep c u d l r _ h => by subst h; exact Tot.pure rfl) rfl
  subst h2
  refine ⟨c, h1, ?_, ?_⟩
  · rintro ⟨U, D, l, r⟩ hx
    obtain ⟨u, d, k1, k2, k3⟩ := h3 _ hx
    dsimp only at k1 k2 k3
    subst k1 k2
    exact ⟨u, d, l, r, rfl, k3⟩
  · intro u d l r q1 q2 q3 q4 q5 hmax
    obtain ⟨⟨U, D, l', r'⟩, hx, w1, w2, w3, w4⟩ := h4 u d l r q1 q2 q3 q4 q5
    obtain ⟨u', d', k1, k2, k3, k4, k5, k6, k7⟩ := h3 _ hx
    dsimp only at w1 w2 w3 w4 k1 k2 k3 k4 k5 k6 k7
    subst k1 k2
    have := hmax u' d' l' r' (by omega) (by omega) k4 w3 w4 k6 k7
    simp only [Prod.mk.injEq] at this
    obtain ⟨rfl, rfl, rfl, rfl⟩ := this
    exact hx

/-- Finding: rectangles that are not maximal are reported too (here `[0, 1) × [0, 1)` inside `[0, 1) × [0, 2)`), and so are empty ones. -/
theorem maximal_rectangles_finding : MaxRectangle.collect #[#[true, true]] = .ok [(0, 1, 0, 1), (0, 1, 0, 2)] ∧
    MaxRectangle.collect #[#[false]] = .ok [(1, 1, 0, 1)] := by decide +kernel

example : MaxRectangle.maximum #[#[true, true, false], #[true, true, true], #[false, true, true]] = .ok (4, 0, 2, 0, 2) ∧
    MaxSquare.maximum #[#[true, true, false], #[true, true, true], #[false, true, true]] = .ok (4, 0, 2, 0, 2) := by decide +kernel
example : Rect #[#[true, true, false], #[true, true, true], #[false, true, true]] 3 := by
  intro i row h
  rcases i with _ | _ | _ | i <;> simp at h <;> subst h <;> rfl

/-! ## C58 -/

section MonotoneMinima
variable {V : Type} [LinearOrder V]

/-- `j` is the leftmost column with the least value of row `i`. -/
def IsLeftmostArgmin (A : Nat → Nat → V) (m i j : Nat) : Prop := j < m ∧ (∀ k < m, A i j ≤ A i k) ∧ ∀ k < j, A i j < A i k

/-- C58: if the leftmost argmins do not decrease from row to row, they are returned. -/
theorem monotone_minima (A : Nat → Nat → V) (n m : Nat) (hm : n = 0 ∨ 0 < m)
    (hmono : ∀ i i' j j', i < i' → i' < n → IsLeftmostArgmin A m i j → IsLeftmostArgmin A m i' j' → j ≤ j') :
    ∃ res, MonotoneMinima.runMatrix n m A = .ok res ∧ res.size = n ∧ ∀ i < n, ∃ j : Nat, res[i]? = some (j : Int) ∧ IsLeftmostArgmin A m i j :=
  MonotoneMinima.run_tot hm (fun _ _ _ _ _ _ => rfl) hmono

/-- C58: the version with a comparison function, which is only called with `j1 < j2` inside the matrix. -/
theorem monotone_minima_compare (A : Nat → Nat → V) (n m : Nat) (hm : n = 0 ∨ 0 < m) (compare : Nat → Nat → Nat → M Bool)
    (hc : ∀ i j1 j2, i < n → j1 < j2 → j2 < m → compare i j1 j2 = .ok (decide (A i j1 ≤ A i j2)))
    (hmono : ∀ i i' j j', i < i' → i' < n → IsLeftmostArgmin A m i j → IsLeftmostArgmin A m i' j' → j ≤ j') :
    ∃ res, MonotoneMinima.run n m compare = .ok res ∧ res.size = n ∧ ∀ i < n, ∃ j : Nat, res[i]? = some (j : Int) ∧ IsLeftmostArgmin A m i j :=
  MonotoneMinima.run_tot hm hc hmono

/-- Totally monotone matrices satisfy the hypothesis: if a later column is strictly better in a row, it is strictly better in all later rows. -/
theorem totally_monotone (A : Nat → Nat → V) (n m : Nat) (h : ∀ i i' j j', i < i' → i' < n → j < j' → j' < m → A i j' < A i j → A i' j' < A i' j) :
    ∀ i i' j j', i < i' → i' < n → IsLeftmostArgmin A m i j → IsLeftmostArgmin A m i' j' → j ≤ j' := by
  rintro i i' j j' h1 h2 ⟨a1, -, a3⟩ ⟨-, b2, -⟩
  by_contra hc
  exact absurd (h i i' j' j h1 h2 (by omega) a1 (a3 j' (by omega))) (not_lt.2 (b2 j a1))

/-- C58: without columns the assertion fails. -/
theorem monotone_minima_no_columns (A : Nat → Nat → V) (n : Nat) (hn : 0 < n) : MonotoneMinima.runMatrix n 0 A = .error .assertion := MonotoneMinima.run_assert hn

end MonotoneMinima

example : MonotoneMinima.runMatrix 4 4 (fun i j => ((i : Int) - j) * (i - j)) = .ok #[0, 1, 2, 3] := by decide +kernel
example : ∀ i i' j j' : Nat, i < i' → i' < 4 → j < j' → j' < 4 → ((i : Int) - j') * (i - j') < ((i : Int) - j) * (i - j) →
    ((i' : Int) - j') * (i' - j') < ((i' : Int) - j) * (i' - j) := by
  intro i i' j j' h1 _ h2 _ h3
  have e1 : (i : Int) < i' := by exact_mod_cast h1
  have e2 : (j : Int) < j' := by exact_mod_cast h2
  nlinarith

/-! ## C76 -/

/-- C76: `inversion_number(a)` is the number of pairs of positions `i < j` with `a[j] < a[i]`. -/
theorem inversion_number {α : Type} [LinearOrder α] (a : Array α) (d : α) (hn : a.size < 2 ^ 31) :
    InversionNumber.run a = .ok ((((Finset.range a.size) ×ˢ (Finset.range a.size)).filter fun p => p.1 < p.2 ∧ (a[p.2]?).getD d < (a[p.1]?).getD d).card : Int) := by
  obtain ⟨r, h1, rfl⟩ := InversionNumber.run_tot a hn
  rw [h1, InversionNumber.inv_card a.toList d]
  simp only [Array.length_toList, List.getD_eq_getElem?_getD, Array.getElem?_toList]

example : InversionNumber.run (#[3, 1, 4, 1, 5, 9, 2, 6] : Array Int) = .ok 8 := by
  rw [inversion_number _ 0 (by decide)]
  decide +kernel

end AlgorithmProps
