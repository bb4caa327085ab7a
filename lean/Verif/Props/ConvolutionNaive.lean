import Verif.Model.ConvolutionNaive
import Mathlib.Algebra.BigOperators.Group.Finset.Basic
import Mathlib.Algebra.BigOperators.Ring.Finset
import Mathlib.Algebra.BigOperators.Fin
import Mathlib.Algebra.Ring.Int.Defs

/-!
# Properties of `library/convolution/convolution_naive.hpp`
-/

namespace ConvNaive
open Cxx
variable {T R : Type} [CommSemiring R]

/-- The coefficient of `x ^ k` in the product of the polynomials with coefficients `a` and `b`. -/
def coef (conv : T → R) (a b : Array T) (k : Nat) : R :=
  ∑ i : Fin a.size, ∑ j : Fin b.size, if i.1 + j.1 = k then conv a[i] * conv b[j] else 0

/-- The contribution of `i` and `j` to the coefficient of `x ^ k`. -/
def term (conv : T → R) (a b : Array T) (k i j : Nat) : R :=
  if h : i < a.size ∧ j < b.size then (if i + j = k then conv (a[i]'h.1) * conv (b[j]'h.2) else 0) else 0

theorem coef_eq (conv : T → R) (a b : Array T) (k : Nat) :
    coef conv a b k = ∑ i ∈ Finset.range a.size, ∑ j ∈ Finset.range b.size, term conv a b k i j := by
  unfold coef
  rw [Finset.sum_range]
  refine Finset.sum_congr rfl fun i _ => ?_
  rw [Finset.sum_range]
  refine Finset.sum_congr rfl fun j _ => ?_
  unfold term
  rw [dif_pos ⟨i.2, j.2⟩]
  rfl

/-- The array holds the values of `f`. -/
def Holds (n : Nat) (c : Array R) (f : Nat → R) : Prop := c.size = n ∧ ∀ k < n, c[k]? = some (f k)

theorem cell_tot {conv : T → R} {a b : Array T} {i j : Nat} (hi : i < a.size) (hj : j < b.size) {c : Array R} {f : Nat → R}
    (h : Holds (a.size + b.size - 1) c f) :
    Tot (cell conv a b i j c) fun c => Holds (a.size + b.size - 1) c fun k => f k + term conv a b k i j := by
  obtain ⟨h1, h2⟩ := h
  unfold cell
  rw [rd_eq hi, ok_bind, rd_eq hj, ok_bind, rd_some (h2 (i + j) (by omega)), ok_bind, wr_eq (by omega)]
  refine ⟨_, rfl, by simpa using h1, fun k hk => ?_⟩
  unfold term
  dsimp only
  rw [dif_pos ⟨hi, hj⟩, Array.getElem?_setIfInBounds]
  by_cases e : i + j = k
  · subst e
    rw [if_pos rfl, if_pos (by omega), if_pos rfl]
  · rw [if_neg e, if_neg e, add_zero]
    exact h2 k hk

theorem rows_tot {conv : T → R} {a b : Array T} {c : Array R} (hc : Holds (a.size + b.size - 1) c fun _ => 0) :
    Tot (forUp 0 a.size c fun i c => forUp 0 b.size c fun j c => cell conv a b i j c) fun c =>
      Holds (a.size + b.size - 1) c fun k => ∑ i ∈ Finset.range a.size, ∑ j ∈ Finset.range b.size, term conv a b k i j := by
  refine Tot.forUp (P := fun i' c => Holds (a.size + b.size - 1) c fun k => ∑ i ∈ Finset.range i', ∑ j ∈ Finset.range b.size, term conv a b k i j)
    (Nat.zero_le _) (by simpa using hc) ?_
  intro i c _ hi h
  refine (Tot.forUp (P := fun j' c => Holds (a.size + b.size - 1) c fun k =>
    (∑ i ∈ Finset.range i, ∑ j ∈ Finset.range b.size, term conv a b k i j) + ∑ j ∈ Finset.range j', term conv a b k i j) (Nat.zero_le _) (by simpa using h) ?_).mono ?_
  · intro j c _ hj h
    refine (cell_tot hi hj h).mono fun c h => ?_
    simp only [Finset.sum_range_succ, ← add_assoc]
    exact h
  · intro c h
    simp only [Finset.sum_range_succ]
    exact h

theorem cols_tot {conv : T → R} {a b : Array T} {c : Array R} (hc : Holds (a.size + b.size - 1) c fun _ => 0) :
    Tot (forUp 0 b.size c fun j c => forUp 0 a.size c fun i c => cell conv a b i j c) fun c =>
      Holds (a.size + b.size - 1) c fun k => ∑ j ∈ Finset.range b.size, ∑ i ∈ Finset.range a.size, term conv a b k i j := by
  refine Tot.forUp (P := fun j' c => Holds (a.size + b.size - 1) c fun k => ∑ j ∈ Finset.range j', ∑ i ∈ Finset.range a.size, term conv a b k i j)
    (Nat.zero_le _) (by simpa using hc) ?_
  intro j c _ hj h
  refine (Tot.forUp (P := fun i' c => Holds (a.size + b.size - 1) c fun k =>
    (∑ j ∈ Finset.range j, ∑ i ∈ Finset.range a.size, term conv a b k i j) + ∑ i ∈ Finset.range i', term conv a b k i j) (Nat.zero_le _) (by simpa using h) ?_).mono ?_
  · intro i c _ hi h
    refine (cell_tot hi hj h).mono fun c h => ?_
    simp only [Finset.sum_range_succ, ← add_assoc]
    exact h
  · intro c h
    simp only [Finset.sum_range_succ]
    exact h

/-- C215: unless both vectors are empty, `convolution_naive(a, b)` has `|a| + |b| - 1` elements, and element `k` is the coefficient of `x ^ k`
in the product of the polynomials. -/
theorem naive_partial (conv : T → R) (a b : Array T) (h : 0 < a.size + b.size) :
    Tot (naive conv a b) fun c => c.size = a.size + b.size - 1 ∧ ∀ k < a.size + b.size - 1, c[k]? = some (coef conv a b k) := by
  have hc : Holds (a.size + b.size - 1) (Array.replicate (a.size + b.size - 1) (0 : R)) fun _ => 0 := by
    refine ⟨by simp, fun k hk => ?_⟩
    rw [Array.getElem?_replicate, if_pos hk]
  unfold naive
  dsimp only
  rw [if_neg (by omega)]
  split
  · refine (cols_tot hc).mono fun c h => ⟨h.1, fun k hk => ?_⟩
    rw [h.2 k hk, coef_eq, Finset.sum_comm]
  · refine (rows_tot hc).mono fun c h => ⟨h.1, fun k hk => ?_⟩
    rw [h.2 k hk, coef_eq]

/-- Vectors of different lengths meet the hypothesis, and the result is the one expected. -/
example : 0 < #[1, 2, 3].size + #[4, 5].size ∧ naive (fun x : Int => x) #[1, 2, 3] #[4, 5] = .ok #[4, 13, 22, 15] := by
  decide +kernel

/-- C215, violated: for two empty vectors an exception is thrown; the product of two empty polynomials is the empty one. -/
theorem naive_counterexample (conv : T → R) : naive conv #[] #[] = .error .assertion := rfl

/-- If one vector is empty and the other is not, the result is a vector of zeros, as the coefficients are. -/
theorem naive_empty (conv : T → R) (b : Array T) (k : Nat) : coef conv #[] b k = 0 := by
  unfold coef
  exact Finset.sum_eq_zero fun i _ => absurd i.2 (by simp)

end ConvNaive
