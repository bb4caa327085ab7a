import Verif.Proof.Rot90

/-!
# Properties of `library/util/transpose.hpp` and `library/util/rot90.hpp`
-/

namespace Rot90
open Cxx
variable {T : Type} [Inhabited T]

/-- The matrix `A` has `n` rows of length `m`. -/
def Rect (n m : Nat) (A : Array (Array T)) : Prop := A.size = n ∧ ∀ r ∈ A, r.size = m

/-- The entry in row `i`, column `j`, if there is one. -/
def cell (A : Array (Array T)) (i j : Nat) : Option T := A[i]?.bind (·[j]?)

theorem rect_of_shape {n m : Nat} {B : Array (Array T)} (h : Shape m n B) : Rect m n B := by
  refine ⟨h.1, fun r hr => ?_⟩
  obtain ⟨j, hj, rfl⟩ := Array.mem_iff_getElem.mp hr
  exact h.2 j hj

theorem row_size {n m : Nat} {A : Array (Array T)} (h : Rect n m A) : ∀ i, (hi : i < A.size) → A[i].size = m :=
  fun _ _ => h.2 _ (Array.getElem_mem _)

/-- C207: the transpose of a rectangular matrix with `n > 0` rows and `m` columns has `m` rows and `n` columns, and the entry `(j, i)` of the
result is the entry `(i, j)` of the argument. -/
theorem transpose_correct {n m : Nat} {A : Array (Array T)} (h : Rect n m A) (hn : 0 < n) :
    Tot (transpose A) fun B => Rect m n B ∧ ∀ i < n, ∀ j < m, cell B j i = cell A i j := by
  have h0 : 0 < A.size := by rw [h.1]; exact hn
  unfold transpose
  rw [if_neg (by omega), rd_eq h0, ok_bind, row_size h 0 h0]
  refine (loop_tot (row_size h) (fun j => j) (fun _ h => h)).mono fun B hB => ?_
  rw [h.1] at hB
  exact ⟨rect_of_shape hB.1, fun i hi j hj => hB.2 i j hi hj⟩

/-- C207: `rot90` turns a rectangular matrix by a quarter, anticlockwise: the first row of the result is the last column. -/
theorem rot90_correct {n m : Nat} {A : Array (Array T)} (h : Rect n m A) (hn : 0 < n) :
    Tot (rot90 A) fun B => Rect m n B ∧ ∀ i < n, ∀ j < m, cell B (m - 1 - j) i = cell A i j := by
  have h0 : 0 < A.size := by rw [h.1]; exact hn
  unfold rot90
  rw [if_neg (by omega), rd_eq h0, ok_bind, row_size h 0 h0]
  refine (loop_tot (row_size h) (fun j => m - j - 1) (fun _ h => by omega)).mono fun B hB => ?_
  rw [h.1] at hB
  refine ⟨rect_of_shape hB.1, fun i hi j hj => ?_⟩
  have := hB.2 i (m - 1 - j) hi (by omega)
  rw [show m - (m - 1 - j) - 1 = j by omega] at this
  exact this

/-- Two matrices of the same shape with the same entries are equal. -/
theorem rect_ext {n m : Nat} {A B : Array (Array T)} (hA : Rect n m A) (hB : Rect n m B)
    (h : ∀ i < n, ∀ j < m, cell A i j = cell B i j) : A = B := by
  apply Array.ext (hA.1.trans hB.1.symm)
  intro i hi hi'
  have s1 := row_size hA i hi
  have s2 := row_size hB i hi'
  apply Array.ext (s1.trans s2.symm)
  intro j hj hj'
  have := h i (by rw [← hA.1]; exact hi) j (by omega)
  simpa [cell, hi, hi', hj, hj'] using this

/-- C207: transposing twice gives the matrix back (if it has at least one row and one column). -/
theorem transpose_transpose {n m : Nat} {A : Array (Array T)} (h : Rect n m A) (hn : 0 < n) (hm : 0 < m) :
    (transpose A >>= transpose) = .ok A := by
  obtain ⟨B, hB, r, c⟩ := transpose_correct h hn
  obtain ⟨C, hC, r', c'⟩ := transpose_correct r hm
  rw [hB, ok_bind, hC]
  exact congrArg _ (rect_ext r' h fun i hi j hj => (c' j hj i hi).trans (c i hi j hj))

/-- C207: four quarter turns give the matrix back (if it has at least one row and one column). -/
theorem rot90_four {n m : Nat} {A : Array (Array T)} (h : Rect n m A) (hn : 0 < n) (hm : 0 < m) :
    (rot90 A >>= rot90 >>= rot90 >>= rot90) = .ok A := by
  obtain ⟨B, hB, r1, c1⟩ := rot90_correct h hn
  obtain ⟨C, hC, r2, c2⟩ := rot90_correct r1 hm
  obtain ⟨D, hD, r3, c3⟩ := rot90_correct r2 hn
  obtain ⟨E, hE, r4, c4⟩ := rot90_correct r3 hm
  rw [hB, ok_bind, hC, ok_bind, hD, ok_bind, hE]
  refine congrArg _ (rect_ext r4 h fun i hi j hj => ?_)
  have e1 := c1 i hi j hj
  have e2 := c2 (m - 1 - j) (by omega) i hi
  have e3 := c3 (n - 1 - i) (by omega) (m - 1 - j) (by omega)
  have e4 := c4 (m - 1 - (m - 1 - j)) (by omega) (n - 1 - i) (by omega)
  rw [show n - 1 - (n - 1 - i) = i by omega] at e4
  rw [show m - 1 - (m - 1 - j) = j by omega] at e3 e4
  rw [e4, e3, e2, e1]

/-- C207, the limit: a matrix without columns loses its rows, so that transposing twice does not give it back. -/
theorem transpose_no_columns {n : Nat} {A : Array (Array T)} (h : Rect n 0 A) (hn : 0 < n) :
    (transpose A >>= transpose) = .ok #[] := by
  obtain ⟨B, hB, r, -⟩ := transpose_correct h hn
  have : B = #[] := by simpa using r.1
  subst this
  rw [hB]
  rfl

/-- Rows of different lengths: a row shorter than the first one is read out of its bounds. -/
theorem transpose_ragged_undefined : transpose #[#[1, 2], #[3]] = .error .ub := by decide +kernel

example : Rect 2 3 #[#[1, 2, 3], #[4, 5, 6]] := by simp [Rect]

example : transpose #[#[1, 2, 3], #[4, 5, 6]] = .ok #[#[1, 4], #[2, 5], #[3, 6]] := by decide +kernel
example : rot90 #[#[1, 2, 3], #[4, 5, 6]] = .ok #[#[3, 6], #[2, 5], #[1, 4]] := by decide +kernel

end Rot90
