import Verif.Model.Rot90

/-!
# Rearranging a matrix
-/

namespace Rot90
open Cxx
variable {T : Type} [Inhabited T]

/-- `B` has `m` rows of length `n`. -/
def Shape (m n : Nat) (B : Array (Array T)) : Prop := B.size = m ∧ ∀ j, (h : j < B.size) → B[j].size = n

theorem put_tot {A B : Array (Array T)} {i j c : Nat} {x : T} (hB : Shape m n B) (hj : j < m) (hi : i < n)
    (hA : ∃ r, A[i]? = some r ∧ r[c]? = some x) :
    Tot (put A i j c B) fun B' => Shape m n B' ∧
      ∀ p q, (B'[p]?.bind (·[q]?)) = if p = j ∧ q = i then some x else B[p]?.bind (·[q]?) := by
  obtain ⟨r, h1, h2⟩ := hA
  have hj' : j < B.size := by rw [hB.1]; exact hj
  have hs := hB.2 j hj'
  unfold put
  rw [rd_some h1, ok_bind, rd_some h2, ok_bind, rd_eq hj', ok_bind, wr_eq (by omega), ok_bind, wr_eq hj']
  refine Tot.pure ⟨⟨by simp [hB.1], fun k hk => ?_⟩, fun p q => ?_⟩
  · rw [Array.getElem_setIfInBounds (by simpa using hk)]
    split
    · simp [hs]
    · exact hB.2 k (by simpa using hk)
  · rw [Array.getElem?_setIfInBounds]
    by_cases hp : j = p
    · subst hp
      rw [if_pos rfl, if_pos hj']
      simp only [Option.bind_some, true_and]
      rw [Array.getElem?_setIfInBounds]
      by_cases hq : i = q
      · subst hq; rw [if_pos rfl, if_pos (by omega), if_pos rfl]
      · rw [if_neg hq, if_neg (Ne.symm hq)]; simp [hj']
    · rw [if_neg hp, if_neg (fun h => hp h.1.symm)]

/-- The common loop: every cell `(j, i)` is read from row `i`, column `col j`. -/
theorem loop_tot {A : Array (Array T)} {m : Nat} (hA : ∀ i, (h : i < A.size) → A[i].size = m) (col : Nat → Nat)
    (hcol : ∀ j < m, col j < m) :
    Tot (forUp 0 A.size (Array.replicate m (Array.replicate A.size default)) fun i B =>
      forUp 0 m B fun j B => put A i j (col j) B) fun B => Shape m A.size B ∧
      ∀ i j, i < A.size → j < m → (B[j]?.bind (·[i]?)) = A[i]?.bind (·[col j]?) := by
  refine (Tot.forUp (P := fun i B => Shape m A.size B ∧
      ∀ p q, p < i → q < m → (B[q]?.bind (·[p]?)) = A[p]?.bind (·[col q]?)) (Nat.zero_le _)
    ⟨⟨by simp, fun j hj => by simp⟩, fun p q hp => absurd hp (by omega)⟩ ?_).mono fun B h => ⟨h.1, fun i j hi hj => h.2 i j hi hj⟩
  rintro i B - hi ⟨h1, h2⟩
  refine (Tot.forUp (P := fun j B => Shape m A.size B ∧
      ∀ p q, p < i ∨ (p = i ∧ q < j) → q < m → (B[q]?.bind (·[p]?)) = A[p]?.bind (·[col q]?)) (Nat.zero_le _)
    ⟨h1, fun p q hp hq => h2 p q (by omega) hq⟩ ?_).mono fun B h => ⟨h.1, fun p q hp hq => h.2 p q (by omega) hq⟩
  rintro j B - hj ⟨k1, k2⟩
  have hc : col j < A[i].size := by rw [hA i hi]; exact hcol j hj
  refine (put_tot k1 hj hi (x := A[i][col j]) ⟨A[i], by simp [hi], by simp [hc]⟩).mono ?_
  rintro B' ⟨l1, l2⟩
  refine ⟨l1, fun p q hp hq => ?_⟩
  rw [l2]
  by_cases h : q = j ∧ p = i
  · obtain ⟨rfl, rfl⟩ := h
    rw [if_pos ⟨rfl, rfl⟩]
    simp [hi, hc]
  · rw [if_neg h]
    exact k2 p q (by omega) hq

end Rot90
