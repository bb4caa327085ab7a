import Verif.Proof.MinPlusConvolution

/-!
# C128: min-plus convolution of a convex sequence with a convex or arbitrary one
-/

namespace MinPlus.Props
open Cxx

/-- `a[i + 1] - a[i]` does not decrease. -/
def IsConvex (a : Array Int) : Prop := ∀ i x y z, a[i]? = some x → a[i + 1]? = some y → a[i + 2]? = some z → y - x ≤ z - y

/-- The entries allow sums and differences of two without overflow. -/
def Bounded (a : Array Int) : Prop := ∀ x ∈ a, -2 ^ 62 ≤ x ∧ x < 2 ^ 62

/-- `c[k] = min { a[i] + b[j] | i + j = k }` for `k = 0, …, n + m - 2`. -/
def IsMinPlus (a b c : Array Int) : Prop :=
  c.size = a.size + b.size - 1 ∧ ∀ (k : Nat) z, c[k]? = some z →
    (∃ (i j : Nat) (x y : Int), i + j = k ∧ a[i]? = some x ∧ b[j]? = some y ∧ z = x + y) ∧
    ∀ (i j : Nat) (x y : Int), i + j = k → a[i]? = some x → b[j]? = some y → z ≤ x + y

theorem at_some {a : Array Int} {i : Nat} {x : Int} (h : a[i]? = some x) : i < a.size ∧ at' 0 a i = x := by
  refine ⟨(Array.getElem?_eq_some_iff.mp h).1, ?_⟩
  unfold at'
  rw [h]
  rfl

theorem some_at {a : Array Int} {i : Nat} (h : i < a.size) : a[i]? = some (at' 0 a i) := by
  unfold at'
  rw [Array.getElem?_eq_getElem h]
  rfl

theorem convex_iff {a : Array Int} : IsConvex a ↔ Convex a := by
  constructor
  · intro h i hi
    exact h i _ _ _ (some_at (by omega)) (some_at (by omega)) (some_at hi)
  · intro h i x y z hx hy hz
    rw [← (at_some hx).2, ← (at_some hy).2, ← (at_some hz).2]
    exact h i (at_some hz).1

theorem small_of {a : Array Int} (h : Bounded a) : Small a := by
  intro i
  by_cases hi : i < a.size
  · exact h _ (Array.mem_of_getElem? (some_at hi))
  · rw [at_ge 0 (by omega)]
    omega

theorem minPlus_of {a b c : Array Int} (h1 : c.size = a.size + b.size - 1) (h2 : ∀ k, k < a.size + b.size - 1 → Least a b k (at' 0 c k)) : IsMinPlus a b c := by
  refine ⟨h1, ?_⟩
  intro k z hz
  obtain ⟨hk, rfl⟩ := at_some hz
  obtain ⟨⟨i, j, a1, a2, a3, a4⟩, a5⟩ := h2 k (by omega)
  refine ⟨⟨i, j, _, _, a3, some_at a1, some_at a2, a4⟩, ?_⟩
  intro i j x y e hx hy
  rw [← (at_some hx).2, ← (at_some hy).2]
  exact a5 i j (at_some hx).1 (at_some hy).1 e

/-- Two convex sequences. -/
theorem convex_convex {a b : Array Int} (na : a.size ≠ 0) (nb : b.size ≠ 0) (sa : Bounded a) (sb : Bounded b) (ha : IsConvex a) (hb : IsConvex b) :
    ∃ c, convexConvex a b = .ok c ∧ IsMinPlus a b c := by
  obtain ⟨c, h1, h2, h3⟩ := convexConvex_tot na nb (small_of sa) (small_of sb) (convex_iff.mp ha) (convex_iff.mp hb)
  exact ⟨c, h1, minPlus_of h2 h3⟩

/-- A convex and an arbitrary sequence. -/
theorem convex_arbitrary {a b : Array Int} (na : a.size ≠ 0) (nb : b.size ≠ 0) (sa : Bounded a) (sb : Bounded b) (ha : IsConvex a) :
    ∃ c, convexArbitrary a b = .ok c ∧ IsMinPlus a b c := by
  obtain ⟨c, h1, h2, h3⟩ := convexArbitrary_tot na nb (small_of sa) (small_of sb) (convex_iff.mp ha)
  exact ⟨c, h1, minPlus_of h2 h3⟩

/-- An empty sequence, or one that should be convex and is not, is rejected by an assertion. -/
theorem rejected {a b : Array Int} (sa : Bounded a) (sb : Bounded b) :
    ((a.size = 0 ∨ b.size = 0 ∨ ¬ IsConvex a ∨ ¬ IsConvex b) → convexConvex a b = .error .assertion) ∧
    ((a.size = 0 ∨ b.size = 0 ∨ ¬ IsConvex a) → convexArbitrary a b = .error .assertion) := by
  have e0 : (a.size = 0 ∨ b.size = 0) → check (decide (a.size ≠ 0 ∧ b.size ≠ 0)) = .error .assertion := by
    intro h
    rw [decide_eq_false (by rintro ⟨h1, h2⟩; rcases h with h | h <;> contradiction)]
    rfl
  have e1 : ¬ (a.size = 0 ∨ b.size = 0) → check (decide (a.size ≠ 0 ∧ b.size ≠ 0)) = .ok () := by
    intro h
    rw [decide_eq_true (by constructor <;> (intro h'; exact h (by simp [h'])))]
    rfl
  constructor
  · intro h
    unfold convexConvex
    by_cases hz : a.size = 0 ∨ b.size = 0
    · rw [e0 hz, err_bind]
    · rw [e1 hz, ok_bind]
      by_cases ha : IsConvex a
      · rw [convex_ok (small_of sa) (convex_iff.mp ha), ok_bind]
        have hb : ¬ IsConvex b := by tauto
        rw [convex_assert (small_of sb) fun h => hb (convex_iff.mpr h), err_bind]
      · rw [convex_assert (small_of sa) fun h => ha (convex_iff.mpr h), err_bind]
  · intro h
    unfold convexArbitrary
    by_cases hz : a.size = 0 ∨ b.size = 0
    · rw [e0 hz, err_bind]
    · rw [e1 hz, ok_bind]
      have ha : ¬ IsConvex a := by tauto
      rw [convex_assert (small_of sa) fun h => ha (convex_iff.mpr h), err_bind]

theorem convex_of_check {a : Array Int} (h : ∀ i < a.size - 2, at' 0 a (i + 1) - at' 0 a i ≤ at' 0 a (i + 2) - at' 0 a (i + 1)) : IsConvex a :=
  convex_iff.mpr fun i hi => h i (by omega)

example : IsConvex #[4, 1, 0, 3] ∧ Bounded #[4, 1, 0, 3] ∧ Bounded #[5, -7, 9] ∧ convexArbitrary #[4, 1, 0, 3] #[5, -7, 9] = .ok #[9, -3, -6, -7, -4, 12] ∧
    IsConvex #[-2, -5, 1] ∧ convexConvex #[4, 1, 0, 3] #[-2, -5, 1] = .ok #[2, -1, -4, -5, -2, 4] := by
  refine ⟨convex_of_check (by decide), by unfold Bounded; decide, by unfold Bounded; decide, by decide +kernel, convex_of_check (by decide), by decide +kernel⟩

end MinPlus.Props
