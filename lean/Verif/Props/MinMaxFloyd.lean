import Verif.Proof.MinMaxFloyd2

/-! # Theorems about `minmax_floyd_warshall.hpp` -/

namespace MinMaxFloydProps
open Cxx MinMaxFloyd MinMaxPath

/-- What `std::sort` with the lambda of line 29 guarantees: a permutation in which no later edge compares below an earlier one. -/
def SortsBy {α : Type} (lt : α → α → Bool) (srt : List (Ed α) → List (Ed α)) : Prop :=
  ∀ l, (srt l).Perm l ∧ (srt l).Pairwise fun a b => lt b.1 a.1 = false

/-- **C94** For every square cost matrix and every strict weak order, entry `(u, v)` of the result is the least possible greatest edge cost of a (non-empty) walk from `u` to `v`. -/
theorem minmax_correct {α : Type} (lt : α → α → Bool) (hlt : StrictWeak lt) (srt : List (Ed α) → List (Ed α)) (hsrt : SortsBy lt srt) (d : α) (c : Array (Array α)) (C : Nat → Nat → α)
    (hc : ∀ i j : Nat, i < c.size → j < c.size → (c[i]?.bind fun r => r[j]?) = some (C i j)) :
    ∃ res, minmax srt d c = .ok res ∧ ∀ u v : Nat, u < c.size → v < c.size → ∃ x, (res[u]?.bind fun r => r[v]?) = some x ∧ IsMinMax lt c.size C u v x := by
  have key : ∀ (t : Array (Array α)) (i j : Nat) (x : α), FunctionalGraph.rd2 t i j = .ok x ↔ (t[i]?.bind fun r => r[j]?) = some x := by
    intro t i j x
    unfold FunctionalGraph.rd2
    cases h : t[i]? with
    | none => rw [rd_ub (Array.getElem?_eq_none_iff.1 h), err_bind]; simp
    | some r =>
      rw [rd_some h, ok_bind, Option.bind_some]
      cases h' : r[j]? with
      | none => rw [rd_ub (Array.getElem?_eq_none_iff.1 h')]; simp
      | some y => rw [rd_some h']; simp
  obtain ⟨res, e, h⟩ := minmax_tot hlt hsrt d (C := C) fun i j hi hj => (key _ _ _ _).2 (hc i j hi hj)
  refine ⟨res, e, fun u v hu hv => ?_⟩
  obtain ⟨x, hx, hm⟩ := h u v hu hv
  exact ⟨x, (key _ _ _ _).1 hx, hm⟩

/-- A matrix where detours pay off. -/
def sample : Array (Array Int) := #[#[9, 1, 8], #[7, 9, 2], #[3, 6, 9]]

/-- Sorting by insertion meets the contract of `std::sort`. -/
def isort (l : List (Ed Int)) : List (Ed Int) := l.insertionSort fun a b => a.1 ≤ b.1

theorem isort_sorts : SortsBy (fun a b : Int => decide (a < b)) isort := by
  intro l
  refine ⟨List.perm_insertionSort _ l, ?_⟩
  have : (isort l).Pairwise fun a b => a.1 ≤ b.1 :=
    @List.pairwise_insertionSort _ (fun a b : Ed Int => a.1 ≤ b.1) _ ⟨fun a b => Int.le_total _ _⟩ ⟨fun a b c => Int.le_trans⟩ l
  exact this.imp fun {a b} hab => by simpa using hab

example : StrictWeak fun a b : Int => decide (a < b) :=
  ⟨fun x => by simp, fun x y z h h' => by simp at *; omega, fun x y z h h' => by simp at *; omega⟩

example : ∀ i, i < sample.size → ∀ j, j < sample.size → (sample[i]?.bind fun r => r[j]?) = some ((sample[i]!)[j]!) := by decide

/-- From 0 to 2 the walk 0 → 1 → 2 has greatest cost 2, better than the direct 8. -/
example : minmax isort 0 sample = .ok #[#[3, 1, 2], #[3, 3, 2], #[3, 3, 3]] := by decide +kernel

end MinMaxFloydProps
