import Mathlib.Logic.Relation
import Mathlib.Data.Finset.Card
import Mathlib.Data.Finset.Range

/-! # Specification: tournaments and their strongly connected components -/

namespace Tournament

/-- The vertices are `0, …, n - 1`; between two different ones there is exactly one edge. -/
structure IsTournament (n : Nat) (T : Nat → Nat → Prop) : Prop where
  left : ∀ u v, T u v → u < n ∧ v < n
  total : ∀ u v, u < n → v < n → u ≠ v → (T u v ∨ T v u)
  asymm : ∀ u v, T u v → ¬ T v u

open Classical in
/-- The in-degree. -/
noncomputable def inDeg (n : Nat) (T : Nat → Nat → Prop) (v : Nat) : Nat := ((Finset.range n).filter fun u => T u v).card

/-- Reachability. -/
abbrev Reach (T : Nat → Nat → Prop) (u v : Nat) : Prop := Relation.ReflTransGen T u v

/-- `C` lists the strongly connected components in topological order: every vertex once; two vertices are in the same list iff they reach each other; edges between lists point forward. -/
structure IsSCC (n : Nat) (T : Nat → Nat → Prop) (C : List (List Nat)) : Prop where
  cover : C.flatten.Perm (List.range n)
  nonempty : ∀ c ∈ C, c ≠ []
  strong : ∀ c ∈ C, ∀ u ∈ c, ∀ v, v ∈ c ↔ Reach T u v ∧ Reach T v u
  forward : C.Pairwise fun c d => ∀ u ∈ c, ∀ v ∈ d, T u v

end Tournament
