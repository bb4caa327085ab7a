import Mathlib.Logic.Relation
import Mathlib.Data.Finset.Card

/-!
# Bridges, cut vertices and numbers of components of an undirected multigraph given by its list of edges
-/

namespace Cut

/-- The edge with number `i` joins `x` and `y`. -/
def Inc (E : List (Nat × Nat)) (x y i : Nat) : Prop := E[i]? = some (x, y) ∨ E[i]? = some (y, x)

/-- There is a path from `x` to `y` all of whose edges have numbers satisfying `ok`. -/
def Reach (E : List (Nat × Nat)) (ok : Nat → Prop) : Nat → Nat → Prop :=
  Relation.ReflTransGen fun x y => ∃ i, ok i ∧ Inc E x y i

/-- The end points of the edge `i` are not connected once it is removed. -/
def IsBridge (E : List (Nat × Nat)) (i : Nat) : Prop := ∃ x y, Inc E x y i ∧ ¬ Reach E (· ≠ i) x y

/-- The edge `i` is not incident with `u`. -/
def Avoid (E : List (Nat × Nat)) (u i : Nat) : Prop := ∀ x, ¬ Inc E u x i

/-- Removing `u` separates two connected vertices. -/
def IsCut (E : List (Nat × Nat)) (u : Nat) : Prop :=
  ∃ x y, x ≠ u ∧ y ≠ u ∧ Reach E (fun _ => True) x y ∧ ¬ Reach E (Avoid E u) x y

/-- No removal of a single vertex separates the edges `i` and `j`: whatever vertex `u` is removed, an end of `i` is still connected with an end of `j`. -/
def SameBlock (E : List (Nat × Nat)) (i j : Nat) : Prop :=
  ∀ u, ∃ x x' y y', Inc E x x' i ∧ Inc E y y' j ∧ x ≠ u ∧ y ≠ u ∧ Reach E (Avoid E u) x y

/-- The vertices `< n` satisfying `P` fall into `c` classes of the relation `R`: there are `c` representatives such that every vertex is
related to exactly one of them. -/
def CompCount (n : Nat) (P : Nat → Prop) (R : Nat → Nat → Prop) (c : Nat) : Prop :=
  ∃ reps : Finset Nat, reps.card = c ∧ (∀ r ∈ reps, r < n ∧ P r) ∧ ∀ x, x < n → P x → ∃! r, r ∈ reps ∧ R x r

end Cut
