import Verif.Spec.Tree
import Mathlib.Algebra.BigOperators.Group.List.Basic

/-!
# Specification: dynamic programming over a tree rooted at every vertex

`op` and `e` are the multiplication and the unit of a commutative monoid. An edge is a triple (end, end, weight).
-/

namespace Rerooting
open Tree

variable {V W T : Type}

/-- The neighbours of `u` with the weights of the edges. -/
def nbrs (es : List (Nat × Nat × W)) (u : Nat) : List (Nat × W) :=
  es.flatMap fun q => (if q.1 = u then [(q.2.1, q.2.2)] else []) ++ (if q.2.1 = u then [(q.1, q.2.2)] else [])

/-- Adjacency lists of the graph with `n` vertices and the given edges. -/
def graph (n : Nat) (es : List (Nat × Nat × W)) : Array (List Nat) := Array.ofFn fun u : Fin n => (nbrs es u).map Prod.fst

/-- `Below … u p x`: with `p` as the parent of `u` (`none` if `u` is the root), `x` is the product, over the children `v` of `u`, of `add_subtree_root(value of v, weight of v, weight of the edge between v and u)`. -/
inductive Below [CommMonoid T] (sub : T → V → W → T) (w : Nat → V) (es : List (Nat × Nat × W)) : Nat → Option Nat → T → Prop
  | mk (u : Nat) (p : Option Nat) (y : Nat → T) (h : ∀ q ∈ nbrs es u, some q.1 ≠ p → Below sub w es q.1 (some u) (y q.1)) :
    Below sub w es u p (((nbrs es u).filter fun q => decide (some q.1 ≠ p)).map fun q => sub (y q.1) (w q.1) q.2).prod

end Rerooting
