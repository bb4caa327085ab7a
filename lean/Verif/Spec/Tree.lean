import Verif.Spec.Graph
import Mathlib.Data.List.Chain
import Mathlib.Data.List.Nodup

/-!
# Specification: trees, paths, ancestors

A tree is an undirected graph in which any two vertices are joined by exactly one simple path.
-/

namespace Tree
open Graph

/-- `p` is the list of vertices of a simple path from `u` to `v`. -/
structure IsPath (g : Array (List Nat)) (u v : Nat) (p : List Nat) : Prop where
  head : p.head? = some u
  last : p.getLast? = some v
  nodup : p.Nodup
  chain : p.IsChain (E g)

/-- A tree given by adjacency lists. -/
structure IsTree (g : Array (List Nat)) : Prop where
  pos : 0 < g.size
  valid : Valid g
  simple : ∀ u, (adj g u).Nodup
  irrefl : ∀ u, ¬ E g u u
  symm : ∀ u v, E g u v → E g v u
  path : ∀ u v, u < g.size → v < g.size → ∃! p, IsPath g u v p

/-- The distance of two vertices is the number of edges of a simple path. -/
def Dist (g : Array (List Nat)) (u v d : Nat) : Prop := ∃ p, IsPath g u v p ∧ p.length = d + 1

/-- `a` is an ancestor of `v` (or `v` itself) in the tree rooted at `r`. -/
def Anc (g : Array (List Nat)) (r a v : Nat) : Prop := ∃ p, IsPath g r v p ∧ a ∈ p

/-- `p` is the parent of `v` in the tree rooted at `r`. -/
def Parent (g : Array (List Nat)) (r p v : Nat) : Prop := E g p v ∧ Anc g r p v

/-- `w` is the lowest common ancestor of `u` and `v`. -/
structure IsLCA (g : Array (List Nat)) (r u v w : Nat) : Prop where
  left : Anc g r w u
  right : Anc g r w v
  lowest : ∀ a, Anc g r a u → Anc g r a v → Anc g r a w

/-- `w` is the ancestor of `u` that is `k` edges above `u`. -/
def IsKthAncestor (g : Array (List Nat)) (r u k w : Nat) : Prop := Anc g r w u ∧ Dist g w u k

/-- The vertices on the side of `w` when the edge between `v` and its neighbour `w` is cut. -/
noncomputable def side (g : Array (List Nat)) (v w : Nat) : List Nat :=
  open Classical in (List.range g.size).filter fun x => decide (Anc g v w x)

/-- Removing a centroid leaves only components of at most half of the vertices. -/
def IsCentroid (g : Array (List Nat)) (v : Nat) : Prop := v < g.size ∧ ∀ w, E g v w → 2 * (side g v w).length ≤ g.size

end Tree
