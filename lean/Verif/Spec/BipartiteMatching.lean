import Mathlib.Data.List.Nodup

/-!
# Matchings and covers of bipartite graphs

A bipartite graph with left vertices `0, …, n-1` and right vertices `0, …, m-1` is the list of its edges `(l, r)`, possibly with repetitions. Where a vertex of either side is
meant, the right vertex `r` is written `n + r`.
-/

namespace BipartiteMatching

/-- A set of edges without common end points. -/
def Matching (E M : List (Nat × Nat)) : Prop := (∀ e ∈ M, e ∈ E) ∧ (M.map Prod.fst).Nodup ∧ (M.map Prod.snd).Nodup

/-- A matching with the largest number of edges. -/
def MaxMatching (E M : List (Nat × Nat)) : Prop := Matching E M ∧ ∀ M', Matching E M' → M'.length ≤ M.length

/-- A set of vertices that meets every edge. -/
def VertexCover (n : Nat) (E : List (Nat × Nat)) (C : List Nat) : Prop := ∀ e ∈ E, e.1 ∈ C ∨ n + e.2 ∈ C

/-- A set of edges that meets every vertex that has an edge. -/
def EdgeCover (E D : List (Nat × Nat)) : Prop := (∀ e ∈ D, e ∈ E) ∧ ∀ e ∈ E, (∃ d ∈ D, d.1 = e.1) ∧ ∃ d ∈ D, d.2 = e.2

/-- A set of vertices without edges between them. -/
def Independent (n m : Nat) (E : List (Nat × Nat)) (I : List Nat) : Prop := I.Nodup ∧ (∀ v ∈ I, v < n + m) ∧ ∀ e ∈ E, ¬ (e.1 ∈ I ∧ n + e.2 ∈ I)

end BipartiteMatching
