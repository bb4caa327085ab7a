import Verif.Proof.ComplementBFS

/-! # C95: breadth first search in the complement of a graph -/

namespace ComplementBFSProps
open Cxx Graph ComplementBFS

/-- C95: whatever order `std::partition` leaves, `distance(src)[v]` is `-1` iff `v` is reachable from no source in the complement graph and otherwise the least number of edges of a walk from a source in it. -/
theorem complement_distance (part : Part) (hp : ∀ p s, (part p s).1.Perm (s.filter p) ∧ (part p s).2.Perm (s.filter fun v => !p v))
    (g : Array (List Nat)) (hg : Valid g) (src : List Nat) (hs : ∀ s ∈ src, s < g.size) : ∃ dist, distance part g src = .ok dist ∧ dist.size = g.size ∧
    ∀ v < g.size, (dist[v]? = some (-1) ∧ ∀ s ∈ src, ¬ Reach (Graph.compl g) s v) ∨ ∃ k : Nat, dist[v]? = some (k : Int) ∧ IsLeast {k | ∃ s ∈ src, Walk (Graph.compl g) k s v} k := by
  obtain ⟨dist, h1, h2, h3⟩ := distance_tot hp hg hs
  rw [compl_size] at h2 h3
  exact ⟨dist, h1, h2, h3⟩

/-- C95: for an undirected graph `connected_components` partitions the vertices into nonempty lists; each is the set of vertices reachable in the complement graph from any of its members. -/
theorem complement_components (part : Part) (hp : ∀ p s, (part p s).1.Perm (s.filter p) ∧ (part p s).2.Perm (s.filter fun v => !p v))
    (g : Array (List Nat)) (hg : Valid g) (hsym : ∀ u v, E g u v → E g v u) : ∃ res, components part g = .ok res ∧
    res.flatten.Perm (List.range g.size) ∧ (∀ c ∈ res, c ≠ []) ∧ ∀ c ∈ res, ∀ u ∈ c, ∀ v, v ∈ c ↔ Reach (Graph.compl g) u v :=
  components_tot hp hg hsym

/-- C95: the graph built from a list of edges has exactly these edges, in both directions. -/
theorem complement_add_edges (n : Nat) (edges : List (Nat × Nat)) (h : ∀ e ∈ edges, e.1 < n ∧ e.2 < n) :
    ∃ g, make n edges = .ok g ∧ g.size = n ∧ Valid g ∧ ∀ u v, E g u v ↔ (u, v) ∈ edges ∨ (v, u) ∈ edges :=
  BFS.make_tot n edges h

/-- A partition meeting the hypotheses. -/
def stable : Part := fun p s => (s.filter p, s.filter fun v => !p v)

example : ∀ p s, (stable p s).1.Perm (s.filter p) ∧ (stable p s).2.Perm (s.filter fun v => !p v) := fun _ _ => ⟨.refl _, .refl _⟩

/-- The complement of this graph has the edges 0-2, 2-4 and 1-3. -/
example : (make 5 [(0, 1), (0, 3), (0, 4), (1, 2), (1, 4), (2, 3), (3, 4)] >>= fun g => distance stable g [0]) = .ok #[0, -1, 1, -1, 2] ∧
    (make 5 [(0, 1), (0, 3), (0, 4), (1, 2), (1, 4), (2, 3), (3, 4)] >>= components stable) = .ok [[0, 2, 4], [1, 3]] := by
  constructor <;> decide +kernel

end ComplementBFSProps
