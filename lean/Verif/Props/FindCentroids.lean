import Verif.Proof.FindCentroids
import Verif.Proof.TreeCheck

/-! # C99: the centroids of a tree -/

namespace FindCentroidsProps
open Cxx Graph Tree FindCentroids

/-- C99: for every tree of fewer than 2^30 vertices, `find_centroids` returns exactly the centroids of the tree, each once; there are one or two of them, so the assertion of line 32 holds, and two centroids are adjacent. -/
theorem findCentroids_correct (g : Array (List Nat)) (hg : IsTree g) (hn : g.size < 2 ^ 30) : ∃ res, findCentroids g = .ok res ∧ res.Nodup ∧ (∀ v, v ∈ res ↔ IsCentroid g v) ∧
    (res.length = 1 ∨ res.length = 2) ∧ ∀ u v, u ∈ res → v ∈ res → u ≠ v → E g u v :=
  findCentroids_tot hg hn

/-- C99: in particular every such tree has a centroid. -/
theorem exists_centroid (g : Array (List Nat)) (hg : IsTree g) (hn : g.size < 2 ^ 30) : ∃ v, IsCentroid g v := by
  obtain ⟨res, -, -, h1, h2, -⟩ := findCentroids_correct g hg hn
  match res, h2 with
  | a :: _, _ => exact ⟨a, (h1 a).1 (by simp)⟩
  | [], h2 => simp at h2

/-- C99: the empty graph is not accepted: line 16 reads `eid[0]` of an empty vector. -/
theorem findCentroids_empty : findCentroids #[] = .error .ub := by decide +kernel

/-- A tree with one centroid. -/
def sample : Array (List Nat) := #[[1, 3], [2, 0, 4], [1], [0], [1]]

/-- A path of four vertices, with two centroids. -/
def sample2 : Array (List Nat) := #[[1], [0, 2], [3, 1], [2]]

example : ∃ res, findCentroids sample = .ok res ∧ res.Nodup ∧ (∀ v, v ∈ res ↔ IsCentroid sample v) ∧ (res.length = 1 ∨ res.length = 2) ∧ ∀ u v, u ∈ res → v ∈ res → u ≠ v → E sample u v :=
  findCentroids_correct sample (isTree_of_check (by decide +kernel)) (by decide)

example : ∃ v, IsCentroid sample2 v := exists_centroid sample2 (isTree_of_check (by decide +kernel)) (by decide)

example : findCentroids sample = .ok [1] := by decide +kernel
example : findCentroids sample2 = .ok [2, 1] := by decide +kernel

end FindCentroidsProps
