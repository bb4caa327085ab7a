import Verif.Proof.LCA
import Verif.Proof.TreeCheck

/-! # Properties of `LowestCommonAncestor` (`LOG = 4` in the range minimum structure) -/

namespace LCA
open Cxx Graph Tree

/-- C108: for every tree with at most `2^28` vertices and every root the constructor succeeds, `lca(u, v)` is the lowest common ancestor and `dist(u, v)` the number of edges between `u` and `v`. -/
theorem lca_correct (g : Array (List Nat)) (hg : IsTree g) (hn : g.size ≤ 2 ^ 28) (root : Nat) (hr : root < g.size) : ∃ t, make 4 g root = .ok t ∧
    (∀ u v, u < g.size → v < g.size → ∃ w, lca 4 t u v = .ok w ∧ IsLCA g root u v w) ∧
    ∀ u v, u < g.size → v < g.size → ∃ d : Nat, dist 4 t u v = .ok (d : Int) ∧ Dist g u v d := by
  obtain ⟨F, hF⟩ := exists_rooted hg hr
  obtain ⟨t, ht, b⟩ := make_tot 4 hg hn hF
  refine ⟨t, ht, fun u v hu hv => ?_, fun u v hu hv => ?_⟩
  · obtain ⟨w, h1, h2, h3⟩ := lca_tot hg hn b hu hv
    exact ⟨w, h1, (hF.lca_iff hg hu hv h2).2 h3⟩
  · obtain ⟨d, h1, k, rfl, h2⟩ := dist_tot hg hn b hu hv
    exact ⟨k, h1, h2⟩

def sample : Array (List Nat) := #[[1, 3], [2, 0, 4], [1], [0], [1]]

example : IsTree sample ∧ sample.size ≤ 2 ^ 28 ∧ 0 < sample.size := ⟨isTree_of_check (by decide +kernel), by decide, by decide⟩

/-- Runs of the model with blocks of two elements. -/
example : (make 1 sample 0 >>= fun t => lca 1 t 2 4) = .ok 1 ∧ (make 1 sample 0 >>= fun t => dist 1 t 2 3) = .ok 3 ∧ (make 1 sample 2 >>= fun t => lca 1 t 4 0) = .ok 1 := by
  refine ⟨?_, ?_, ?_⟩ <;> decide +kernel

end LCA
