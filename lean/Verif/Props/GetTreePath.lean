import Verif.Proof.GetTreePath
import Verif.Proof.TreeCheck

/-! # C98: the path between two vertices of a tree -/

namespace GetTreePathProps
open Cxx Graph Tree GetTreePath

/-- C98: in every tree `get_tree_path(g, u, v)` returns the vertices of the simple path from `u` to `v`, in order. -/
theorem getTreePath_correct (g : Array (List Nat)) (hg : IsTree g) (u v : Nat) (hu : u < g.size) (hv : v < g.size) : ∃ p, getTreePath g u v = .ok p ∧ IsPath g u v p.toList := by
  obtain ⟨F, hF⟩ := exists_rooted hg hu
  obtain ⟨p, hp, h⟩ := getTreePath_tot hg hF hv
  exact ⟨p, hp, h ▸ hF.isPath hv⟩

/-- A tree meeting the hypotheses. -/
def sample : Array (List Nat) := #[[1, 3], [2, 0, 4], [1], [0], [1]]

example : IsTree sample ∧ 3 < sample.size := ⟨isTree_of_check (by decide +kernel), by decide⟩

example : getTreePath sample 4 3 = .ok #[4, 1, 0, 3] := by decide +kernel

end GetTreePathProps
