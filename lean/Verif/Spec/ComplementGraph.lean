import Verif.Spec.Graph

/-! # The complement of a graph -/

namespace Graph

/-- The adjacency lists of the complement: `u` and `v` are adjacent iff they are different and `v` is not in the list of `u`. -/
def compl (g : Array (List Nat)) : Array (List Nat) :=
  Array.ofFn fun u : Fin g.size => (List.range g.size).filter fun v => v ≠ u.val ∧ v ∉ adj g u

end Graph
