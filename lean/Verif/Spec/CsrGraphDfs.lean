import Mathlib.Logic.Relation
import Verif.Spec.CsrGraph
import Verif.Model.CsrGraphDfs

/-!
# Specification of depth-first search trees
-/

namespace CsrGraph.Spec
variable {W : Type}

/-- `a` occurs before (an occurrence of) `b` in the list. -/
def Before (l : List Nat) (a b : Nat) : Prop := ∃ A R, l = A ++ b :: R ∧ a ∈ A

/-- `a` is `b` or an ancestor of `b` by the arcs in `T`. -/
def Anc (T : List (Nat × Nat × W)) (a b : Nat) : Prop := Relation.ReflTransGen (fun x y => ∃ w, (x, y, w) ∈ T) a b

/-- The result of a depth-first search of the graph with the vertices `0, …, n - 1` and the arcs `L`: `T` are the tree arcs, `B` the back
arcs, `pre` and `pst` the vertices in the order of their discovery and of their completion. -/
structure IsDfs (n : Nat) (L : Nat → List (Nat × W)) (start : Nat) (par : Nat → Int) (pre pst : List Nat) (T B : List (Nat × Nat × W)) : Prop where
  /-- Every vertex is discovered once and completed once. -/
  pre_perm : pre.Perm (List.range n)
  pst_perm : pst.Perm (List.range n)
  /-- The search begins at `start` (modulo `n`). -/
  first : 0 < n → pre.head? = some (start % n) ∧ par (start % n) = -1
  /-- Every vertex is a root or has a tree arc from its parent. -/
  parent : ∀ x < n, par x = -1 ∨ ∃ (u : Nat) (w : W), par x = (u : Int) ∧ (u, x, w) ∈ T
  /-- Tree arcs are arcs of the graph from the parent, one for each vertex. -/
  tree : ∀ e ∈ T, e.1 < n ∧ e.2.1 < n ∧ par e.2.1 = (e.1 : Int) ∧ e.2 ∈ L e.1
  once : (T.map fun e => e.2.1).Nodup
  /-- A parent is discovered before its children and completed after them. -/
  pre_order : ∀ e ∈ T, Before pre e.1 e.2.1
  pst_order : ∀ e ∈ T, Before pst e.2.1 e.1
  /-- Back arcs lead to an ancestor or are loops. -/
  back : ∀ e ∈ B, e.1 < n ∧ Anc T e.2.1 e.1
  /-- The arcs of a vertex `u`, with multiplicities, are its tree arcs, its back arcs, one arc to the parent with the weight of
  the tree arc if there is such an arc, and arcs to vertices completed before `u`. -/
  arcs : ∀ u < n, ∃ sk fin, (L u).Perm (neighbours false T u ++ (neighbours false B u ++ (sk ++ fin))) ∧
    (∀ e ∈ fin, Before pst e.1 u) ∧
    ((sk = [] ∧ ∀ p w, (p, u, w) ∈ T → (p, w) ∉ L u) ∨ ∃ p w, sk = [(p, w)] ∧ (p, u, w) ∈ T)

end CsrGraph.Spec
