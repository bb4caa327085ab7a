import Mathlib.Logic.Relation

/-!
# Specification: graphs given by adjacency lists

Entry `u` of the array is the list of heads (with weights) of the edges leaving `u`, as in `std::vector<std::vector<int>>`.
-/

namespace Graph

/-- Adjacency list. -/
def adj {ε : Type} (g : Array (List ε)) (u : Nat) : List ε := g[u]?.getD []

/-- Edges. -/
def E (g : Array (List Nat)) (u v : Nat) : Prop := v ∈ adj g u

/-- All heads are vertices. -/
def Valid (g : Array (List Nat)) : Prop := ∀ u v, E g u v → v < g.size

/-- There is a walk of `k` edges. -/
def Walk (g : Array (List Nat)) : Nat → Nat → Nat → Prop
  | 0, u, v => u = v
  | k + 1, u, v => ∃ w, Walk g k u w ∧ E g w v

/-- Reachability. -/
abbrev Reach (g : Array (List Nat)) (u v : Nat) : Prop := Relation.ReflTransGen (E g) u v

/-- No cycle. -/
def Acyclic (g : Array (List Nat)) : Prop := ∀ v, ¬ Relation.TransGen (E g) v v

/-- There is a walk of the given total cost. -/
inductive Cost (g : Array (List (Nat × Int))) (s : Nat) : Nat → Int → Prop
  | refl : Cost g s s 0
  | step {u v : Nat} {x c : Int} : Cost g s u x → (v, c) ∈ adj g u → Cost g s v (x + c)

/-- The total cost of a list of consecutive vertices (for some choice among parallel edges). -/
def PathCost (g : Array (List (Nat × Int))) : List Nat → Int → Prop
  | [], _ => False
  | [_], x => x = 0
  | u :: v :: r, x => ∃ c y, (v, c) ∈ adj g u ∧ PathCost g (v :: r) y ∧ x = c + y

/-- A proper colouring with two colours. -/
def Proper (g : Array (List Nat)) (κ : Nat → Bool) : Prop := ∀ u v, E g u v → κ u ≠ κ v

end Graph
