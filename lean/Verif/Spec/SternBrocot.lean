/-!
# Specification: the Stern–Brocot tree

A node is the list of directions from the root (`false` = left, `true` = right).
-/

namespace SternBrocot

/-- One step down: to the left the upper bound becomes the mediant, to the right the lower bound does. A pair `(a, b)` stands for `a / b`. -/
def step (lr : (Nat × Nat) × (Nat × Nat)) (dir : Bool) : (Nat × Nat) × (Nat × Nat) :=
  let m := (lr.1.1 + lr.2.1, lr.1.2 + lr.2.2)
  if dir then (m, lr.2) else (lr.1, m)

/-- The infimum and the supremum of the subtree below a node; those of the root are `0/1` and `1/0`. -/
def bounds (ds : List Bool) : (Nat × Nat) × (Nat × Nat) := ds.foldl step ((0, 1), (1, 0))

/-- The fraction at a node: the mediant of its bounds. -/
def value (ds : List Bool) : Nat × Nat := ((bounds ds).1.1 + (bounds ds).2.1, (bounds ds).1.2 + (bounds ds).2.2)

/-- `a < b` for fractions. -/
def Lt (a b : Nat × Nat) : Prop := a.1 * b.2 < b.1 * a.2

/-- The longest common prefix: the lowest common ancestor. -/
def lcp : List Bool → List Bool → List Bool
  | x :: a, y :: b => if x = y then x :: lcp a b else []
  | _, _ => []

/-- The number of edges between two nodes. -/
def dist (a b : List Bool) : Nat := (a.length - (lcp a b).length) + (b.length - (lcp a b).length)

/-- In-order: left subtree, node, right subtree. -/
def inOrder : List Bool → List Bool → Ordering
  | [], [] => .eq
  | [], y :: _ => if y then .lt else .gt
  | x :: _, [] => if x then .gt else .lt
  | x :: a, y :: b => if x = y then inOrder a b else if y then .lt else .gt

/-- Pre-order: node, left subtree, right subtree. -/
def preOrder : List Bool → List Bool → Ordering
  | [], [] => .eq
  | [], _ :: _ => .lt
  | _ :: _, [] => .gt
  | x :: a, y :: b => if x = y then preOrder a b else if y then .lt else .gt

/-- Post-order: left subtree, right subtree, node. -/
def postOrder : List Bool → List Bool → Ordering
  | [], [] => .eq
  | [], _ :: _ => .gt
  | _ :: _, [] => .lt
  | x :: a, y :: b => if x = y then postOrder a b else if y then .lt else .gt

/-- The directions described by runs. -/
def expand (path : List (Bool × Nat)) : List Bool := (path.map fun r => List.replicate r.2 r.1).flatten

/-- Maximal runs: lengths are positive and neighbouring directions differ. -/
def Canonical : List (Bool × Nat) → Prop
  | [] => True
  | [r] => 0 < r.2
  | r :: s :: t => 0 < r.2 ∧ r.1 ≠ s.1 ∧ Canonical (s :: t)

end SternBrocot
