import Mathlib.Init

/-! # Specification: bottleneck paths in a complete directed graph -/

namespace MinMaxPath

/-- A walk of at least one edge through vertices below `n`, given by its edges. -/
inductive Walk (n : Nat) : Nat → Nat → List (Nat × Nat) → Prop
  | one {u v : Nat} : u < n → v < n → Walk n u v [(u, v)]
  | cons {u w v : Nat} {es : List (Nat × Nat)} : u < n → Walk n w v es → Walk n u v ((u, w) :: es)

/-- `x` is the least, over the walks from `u` to `v`, of the greatest edge cost: some walk has no edge above `x`, and every walk has an edge not below `x`. -/
def IsMinMax {α : Type} (lt : α → α → Bool) (n : Nat) (c : Nat → Nat → α) (u v : Nat) (x : α) : Prop :=
  (∃ es, Walk n u v es ∧ ∀ e ∈ es, lt x (c e.1 e.2) = false) ∧ ∀ es, Walk n u v es → ∃ e ∈ es, lt (c e.1 e.2) x = false

end MinMaxPath
