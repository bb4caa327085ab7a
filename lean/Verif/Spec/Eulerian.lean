import Mathlib.Data.Sym.Sym2
import Mathlib.Data.List.Perm.Basic

/-!
# Eulerian trails
-/

namespace Eulerian

/-- The steps of a walk given by its vertices. -/
def steps (w : List Nat) : List (Nat × Nat) := w.zip w.tail

/-- The walk `w` uses every directed edge of `E` exactly as often as it occurs in `E`, and no other edge. -/
def DTrail (E : List (Nat × Nat)) (w : List Nat) : Prop := w ≠ [] ∧ (steps w).Perm E

/-- The walk `w` uses every undirected edge of `E` exactly as often as it occurs in `E`, in either direction, and no other edge. -/
def UTrail (E : List (Nat × Nat)) (w : List Nat) : Prop :=
  w ≠ [] ∧ ((steps w).map fun p => s(p.1, p.2)).Perm (E.map fun p => s(p.1, p.2))

/-- The walk ends where it starts. -/
def Closed (w : List Nat) : Prop := w.head? = w.getLast?

end Eulerian
