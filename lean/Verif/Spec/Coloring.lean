import Mathlib.Data.Finset.Card
import Mathlib.Data.Nat.Bitwise
import Mathlib.Data.Fintype.BigOperators

/-!
Colourings of a graph given by its number of vertices and a list of edges, and covers of its vertices by independent sets (given as masks).
-/

namespace Coloring

/-- The vertices below `n` can be coloured with `k` colours so that the ends of every edge get different colours. Self-loops are ignored. -/
def Colorable (n : Nat) (edges : List (Nat × Nat)) (k : Nat) : Prop :=
  ∃ c : Nat → Nat, (∀ v, v < n → c v < k) ∧ ∀ e ∈ edges, e.1 ≠ e.2 → c e.1 ≠ c e.2

/-- `k` is the least number of colours. -/
def IsChromatic (n : Nat) (edges : List (Nat × Nat)) (k : Nat) : Prop := Colorable n edges k ∧ ∀ j, Colorable n edges j → k ≤ j

/-- The mask `s` contains no two adjacent vertices. -/
def Indep (edges : List (Nat × Nat)) (s : Nat) : Prop := ∀ e ∈ edges, e.1 ≠ e.2 → ¬ (s.testBit e.1 = true ∧ s.testBit e.2 = true)

open Classical in
/-- The masks of independent sets. -/
noncomputable def indeps (n : Nat) (edges : List (Nat × Nat)) : Finset Nat := (Finset.range (2 ^ n)).filter (Indep edges)

open Classical in
/-- The number of `k`-tuples of independent sets that cover all vertices. -/
noncomputable def covers (n : Nat) (edges : List (Nat × Nat)) (k : Nat) : Nat :=
  ((Fintype.piFinset fun _ : Fin k => indeps n edges).filter fun f => ∀ v, v < n → ∃ j, (f j).testBit v = true).card

end Coloring
