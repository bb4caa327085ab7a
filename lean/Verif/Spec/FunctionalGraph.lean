import Mathlib.Logic.Function.Iterate

/-! # Specification of functional graphs (docs/graph/functional_graph.md) -/

namespace FunctionalGraph

/-- The orbit of `u` under `f` has `h` elements before it enters a cycle of length `l`: the first `h + l` iterates are distinct and the next one is the `h`-th again. -/
def Rho (f : Nat → Nat) (u h l : Nat) : Prop :=
  0 < l ∧ f^[h + l] u = f^[h] u ∧ ∀ i j, i < j → j < h + l → f^[i] u ≠ f^[j] u

/-- The product, in order, of the values on the first `d` edges of the walk from `u`. -/
def orbitSum {T : Type} (op : T → T → T) (e : T) (f : Nat → Nat) (a : Nat → T) (u : Nat) : Nat → T
  | 0 => e
  | d + 1 => op (orbitSum op e f a u d) (a (f^[d] u))

end FunctionalGraph
