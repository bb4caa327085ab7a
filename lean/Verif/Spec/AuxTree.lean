import Verif.Spec.Tree

/-!
# Specification: auxiliary trees

The auxiliary tree of a set of vertices consists of the lowest common ancestors of all pairs, each joined with its closest proper ancestor among them.
-/

namespace AuxTree
open Tree

/-- The lowest common ancestors of all pairs of vertices of `vs` (a vertex being its own lowest common ancestor). -/
def Closure (g : Array (List Nat)) (r : Nat) (vs : List Nat) (s : Nat) : Prop := ∃ a ∈ vs, ∃ b ∈ vs, IsLCA g r a b s

/-- `p` is the closest proper ancestor of `c` in the set `S`. -/
structure Closest (g : Array (List Nat)) (r : Nat) (S : Nat → Prop) (p c : Nat) : Prop where
  left : S p
  right : S c
  ne : p ≠ c
  anc : Anc g r p c
  lowest : ∀ q, S q → Anc g r q c → q ≠ c → Anc g r q p

end AuxTree
