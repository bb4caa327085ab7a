import Mathlib.Data.List.Permutation

/-!
Eulerian numbers: permutations counted by their descents.
-/

namespace Sequences

/-- The number of positions at which an entry is followed by a smaller one. -/
def descents : List Nat → Nat
  | [] => 0
  | [_] => 0
  | a :: b :: l => (if b < a then 1 else 0) + descents (b :: l)

/-- The number of permutations of `n` numbers with `k` descents. -/
def eulerianNumber (n k : Nat) : Nat := (List.range n).permutations.countP fun l => descents l = k

end Sequences
