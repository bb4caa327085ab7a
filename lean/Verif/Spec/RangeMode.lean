/-! # Specification for `RangeMode` -/

namespace RangeMode
namespace Spec

variable {T : Type} [DecidableEq T]

/-- How often `x` occurs among the values at the positions `l..r-1`. -/
def occ (a : Array T) (l r : Nat) (x : T) : Nat := ((a.toList.drop l).take (r - l)).count x

/-- `x` is a value that occurs most often at the positions `l..r-1`, and it occurs `c` times. -/
def IsMode (a : Array T) (l r : Nat) (x : T) (c : Nat) : Prop := occ a l r x = c ∧ 1 ≤ c ∧ ∀ y, occ a l r y ≤ c

end Spec
end RangeMode
