import Verif.Model.SlopeTrick
import Mathlib.Order.ConditionallyCompleteLattice.Basic
import Mathlib.Data.Int.ConditionallyCompleteOrder
import Mathlib.Order.Interval.Set.Defs
import Mathlib.Algebra.Order.Group.Abs

/-!
# The piecewise linear function maintained by `SlopeTrick`

The specification is about a function `f` on all integers; it starts as zero and every operation transforms it. `moved` is the total amount by
which it has been shifted, which has to stay small for the machine integers not to overflow.
-/

namespace SlopeTrick

/-- The abstract state: the function and the total size of the shifts so far. -/
structure Fun where
  f : Int → Int
  moved : Int

/-- The zero function. -/
def zero : Fun := ⟨fun _ => 0, 0⟩

/-- The effect of an operation on the function. -/
noncomputable def next (t : Fun) : Op → Fun
  | .min => t
  | .argminRange => t
  | .addConst a => { t with f := fun x => t.f x + a }
  | .addRight a => { t with f := fun x => t.f x + max 0 (x - a) }
  | .addLeft a => { t with f := fun x => t.f x + max 0 (a - x) }
  | .addAbs a => { t with f := fun x => t.f x + |x - a| }
  | .cumMinLeft => { t with f := fun x => sInf (t.f '' {y | y ≤ x}) }
  | .cumMinRight => { t with f := fun x => sInf (t.f '' {y | x ≤ y}) }
  | .shl d => ⟨fun x => t.f (x + d), t.moved + |d|⟩
  | .shr d => ⟨fun x => t.f (x - d), t.moved + |d|⟩
  | .translate d => ⟨fun x => t.f (x - d), t.moved + |d|⟩
  | .window a b => ⟨fun x => sInf (t.f '' {y | x - b ≤ y ∧ y ≤ x - a}), t.moved + max |a| |b|⟩

/-- The requirements of a call: breakpoints up to `2^59`, shifts of total size up to `2^59`, an ordered window, and a minimum that is a
`long long`. -/
def Pre (t : Fun) (o : Op) : Prop :=
  (match o with
   | .addRight a | .addLeft a | .addAbs a => |a| ≤ 2 ^ 59
   | .window a b => a ≤ b
   | _ => True) ∧
  (next t o).moved ≤ 2 ^ 59 ∧
  -2 ^ 63 ≤ sInf (Set.range (next t o).f) ∧ sInf (Set.range (next t o).f) < 2 ^ 63

/-- What a call returns: `min` the least value of the function, `argmin_range` the two ends of the set of minimisers (exact for arguments up to
`2^60`, beyond all breakpoints). -/
def Ans (t : Fun) : Op → Out → Prop
  | .min, o => ∃ v, o = .val v ∧ IsLeast (Set.range t.f) v
  | .argminRange, o => ∃ a b, o = .range a b ∧ a ≤ b ∧ ∀ x, |x| ≤ 2 ^ 60 → ((a ≤ x ∧ x ≤ b) ↔ ∀ y, t.f x ≤ t.f y)
  | _, o => o = .unit

end SlopeTrick
