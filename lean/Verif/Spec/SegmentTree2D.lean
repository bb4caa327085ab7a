import Verif.Model.SegmentTree2D
import Mathlib.Algebra.BigOperators.Intervals

/-!
# Specification for `SegmentTree2D`

The abstract state is the table of values, as a function of the row and the column.
-/

namespace SegmentTree2D
namespace Spec
open Cxx Finset

variable {T : Type} [CommMonoid T]

/-- What a call does to the table. -/
def next (f : Nat → Nat → T) : Op T → Nat → Nat → T
  | .set i j v => fun x y => if x = i.toNat ∧ y = j.toNat then v else f x y
  | _ => f

/-- Positions lie in a table of `n` rows and `m` columns. -/
def InRange (n m : Nat) : Op T → Prop
  | .set i j _ => 0 ≤ i ∧ i < n ∧ 0 ≤ j ∧ j < m
  | .get i j => 0 ≤ i ∧ i < n ∧ 0 ≤ j ∧ j < m
  | .prod u d l r => 0 ≤ u ∧ u ≤ d ∧ d ≤ n ∧ 0 ≤ l ∧ l ≤ r ∧ r ≤ m

/-- The product over a rectangle. -/
def rect (f : Nat → Nat → T) (u d l r : Nat) : T := ∏ i ∈ Ico u d, ∏ j ∈ Ico l r, f i j

/-- What a call returns. -/
def Ans (f : Nat → Nat → T) : Op T → Out T → Prop
  | .set _ _ _, o => o = .unit
  | .get i j, o => o = .val (f i.toNat j.toNat)
  | .prod u d l r, o => o = .val (rect f u.toNat d.toNat l.toNat r.toNat)

/-- The table given by a vector of rows; `1` elsewhere. -/
def ofRows (a : Array (Array T)) (i j : Nat) : T := (a[i]?.getD #[])[j]?.getD 1

end Spec
end SegmentTree2D
