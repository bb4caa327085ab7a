import Mathlib.Order.Interval.Finset.Defs
import Mathlib.Data.Int.Interval
import Mathlib.Data.Finset.Prod

/-!
# Specification of the numbers of pairs with a given sum
-/

namespace SumCount.Spec

/-- The number of pairs `(a, b)` with `minA ≤ a ≤ maxA`, `minB ≤ b ≤ maxB` and `P (a + b)`. -/
def count (minA maxA minB maxB : Int) (P : Int → Prop) [DecidablePred P] : Nat :=
  ((Finset.Icc minA maxA ×ˢ Finset.Icc minB maxB).filter fun q => P (q.1 + q.2)).card

end SumCount.Spec
