import Verif.Model.RangeCountDistinct
import Mathlib.Data.Finset.Card
import Mathlib.Data.Finset.Dedup

/-!
# Specification of `StaticRangeCountDistinctOffline`

The abstract state is the list of the queries added so far.
-/

namespace RangeCountDistinct

/-- The effect of a call. -/
def next (t : List (Int × Int)) : Op → List (Int × Int)
  | .addQuery l r => t ++ [(l, r)]
  | .solve => t

/-- Queries are ranges in the sequence. -/
def Pre (a : List Int) (_t : List (Int × Int)) : Op → Prop
  | .addQuery l r => 0 ≤ l ∧ l ≤ r ∧ r ≤ a.length
  | .solve => True

instance (a : List Int) (t : List (Int × Int)) (i : Op) : Decidable (Pre a t i) := by
  cases i <;> unfold Pre <;> infer_instance

/-- The number of different values among the elements `l, …, r - 1`. -/
def distinct (a : List Int) (q : Int × Int) : Nat := ((a.drop q.1.toNat).take (q.2 - q.1).toNat).toFinset.card

/-- The right answers. -/
def Ans (a : List Int) (t : List (Int × Int)) : Op → Out → Prop
  | .addQuery .., o => o = .id t.length
  | .solve, o => o = .ans (t.map fun q => (distinct a q : Int))

end RangeCountDistinct
