import Verif.Model.PrioritySum
import Mathlib.Data.Multiset.Sort
import Mathlib.Algebra.BigOperators.Group.List.Basic

/-! # Specification of `PrioritySum` -/

namespace PrioritySum

variable {α : Type*} [LinearOrder α] [AddCommGroup α]

/-- The number `k` and the multiset of elements. -/
abbrev Abs (α : Type*) := Int × Multiset α

/-- The effect of a call. -/
def Abs.step (a : Abs α) : Op α → Abs α
  | .insert v => (a.1, v ::ₘ a.2)
  | .erase v => (a.1, a.2.erase v)
  | .setK k => (k, a.2)

/-- The state after a history. -/
def Abs.run (k : Int) (ops : List (Op α)) : Abs α := ops.foldl Abs.step (k, 0)

/-- The first `k` elements in increasing order. -/
def Abs.first (a : Abs α) : List α := (a.2.sort (· ≤ ·)).take a.1.toNat

/-- Calls for which the code is right: `k` is not negative, and the element to be erased is the greatest of the first `k` elements. -/
def Abs.Ok (a : Abs α) : Op α → Prop
  | .insert _ => True
  | .erase v => a.first.getLast? = some v
  | .setK k => 0 ≤ k

/-- All calls of the history are of this kind. -/
def ValidFrom : Abs α → List (Op α) → Prop
  | _, [] => True
  | a, o :: ops => a.Ok o ∧ ValidFrom (a.step o) ops

end PrioritySum
