import Verif.Model.SparseSegmentTree
import Mathlib.Algebra.BigOperators.Group.List.Basic
import Mathlib.Data.Nat.Log

/-!
# Specification for `SparseSegmentTree`

The state is a list of arrays (a size and a function) and, for each object, which array it refers to. A copy refers to the same array.
-/

namespace SparseSegmentTree
namespace Spec

variable {T : Type}

/-- `f l * f (l+1) * ... * f (r-1)`. -/
def prodOf [Monoid T] (f : Nat → T) (l r : Nat) : T := ((List.range' l (r - l)).map f).prod

/-- `used` is a bound on the number of nodes made so far. -/
structure St (T : Type) where
  used : Nat
  trees : List (Nat × (Nat → T))
  objs : List Nat

/-- The array of object `o`. -/
def St.arr [One T] (t : St T) (o : Nat) : Nat × (Nat → T) := t.trees.getD (t.objs.getD o 0) (0, fun _ => 1)

/-- The array of object `o` is changed at `i`. -/
def St.change [One T] (t : St T) (o i : Nat) (f : T → T) : St T :=
  let a := t.arr o
  { t with used := t.used + Nat.clog 2 a.1, trees := t.trees.set (t.objs.getD o 0) (a.1, fun k => if k = i then f (a.2 k) else a.2 k) }

/-- The arrays after a call; new arrays have the values `x`. -/
def next [One T] (x : Nat → T) (t : St T) : Op T → St T
  | .make n => ⟨t.used + 1, t.trees ++ [(n, x)], t.objs ++ [t.trees.length]⟩
  | .copy o => { t with objs := t.objs ++ [t.objs.getD o 0] }
  | .applyFun o i f => t.change o i.toNat f
  | .set o i v => t.change o i.toNat fun _ => v
  | _ => t

/-- The objects exist, the indices are in range, and there is room in the pool. -/
def Pre [One T] (max : Nat) (t : St T) : Op T → Prop
  | .make n => 2 * n ≤ max + 1 ∧ t.used < 2 ^ 32
  | .copy o | .prodAll o => o < t.objs.length
  | .get o i => o < t.objs.length ∧ 0 ≤ i ∧ i < (t.arr o).1
  | .applyFun o i _ | .set o i _ => o < t.objs.length ∧ 0 ≤ i ∧ i < (t.arr o).1 ∧ t.used + Nat.clog 2 (t.arr o).1 ≤ 2 ^ 32
  | .prod o l r => o < t.objs.length ∧ 0 ≤ l ∧ l ≤ r ∧ r ≤ (t.arr o).1

/-- The answers. -/
def Ans [Monoid T] (t : St T) : Op T → Option T → Prop
  | .get o i, a => a = some ((t.arr o).2 i.toNat)
  | .prod o l r, a => a = some (prodOf (t.arr o).2 l.toNat r.toNat)
  | .prodAll o, a => a = some (prodOf (t.arr o).2 0 (t.arr o).1)
  | _, a => a = none

/-- At the start only the node 0 is in the pool. -/
def start : St T := ⟨1, [], []⟩

/-! If copies were independent of the original, every object would have an array of its own. -/

/-- The arrays of the objects. -/
structure Own (T : Type) where
  used : Nat
  arrs : List (Nat × (Nat → T))

/-- The array of object `o`. -/
def Own.arr [One T] (t : Own T) (o : Nat) : Nat × (Nat → T) := t.arrs.getD o (0, fun _ => 1)

/-- The array of object `o`, and no other one, is changed at `i`. -/
def Own.change [One T] (t : Own T) (o i : Nat) (f : T → T) : Own T :=
  let a := t.arr o
  { t with used := t.used + Nat.clog 2 a.1, arrs := t.arrs.set o (a.1, fun k => if k = i then f (a.2 k) else a.2 k) }

/-- The arrays after a call. -/
def ownNext [One T] (x : Nat → T) (t : Own T) : Op T → Own T
  | .make n => ⟨t.used + 1, t.arrs ++ [(n, x)]⟩
  | .copy o => { t with arrs := t.arrs ++ [t.arr o] }
  | .applyFun o i f => t.change o i.toNat f
  | .set o i v => t.change o i.toNat fun _ => v
  | _ => t

/-- The objects exist, the indices are in range, and there is room in the pool. -/
def OwnPre [One T] (max : Nat) (t : Own T) : Op T → Prop
  | .make n => 2 * n ≤ max + 1 ∧ t.used < 2 ^ 32
  | .copy o | .prodAll o => o < t.arrs.length
  | .get o i => o < t.arrs.length ∧ 0 ≤ i ∧ i < (t.arr o).1
  | .applyFun o i _ | .set o i _ => o < t.arrs.length ∧ 0 ≤ i ∧ i < (t.arr o).1 ∧ t.used + Nat.clog 2 (t.arr o).1 ≤ 2 ^ 32
  | .prod o l r => o < t.arrs.length ∧ 0 ≤ l ∧ l ≤ r ∧ r ≤ (t.arr o).1

/-- The answers. -/
def OwnAns [Monoid T] (t : Own T) : Op T → Option T → Prop
  | .get o i, a => a = some ((t.arr o).2 i.toNat)
  | .prod o l r, a => a = some (prodOf (t.arr o).2 l.toNat r.toNat)
  | .prodAll o, a => a = some (prodOf (t.arr o).2 0 (t.arr o).1)
  | _, a => a = none

/-- The call is not a copy. -/
def NoCopy : Op T → Prop
  | .copy _ => False
  | _ => True

end Spec
end SparseSegmentTree
