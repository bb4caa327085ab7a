import Verif.Model.SparseLazySegmentTree
import Mathlib.Algebra.BigOperators.Group.List.Basic
import Mathlib.Data.Nat.Log

/-!
# Specification for `SparseLazySegmentTree`

The state is a list of arrays (a size and a function) and, for each object, which array it refers to. A copy refers to the same array.
-/

namespace SparseLazySegmentTree
namespace Spec

variable {T F : Type}

/-- `f l * f (l+1) * ... * f (r-1)`. -/
def prodOf [Monoid T] (f : Nat → T) (l r : Nat) : T := ((List.range' l (r - l)).map f).prod

/-- `used` is a bound on the number of nodes made so far. -/
structure St (T : Type) where
  used : Nat
  trees : List (Nat × (Nat → T))
  objs : List Nat

/-- The array of object `o`. -/
def St.arr [One T] (t : St T) (o : Nat) : Nat × (Nat → T) := t.trees.getD (t.objs.getD o 0) (0, fun _ => 1)

/-- The values of the array of object `o` become `g` of the position and the value, with at most `c` new nodes. -/
def St.change [One T] (t : St T) (o c : Nat) (g : Nat → T → T) : St T :=
  { t with used := t.used + c, trees := t.trees.set (t.objs.getD o 0) ((t.arr o).1, fun k => g k ((t.arr o).2 k)) }

/-- A bound on the number of new nodes for each of the ends of a range. -/
def cost (n : Nat) : Nat := 2 * Nat.clog 2 n

/-- The arrays after a call; new arrays have the values `x`, and `act f v i` is the result of `f` on the value `v` at position `i`. -/
def next [One T] (x : Nat → T) (act : F → T → Nat → T) (t : St T) : Op T F → St T
  | .make n => ⟨t.used + 1, t.trees ++ [(n, x)], t.objs ++ [t.trees.length]⟩
  | .copy o => { t with objs := t.objs ++ [t.objs.getD o 0] }
  | .applyFun o i g => t.change o (cost (t.arr o).1) fun k v => if k = i.toNat then g v else v
  | .set o i v => t.change o (cost (t.arr o).1) fun k a => if k = i.toNat then v else a
  | .applyAt o i f => t.change o (cost (t.arr o).1) fun k v => if k = i.toNat then act f v k else v
  | .prod o _ _ => { t with used := t.used + 2 * cost (t.arr o).1 }
  | .apply o l r f => t.change o (2 * cost (t.arr o).1) fun k v => if l.toNat ≤ k ∧ k < r.toNat then act f v k else v
  | .applyAll o f => t.change o 0 fun k v => act f v k
  | .get _ _ | .prodAll _ => t

/-- The objects exist, the indices are in range, and there is room in the pool; `apply_all` is not called on an empty array. -/
def Pre [One T] (max : Nat) (t : St T) : Op T F → Prop
  | .make n => 2 * n ≤ max + 1 ∧ t.used < 2 ^ 32
  | .copy o | .prodAll o => o < t.objs.length
  | .get o i => o < t.objs.length ∧ 0 ≤ i ∧ i < (t.arr o).1
  | .applyFun o i _ | .set o i _ | .applyAt o i _ => o < t.objs.length ∧ 0 ≤ i ∧ i < (t.arr o).1 ∧ t.used + cost (t.arr o).1 ≤ 2 ^ 32
  | .prod o l r | .apply o l r _ => o < t.objs.length ∧ 0 ≤ l ∧ l ≤ r ∧ r ≤ (t.arr o).1 ∧ t.used + 2 * cost (t.arr o).1 ≤ 2 ^ 32
  | .applyAll o _ => o < t.objs.length ∧ 0 < (t.arr o).1

/-- The answers. -/
def Ans [Monoid T] (t : St T) : Op T F → Option T → Prop
  | .get o i, a => a = some ((t.arr o).2 i.toNat)
  | .prod o l r, a => a = some (prodOf (t.arr o).2 l.toNat r.toNat)
  | .prodAll o, a => a = some (prodOf (t.arr o).2 0 (t.arr o).1)
  | _, a => a = none

/-- At the start only the node 0 is in the pool. -/
def start : St T := ⟨1, [], []⟩

/-! If copies were independent of the original, every object would have an array of its own. -/

/-- The arrays of the objects. -/
structure Own (T : Type) where
  used : Nat
  arrs : List (Nat × (Nat → T))

/-- The array of object `o`. -/
def Own.arr [One T] (t : Own T) (o : Nat) : Nat × (Nat → T) := t.arrs.getD o (0, fun _ => 1)

/-- The values of the array of object `o`, and no other one, become `g` of the position and the value. -/
def Own.change [One T] (t : Own T) (o c : Nat) (g : Nat → T → T) : Own T :=
  { t with used := t.used + c, arrs := t.arrs.set o ((t.arr o).1, fun k => g k ((t.arr o).2 k)) }

/-- The arrays after a call. -/
def ownNext [One T] (x : Nat → T) (act : F → T → Nat → T) (t : Own T) : Op T F → Own T
  | .make n => ⟨t.used + 1, t.arrs ++ [(n, x)]⟩
  | .copy o => { t with arrs := t.arrs ++ [t.arr o] }
  | .applyFun o i g => t.change o (cost (t.arr o).1) fun k v => if k = i.toNat then g v else v
  | .set o i v => t.change o (cost (t.arr o).1) fun k a => if k = i.toNat then v else a
  | .applyAt o i f => t.change o (cost (t.arr o).1) fun k v => if k = i.toNat then act f v k else v
  | .prod o _ _ => { t with used := t.used + 2 * cost (t.arr o).1 }
  | .apply o l r f => t.change o (2 * cost (t.arr o).1) fun k v => if l.toNat ≤ k ∧ k < r.toNat then act f v k else v
  | .applyAll o f => t.change o 0 fun k v => act f v k
  | .get _ _ | .prodAll _ => t

/-- The objects exist, the indices are in range, and there is room in the pool. -/
def OwnPre [One T] (max : Nat) (t : Own T) : Op T F → Prop
  | .make n => 2 * n ≤ max + 1 ∧ t.used < 2 ^ 32
  | .copy o | .prodAll o => o < t.arrs.length
  | .get o i => o < t.arrs.length ∧ 0 ≤ i ∧ i < (t.arr o).1
  | .applyFun o i _ | .set o i _ | .applyAt o i _ => o < t.arrs.length ∧ 0 ≤ i ∧ i < (t.arr o).1 ∧ t.used + cost (t.arr o).1 ≤ 2 ^ 32
  | .prod o l r | .apply o l r _ => o < t.arrs.length ∧ 0 ≤ l ∧ l ≤ r ∧ r ≤ (t.arr o).1 ∧ t.used + 2 * cost (t.arr o).1 ≤ 2 ^ 32
  | .applyAll o _ => o < t.arrs.length ∧ 0 < (t.arr o).1

/-- The answers. -/
def OwnAns [Monoid T] (t : Own T) : Op T F → Option T → Prop
  | .get o i, a => a = some ((t.arr o).2 i.toNat)
  | .prod o l r, a => a = some (prodOf (t.arr o).2 l.toNat r.toNat)
  | .prodAll o, a => a = some (prodOf (t.arr o).2 0 (t.arr o).1)
  | _, a => a = none

/-- The call is not a copy. -/
def NoCopy : Op T F → Prop
  | .copy _ => False
  | _ => True

end Spec
end SparseLazySegmentTree
