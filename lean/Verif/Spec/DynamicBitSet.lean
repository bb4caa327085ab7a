import Verif.Model.DynamicBitSet

/-!
# Specification for `DynamicBitSet`

An object is the list of its bits; the history works on a list of objects.
-/

namespace DynamicBitSet
namespace Spec

/-- Bit `i`, false outside of the list. -/
def get (l : List Bool) (i : Nat) : Bool := l[i]?.getD false

/-- The list `f 0, ..., f (n-1)`. -/
def tab (n : Nat) (f : Nat → Bool) : List Bool := (List.range n).map f

/-- Bits `l .. r-1` are changed by `g`. -/
def range (g : Bool → Bool) (a : List Bool) (l r : Nat) : List Bool :=
  tab a.length fun i => if l ≤ i ∧ i < r then g (get a i) else get a i

def shiftLeft (a : List Bool) (k : Nat) : List Bool := tab a.length fun i => decide (k ≤ i) && get a (i - k)

def shiftRight (a : List Bool) (k : Nat) : List Bool := tab a.length fun i => get a (i + k)

def resize (a : List Bool) (m : Nat) (fill : Bool) : List Bool := tab m fun i => if i < a.length then get a i else fill

/-- The number whose binary digits are the bits, bit 0 last. -/
def value : List Bool → Nat
  | [] => 0
  | b :: l => b.toNat + 2 * value l

/-- `r` is the first set bit at or after `p`, or the size. -/
def IsFirst (a : List Bool) (p r : Nat) : Prop :=
  r ≤ a.length ∧ (r < a.length → p ≤ r ∧ get a r = true) ∧ ∀ i, p ≤ i → i < r → get a i = false

/-- Object `x`. -/
def obj (os : List (List Bool)) (x : Nat) : List Bool := os[x]?.getD []

/-- The objects after a call. -/
def next (os : List (List Bool)) : Op → List (List Bool)
  | .make n fill => os ++ [List.replicate n fill]
  | .copy x => os ++ [obj os x]
  | .and x y => os ++ [(obj os x).zipWith and (obj os y)]
  | .or x y => os ++ [(obj os x).zipWith or (obj os y)]
  | .xor x y => os ++ [(obj os x).zipWith Bool.xor (obj os y)]
  | .shiftLeft x k => os ++ [shiftLeft (obj os x) k]
  | .shiftRight x k => os ++ [shiftRight (obj os x) k]
  | .compl x => os ++ [(obj os x).map not]
  | .andEq x y => os.set x ((obj os x).zipWith and (obj os y))
  | .orEq x y => os.set x ((obj os x).zipWith or (obj os y))
  | .xorEq x y => os.set x ((obj os x).zipWith Bool.xor (obj os y))
  | .shiftLeftEq x k => os.set x (shiftLeft (obj os x) k)
  | .shiftRightEq x k => os.set x (shiftRight (obj os x) k)
  | .resize x m fill => os.set x (resize (obj os x) m fill)
  | .pushBack x v => os.set x (obj os x ++ [v])
  | .popBack x => os.set x (obj os x).dropLast
  | .assign x i v => os.set x ((obj os x).set i v)
  | .flip x i => os.set x ((obj os x).set i (!get (obj os x) i))
  | .bitAnd x i v => os.set x ((obj os x).set i (get (obj os x) i && v))
  | .bitOr x i v => os.set x ((obj os x).set i (get (obj os x) i || v))
  | .bitXor x i v => os.set x ((obj os x).set i (get (obj os x) i ^^ v))
  | .rangeSet x l r => os.set x (range (fun _ => true) (obj os x) l r)
  | .rangeReset x l r => os.set x (range (fun _ => false) (obj os x) l r)
  | .rangeFlip x l r => os.set x (range not (obj os x) l r)
  | .rangeUpdate x l r v => os.set x (range (fun _ => v) (obj os x) l r)
  | .set x => os.set x ((obj os x).map fun _ => true)
  | .reset x => os.set x ((obj os x).map fun _ => false)
  | _ => os

/-- The objects exist, the arguments are in range, sizes stay below 2^31. `s[i] &= val` and `all()` on sizes that are a positive multiple of 64 are left out. -/
def Pre (os : List (List Bool)) : Op → Prop
  | .make n _ => n < 2 ^ 31
  | .copy x | .shiftLeft x _ | .shiftRight x _ | .compl x | .shiftLeftEq x _ | .shiftRightEq x _ | .set x | .reset x => x < os.length
  | .and x y | .or x y | .xor x y | .andEq x y | .orEq x y | .xorEq x y => x < os.length ∧ y < os.length ∧ (obj os x).length = (obj os y).length
  | .resize x m _ => x < os.length ∧ m < 2 ^ 31
  | .pushBack x _ => x < os.length ∧ (obj os x).length + 1 < 2 ^ 31
  | .popBack x => x < os.length ∧ (obj os x).length ≠ 0
  | .assign x i _ | .flip x i | .bitOr x i _ | .bitXor x i _ | .test x i => x < os.length ∧ i < (obj os x).length
  | .bitAnd _ _ _ => False
  | .rangeSet x l r | .rangeReset x l r | .rangeFlip x l r | .rangeUpdate x l r _ | .rangeCount x l r => x < os.length ∧ l ≤ r ∧ r ≤ (obj os x).length
  | .size x | .none x | .any x | .count x | .findFirst x => x < os.length
  | .all x => x < os.length ∧ ((obj os x).length = 0 ∨ (obj os x).length % 64 ≠ 0)
  | .findNext x pos => x < os.length ∧ pos < 2 ^ 64 - 1
  | .hasIntersection x y | .isDisjoint x y | .eq x y | .ne x y => x < os.length ∧ y < os.length
  | .lt x y | .le x y | .gt x y | .ge x y => x < os.length ∧ y < os.length ∧ (obj os x).length = (obj os y).length

/-- The answers. -/
def Ans (os : List (List Bool)) : Op → Out → Prop
  | .size x, .int k => k = (obj os x).length
  | .test x i, .bool b => b = get (obj os x) i
  | .rangeCount x l r, .int k => k = ((List.range' l (r - l)).filter fun i => get (obj os x) i).length
  | .all x, .bool b => b = true ↔ ∀ v ∈ obj os x, v = true
  | .none x, .bool b => b = true ↔ ∀ v ∈ obj os x, v = false
  | .any x, .bool b => b = true ↔ true ∈ obj os x
  | .count x, .int k => k = (obj os x).count true
  | .findFirst x, .int k => IsFirst (obj os x) 0 k
  | .findNext x pos, .int k => IsFirst (obj os x) (pos + 1) k
  | .hasIntersection x y, .bool b => b = true ↔ ∃ i, get (obj os x) i = true ∧ get (obj os y) i = true
  | .isDisjoint x y, .bool b => b = true ↔ ¬ ∃ i, get (obj os x) i = true ∧ get (obj os y) i = true
  | .eq x y, .bool b => b = true ↔ obj os x = obj os y
  | .ne x y, .bool b => b = true ↔ obj os x ≠ obj os y
  | .lt x y, .bool b => b = true ↔ value (obj os x) < value (obj os y)
  | .le x y, .bool b => b = true ↔ value (obj os x) ≤ value (obj os y)
  | .gt x y, .bool b => b = true ↔ value (obj os x) > value (obj os y)
  | .ge x y, .bool b => b = true ↔ value (obj os x) ≥ value (obj os y)
  | .size _, _ | .test _ _, _ | .rangeCount _ _ _, _ | .all _, _ | .none _, _ | .any _, _ | .count _, _ | .findFirst _, _ | .findNext _ _, _
  | .hasIntersection _ _, _ | .isDisjoint _ _, _ | .eq _ _, _ | .ne _ _, _ | .lt _ _, _ | .le _ _, _ | .gt _ _, _ | .ge _ _, _ => False
  | _, o => o = .unit

end Spec
end DynamicBitSet
