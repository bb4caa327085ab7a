import Mathlib.Data.List.Sort

/-!
# Specification of `BinaryTrie`: a multiset of `w`-bit numbers

The multiset is a list whose order is irrelevant. Values are numbers below `2^w`.
-/

namespace BinaryTrieSpec

/-- The calls. `xor…` calls take the mask first. -/
inductive Op where
  | insert (v num : Nat)
  | erase (v num : Nat)
  | eraseAll (v : Nat)
  | size
  | empty
  | prefixCount (v l : Nat)
  | count (v : Nat)
  | contains (v : Nat)
  | xorKthMin (x k : Nat)
  | xorKthMax (x k : Nat)
  | xorCountLt (x v : Nat)
  | xorCountGeq (x v : Nat)
  | countLeq (v : Nat)
  | countGt (v : Nat)
  | xorLower (x v dflt : Nat)
  | xorCeil (x v dflt : Nat)
  | floor (v dflt : Nat)
  | higher (v dflt : Nat)
  | min

/-- Preconditions: all values have `w` bits, the number of elements stays an `int`, an element is requested only if it exists. -/
def Pre (w : Nat) (S : List Nat) : Op → Prop
  | .insert v num => v < 2 ^ w ∧ S.length + num < 2 ^ 31
  | .erase v num => v < 2 ^ w ∧ num < 2 ^ 31
  | .eraseAll v | .prefixCount v _ | .count v | .contains v | .countLeq v | .countGt v | .floor v _ | .higher v _ => v < 2 ^ w
  | .xorKthMin x k | .xorKthMax x k => x < 2 ^ w ∧ k < S.length
  | .xorCountLt x v | .xorCountGeq x v | .xorLower x v _ | .xorCeil x v _ => x < 2 ^ w ∧ v < 2 ^ w
  | .size | .empty => True
  | .min => S ≠ []

instance (w : Nat) (S : List Nat) (o : Op) : Decidable (Pre w S o) := by
  cases o <;> unfold Pre <;> infer_instance

/-- The effect. -/
def next (S : List Nat) : Op → List Nat
  | .insert v num => List.replicate num v ++ S
  | .erase v num => S.diff (List.replicate num v)
  | .eraseAll v => S.filter (· ≠ v)
  | _ => S

/-- `o` is the greatest element of `L` that satisfies `q`, or `dflt` if there is none. -/
def Greatest (L : List Nat) (q : Nat → Prop) (dflt : Nat) (o : Int) : Prop :=
  (∃ u ∈ L, q u ∧ o = u ∧ ∀ v ∈ L, q v → v ≤ u) ∨ (o = dflt ∧ ∀ v ∈ L, ¬ q v)

/-- `o` is the least element of `L` that satisfies `q`, or `dflt` if there is none. -/
def Least (L : List Nat) (q : Nat → Prop) (dflt : Nat) (o : Int) : Prop :=
  (∃ u ∈ L, q u ∧ o = u ∧ ∀ v ∈ L, q v → u ≤ v) ∨ (o = dflt ∧ ∀ v ∈ L, ¬ q v)

/-- The image of the multiset under xor. -/
def img (S : List Nat) (x : Nat) : List Nat := S.map (x ^^^ ·)

/-- The answer (0 for calls without one; `bool` as 0 or 1). `insert` and `erase` with `num = 0` answer 0. -/
def Ans (S : List Nat) : Op → Int → Prop
  | .insert v num, o => o = if num = 0 then 0 else ((List.replicate num v ++ S).count v : Int)
  | .erase v num, o => o = (Nat.min (S.count v) num : Nat)
  | .eraseAll v, o => o = S.count v
  | .size, o => o = S.length
  | .empty, o => o = if S = [] then 1 else 0
  | .prefixCount v l, o => o = S.countP (fun u => decide (u / 2 ^ l = v / 2 ^ l))
  | .count v, o => o = S.count v
  | .contains v, o => o = if v ∈ S then 1 else 0
  | .xorKthMin x k, o => ∃ z : Nat, o = z ∧ ((img S x).mergeSort (· ≤ ·))[k]? = some z
  | .xorKthMax x k, o => ∃ z : Nat, o = z ∧ ((img S x).mergeSort (· ≤ ·))[S.length - 1 - k]? = some z
  | .xorCountLt x v, o => o = (img S x).countP (fun u => decide (u < v))
  | .xorCountGeq x v, o => o = (img S x).countP (fun u => decide (v ≤ u))
  | .countLeq v, o => o = S.countP (fun u => decide (u ≤ v))
  | .countGt v, o => o = S.countP (fun u => decide (v < u))
  | .xorLower x v dflt, o => Greatest (img S x) (· < v) dflt o
  | .xorCeil x v dflt, o => Least (img S x) (v ≤ ·) dflt o
  | .floor v dflt, o => Greatest S (· ≤ v) dflt o
  | .higher v dflt, o => Least S (v < ·) dflt o
  | .min, o => ∃ u ∈ S, o = u ∧ ∀ v ∈ S, u ≤ v

end BinaryTrieSpec
