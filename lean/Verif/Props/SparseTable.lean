import Verif.Proof.SparseTable
import Verif.Props.SegmentTree

/-!
# SparseTable: property C13

`op` is associative with identity `e()` (a monoid, written multiplicatively) and idempotent; commutativity is not needed.
-/

namespace SparseTable
open Cxx
open SegmentTree (rangeProd ofArray)

/-- **C13.** Built from any non-empty vector, every query with `r ≤ n` returns the ordered product over `[l, r)` (the identity if `l ≥ r`).
`d` is the value `std::vector::resize` fills in. -/
theorem sparseTable_correct {T : Type} [Monoid T] (hid : ∀ x : T, x * x = x) (d : T) (a : Array T) (ha : a.size ≠ 0) :
    ∃ s, ofVector (· * ·) d a = .ok s ∧ ∀ l r, r ≤ a.size → prod (· * ·) 1 s l r = .ok (rangeProd (ofArray a) l r) :=
  ofVector_tot d hid a ha (f := ofArray a) (fun i h => by simp [ofArray, h])

/-- The empty vector is outside of the domain: `__builtin_clz(0)`. -/
theorem sparseTable_empty {T : Type} (op : T → T → T) (d : T) : ofVector op d #[] = .error .ub := rfl

/-- A non-commutative idempotent monoid: `x * y = x` unless `x` is the identity. -/
inductive LZ where
  | one | a | b
  deriving DecidableEq

instance : Monoid LZ where
  mul x y := match x with | .one => y | x => x
  one := .one
  mul_assoc x y z := by cases x <;> rfl
  one_mul x := rfl
  mul_one x := by cases x <;> rfl

/-- The hypotheses are met by it and by a five-element vector. -/
example : (∀ x : LZ, x * x = x) ∧ (#[LZ.a, .b, .one, .a, .b] : Array LZ).size ≠ 0 := by
  constructor
  · intro x; cases x <;> rfl
  · decide

example : (ofVector (T := Nat) max 0 #[3, 1, 4, 1, 5] >>= fun s => do
    return (← prod max 0 s 1 4, ← prod max 0 s 0 5, ← prod max 0 s 3 3)) = .ok (4, 5, 0) := by decide

end SparseTable
