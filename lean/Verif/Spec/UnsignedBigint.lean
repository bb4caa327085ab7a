import Mathlib.Algebra.Order.Ring.Int

/-!
# Specification of natural numbers in base `10 ^ 9`
-/

namespace UBig

/-- The number with the given digits, least significant first. -/
def val : List Int → Int
  | [] => 0
  | x :: a => x + 1000000000 * val a

/-- Digits are between 0 and `10 ^ 9 - 1`. -/
def Bounded (a : List Int) : Prop := ∀ x ∈ a, 0 ≤ x ∧ x < 1000000000

/-- The form of a number that every operation relies on: bounded digits, the last of which is not zero. -/
def Canon (a : List Int) : Prop := Bounded a ∧ ∀ h : a ≠ [], a.getLast h ≠ 0

/-- The value of a string of decimal digits. -/
def decimal (s : List Char) : Int := s.foldl (fun v c => v * 10 + ((c.toNat : Int) - 48)) 0

end UBig
