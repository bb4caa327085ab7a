import Verif.Cxx

/-!
# Machine integers

Signed results outside the range are undefined, unsigned results wrap.
-/

namespace Cxx

/-- Result of a `long long` operation whose exact value is `x`. -/
def i64 (x : Int) : M Int := if -2 ^ 63 ≤ x ∧ x < 2 ^ 63 then .ok x else .error .ub

/-- Result of an `int` operation whose exact value is `x`. -/
def i32 (x : Int) : M Int := if -2 ^ 31 ≤ x ∧ x < 2 ^ 31 then .ok x else .error .ub

/-- Conversion of a non-negative value to `int` (wraps, as in C++20 and in every compiler before). -/
def toI32 (x : Nat) : Int := if x % 2 ^ 32 < 2 ^ 31 then (x % 2 ^ 32 : Nat) else ((x % 2 ^ 32 : Nat) : Int) - 2 ^ 32

theorem i64_ok {x : Int} (h : -2 ^ 63 ≤ x ∧ x < 2 ^ 63) : i64 x = .ok x := if_pos h

theorem i32_ok {x : Int} (h : -2 ^ 31 ≤ x ∧ x < 2 ^ 31) : i32 x = .ok x := if_pos h

theorem toI32_of_lt {x : Nat} (h : x < 2 ^ 31) : toI32 x = x := by
  unfold toI32
  rw [Nat.mod_eq_of_lt (by omega), if_pos h]

/-- `x` is a `long long` other than the least one: `|x| < 2^63`. -/
def Fits64 (x : Int) : Prop := -2 ^ 63 < x ∧ x < 2 ^ 63

end Cxx
