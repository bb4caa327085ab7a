import Verif.Model.Machine
import Mathlib.Data.Nat.Sqrt
import Mathlib.Data.Int.GCD

/-!
# Model of `library/number/discrete_logarithm.hpp`

`mint` is a modint with a modulus that can be set at run time (`atcoder::dynamic_modint`): its values are natural numbers below the modulus, and the current modulus is passed explicitly. `pow` and `inv` are modelled by their contracts; `inv` asserts that the value is coprime to the modulus. `sqrt` of a 31-bit integer is exact in double precision.
-/

namespace DiscreteLog
open Cxx

/-- `1 << k` on `int`. -/
def shl1 (k : Nat) : M Int := if k < 31 then .ok (2 ^ k) else if k = 31 then .ok (-2 ^ 31) else .error .ub

/-- One test of the loop in `floor_log2` — line 12. -/
def logStep (m : Nat) (res : Nat) : M (Option Nat) := do
  let v ← shl1 (res + 1)
  if v ≤ m then return some (res + 1) else return none

/-- `floor_log2` — lines 10-14. -/
def floorLog2 (m : Nat) : M Nat := loop (logStep m) 64 0

/-- `mint::inv` (contract). -/
def inv (m x : Nat) : M Nat := do
  check (decide (Nat.gcd x m = 1))
  return ((Nat.gcdA x m) % m).toNat

/-- `mp.try_emplace(key, j)` on an unordered map — line 26. -/
def tryEmplace (mp : List (Nat × Nat)) (key j : Nat) : List (Nat × Nat) :=
  match mp.lookup key with
  | some _ => mp
  | none => (key, j) :: mp

/-- Loop body for the table: `mp`, `pow_x` — line 26. -/
def fillStep (m x j : Nat) (s : List (Nat × Nat) × Nat) : M (List (Nat × Nat) × Nat) := return (tryEmplace s.1 s.2 j, s.2 * x % m)

/-- State of the search: result if found, `ya`. -/
structure Search where
  res : Option Int
  ya : Nat

/-- Loop body of the search; nothing happens after `return` — lines 28-30. -/
def findStep (m p a : Nat) (mp : List (Nat × Nat)) (i : Nat) (s : Search) : M Search :=
  match s.res with
  | some _ => return s
  | none =>
    match mp.lookup s.ya with
    | some j => do
      let t ← i32 (p * i)
      let t ← i32 (t + j)
      return ⟨some t, s.ya⟩
    | none => return ⟨none, s.ya * a % m⟩

/-- `return` inside the loop, or `-1` after it — lines 29-31. -/
def Search.out (s : Search) : Int :=
  match s.res with
  | some r => r
  | none => -1

/-- `discrete_logarithm_coprime` — lines 18-32. -/
def coprime (m x y : Nat) : M Int :=
  if y = 1 ∨ m = 1 then return 0 else
  if x = 0 then return (if y = 0 then 1 else -1) else do
  let p := Nat.sqrt m + 1
  let u ← inv m x
  let a := u ^ p % m
  let s ← forUp 0 p ([], 1 % m) (fillStep m x)
  let s ← forUp 0 p ⟨none, y⟩ (findStep m p a s.1)
  return s.out

/-- Loop over small exponents: result if found, `pow_x` — line 41. -/
def smallStep (m x y i : Nat) (s : Search) : M Search :=
  match s.res with
  | some _ => return s
  | none => if s.ya = y then return ⟨some i, s.ya⟩ else return ⟨none, s.ya * x % m⟩

/-- What follows the loop; the modulus is `m / g` inside — lines 42-47. -/
def reduce (m d x y powx : Nat) : M Int := do
  let g := Nat.gcd powx m
  if y % g ≠ 0 then return -1 else do
  let u ← inv (m / g) (powx % (m / g))
  let t ← coprime (m / g) (x % (m / g)) ((y % (m / g)) * u % (m / g))
  if t ≠ -1 then i32 (d + t) else return -1

/-- `discrete_logarithm` — lines 35-48. -/
def dlog (m x y : Nat) : M Int :=
  if m = 1 then return 0 else do
  let d ← floorLog2 m
  let s ← forUp 0 d ⟨none, 1 % m⟩ (smallStep m x y)
  match s.res with
  | some r => return r
  | none => reduce m d x y s.ya

end DiscreteLog
