import Verif.Model.FastFactorize

/-!
# Model of `library/number/tetration_mod.hpp`

For arguments `a, b >= 0`, `m >= 1` of type `int`. `fast_factorize::factorize` is the model of `fast_factorize.hpp`, with its primality test
`prm`, random constants `rnd` and table `pf`; the result is `none` if it runs out of random constants. The `long long` products in lines
21-22 and 36-37 are checked for overflow.
-/

namespace Tetration
open Cxx

/-- `max_value` — line 16. -/
def maxValue : Nat := 2 ^ 31 - 1

/-- One iteration of the loop of `saturation_pow`; the state is `(b, res, pow_a)` — lines 20-23. -/
def satStep (s : Nat × Nat × Nat) : M (Option (Nat × Nat × Nat)) :=
  if s.1 = 0 then return none else do
    let r ← i64 (s.2.1 * s.2.2)
    let q ← i64 (s.2.2 * s.2.2)
    return some (s.1 / 2, if s.1 % 2 = 1 then min r.toNat maxValue else s.2.1, min q.toNat maxValue)

/-- `saturation_pow(a, b)` — lines 17-25. -/
def satPow (a b : Nat) : M Nat :=
  if 32 ≤ b then return maxValue else do
    let s ← loop satStep 32 (b, 1, a)
    return s.2.1

/-- One iteration of the loop of `saturation_tetration`; the state is `(i, exponent)` — line 30. -/
def satTetStep (a b : Nat) (s : Nat × Nat) : M (Option (Nat × Nat)) :=
  if s.1 < b ∧ s.2 ≠ maxValue then do
    let e ← satPow a s.2
    return some (s.1 + 1, e)
  else return none

/-- `saturation_tetration(a, b)` — lines 26-32. -/
def satTet (a b : Nat) : M Nat := do
  check (decide (2 ≤ a))
  if b = 0 then return 1 else do
    let s ← loop (satTetStep a b) b (0, 1)
    return s.2

/-- One iteration of the loop of `pow_mod`; the state is `(b, res, pow_a)` — lines 35-38. -/
def powStep (m : Nat) (s : Nat × Nat × Nat) : M (Option (Nat × Nat × Nat)) :=
  if s.1 = 0 then return none else do
    let r ← i64 (s.2.1 * s.2.2)
    let q ← i64 (s.2.2 * s.2.2)
    if m = 0 then .error .ub else
      return some (s.1 / 2, if s.1 % 2 = 1 then r.toNat % m else s.2.1, q.toNat % m)

/-- `pow_mod(a, b, m)` — lines 33-40. -/
def powMod (a b m : Nat) : M Nat := do
  let s ← loop (powStep m) 32 (b, 1, a)
  return s.2.1

/-- One iteration of the loop over `g`; the state is `(m0, i0, g)` — lines 56-58. -/
def gcdStep (s : Nat × Nat × Nat) : M (Option (Nat × Nat × Nat)) :=
  if s.2.2 = 1 then return none
  else if s.2.2 = 0 then .error .ub
  else return some (s.1 / s.2.2, s.2.1 + 1, Nat.gcd (s.1 / s.2.2) s.2.2)

/-- `phi /= p, phi *= p - 1` — line 61. -/
def phiStep (phi : Nat) (x : Nat × Nat) : M Nat := do
  if x.1 = 0 then .error .ub else do
    let r ← i32 ((phi / x.1 : Nat) * (x.1 - 1 : Nat))
    return r.toNat

/-- `exponent += (((i0 - exponent) + phi - 1) / phi) * phi` if `i0 > exponent` — lines 66-68. -/
def raise (i0 phi e : Nat) : M Nat :=
  if e < i0 then do
    let t ← i32 ((i0 - e : Nat) + (phi : Int))
    if phi = 0 then .error .ub else do
      let r ← i32 ((e : Int) + ((t - 1).toNat / phi * phi : Nat))
      return r.toNat
  else return e

/-- `exponent -= ((exponent - i0) / phi) * phi` if `i0 <= exponent` — lines 69-71. -/
def reduce (i0 phi e : Nat) : M Nat :=
  if i0 ≤ e then
    if phi = 0 then .error .ub else return e - (e - i0) / phi * phi
  else return e

/-- Lines 55-62: `i0` and `phi`. -/
def prepare (prm : Nat → M Bool) (rnd : Nat → List Nat) (pf : Array Nat) (a m : Nat) : M (Option (Nat × Nat)) := do
  let s ← loop gcdStep 32 (m, 0, Nat.gcd m a)
  match ← FastFactorize.factorize prm rnd pf s.1 with
  | none => return none
  | some l => do
    let phi ← forEach l s.1 phiStep
    return some (s.2.1, phi)

/-- `tetration_mod(a, b, m)` — lines 50-73. -/
def tetMod (prm : Nat → M Bool) (rnd : Nat → List Nat) (pf : Array Nat) (a : Nat) : Nat → Nat → M (Option Nat)
  | 0, m => return some (if m = 1 then 0 else 1)
  | b + 1, m =>
    if m = 1 then return some 0
    else if a = 0 then return some (1 - (b + 1) % 2)
    else if a = 1 then return some 1
    else do
      match ← prepare prm rnd pf a m with
      | none => return none
      | some q => do
        let e ← satTet a b
        if e = maxValue then do
          match ← tetMod prm rnd pf a b q.2 with
          | none => return none
          | some e => do
            let e ← raise q.1 q.2 e
            let r ← powMod a e m
            return some r
        else do
          let e ← reduce q.1 q.2 e
          let r ← powMod a e m
          return some r

end Tetration
