import Verif.Model.Machine
import Mathlib.Data.Nat.Sqrt
import Mathlib.Data.List.DropRight

/-!
# Sieves of Eratosthenes on the residues coprime to 30

`library/number/internal_eratosthenes.hpp`, `library/number/sieve_of_eratosthenes.hpp`.

`unsigned int` arithmetic is modelled modulo `2^32`.  `std::sqrt` on an `unsigned int` converts to `double`, whose square
root is exact enough to be truncated to the integer square root; it is modelled as `Nat.sqrt`.
-/

namespace WheelSieve
open Cxx

/-- `RM` (internal_eratosthenes.hpp, line 11) -/
def RM : Array Nat := #[1, 7, 11, 13, 17, 19, 23, 29]
/-- `DR` (internal_eratosthenes.hpp, line 12) -/
def DR : Array Nat := #[6, 4, 2, 4, 2, 4, 6, 2]
/-- `DF` (internal_eratosthenes.hpp, lines 13-18) -/
def DF : Array (Array Nat) := #[
  #[0, 0, 0, 0, 0, 0, 0, 1], #[1, 1, 1, 0, 1, 1, 1, 1],
  #[2, 2, 0, 2, 0, 2, 2, 1], #[3, 1, 1, 2, 1, 1, 3, 1],
  #[3, 3, 1, 2, 1, 3, 3, 1], #[4, 2, 2, 2, 2, 2, 4, 1],
  #[5, 3, 1, 4, 1, 3, 5, 1], #[6, 4, 2, 4, 2, 4, 6, 1]]
/-- `DRP` (internal_eratosthenes.hpp, line 19) -/
def DRP : Array Nat := #[48, 32, 16, 32, 16, 32, 48, 16]
/-- `DFP` (internal_eratosthenes.hpp, lines 20-25) -/
def DFP : Array (Array Nat) := #[
  #[0, 0, 0, 0, 0, 0, 0, 8], #[8, 8, 8, 0, 8, 8, 8, 8],
  #[16, 16, 0, 16, 0, 16, 16, 8], #[24, 8, 8, 16, 8, 8, 24, 8],
  #[24, 24, 8, 16, 8, 24, 24, 8], #[32, 16, 16, 16, 16, 16, 32, 8],
  #[40, 24, 8, 32, 8, 24, 40, 8], #[48, 32, 16, 32, 16, 32, 48, 8]]
/-- `MASK` (internal_eratosthenes.hpp, lines 27-32) -/
def MASK : Array (Array Nat) := #[
  #[0x01, 0x02, 0x04, 0x08, 0x10, 0x20, 0x40, 0x80], #[0x02, 0x20, 0x10, 0x01, 0x80, 0x08, 0x04, 0x40],
  #[0x04, 0x10, 0x01, 0x40, 0x02, 0x80, 0x08, 0x20], #[0x08, 0x01, 0x40, 0x20, 0x04, 0x02, 0x80, 0x10],
  #[0x10, 0x80, 0x02, 0x04, 0x20, 0x40, 0x01, 0x08], #[0x20, 0x08, 0x80, 0x02, 0x40, 0x01, 0x10, 0x04],
  #[0x40, 0x04, 0x08, 0x80, 0x01, 0x10, 0x20, 0x02], #[0x80, 0x40, 0x20, 0x10, 0x08, 0x04, 0x02, 0x01]]
/-- `OFFSET` (internal_eratosthenes.hpp, lines 33-42) -/
def OFFSET : Array (Array Nat) := #[
  #[0, 1, 2, 3, 4, 5, 6, 7], #[1, 5, 4, 0, 7, 3, 2, 6],
  #[2, 4, 0, 6, 1, 7, 3, 5], #[3, 0, 6, 5, 2, 1, 7, 4],
  #[4, 7, 1, 2, 5, 6, 0, 3], #[5, 3, 7, 1, 6, 0, 4, 2],
  #[6, 2, 3, 7, 0, 4, 5, 1], #[7, 6, 5, 4, 3, 2, 1, 0]]

/-- `t[i][j]` -/
def tab (t : Array (Array Nat)) (i j : Nat) : M Nat := do
  let r ← rd t i
  rd r j

/-- `mask_to_index` (internal_eratosthenes.hpp, lines 44-56) -/
def maskToIndex : Nat → M Nat
  | 1 => .ok 0
  | 2 => .ok 1
  | 4 => .ok 2
  | 8 => .ok 3
  | 16 => .ok 4
  | 32 => .ok 5
  | 64 => .ok 6
  | 128 => .ok 7
  | _ => .error .assertion

/-- The outer part of the `switch (p % PROD)` with `case RM[j]` for all `j`: the index of a residue, if it is one of the
eight residues coprime to 30 (sieve_of_eratosthenes.hpp, lines 51-61, 98-108, 119-126) -/
def residueIndex : Nat → Option Nat
  | 1 => some 0
  | 7 => some 1
  | 11 => some 2
  | 13 => some 3
  | 17 => some 4
  | 19 => some 5
  | 23 => some 6
  | 29 => some 7
  | _ => none

/-! ### `SimpleSieve<N>` -/

/-- `siz` (sieve_of_eratosthenes.hpp, line 15) -/
def siz (N : Nat) : Nat := N / 30 + 1

/-- one iteration of the innermost loop (lines 26-28); the state is `(kr, mq, flag)` -/
def markStep (siz kp mp : Nat) (s : Nat × Nat × Array Nat) : M (Option (Nat × Nat × Array Nat)) :=
  if s.1 < siz then do
    let x ← rd s.2.2 s.1
    let k ← tab MASK mp s.2.1
    let flag ← wr s.2.2 s.1 (x ||| k)
    let dr ← rd DR s.2.1
    let df ← tab DF mp s.2.1
    return some ((s.1 + (kp * dr + df)) % 2 ^ 32, (s.2.1 + 1) &&& 7, flag)
  else return none

/-- one iteration of the loop over the zero bits of a row (lines 23-29): `bits & -bits` and `bits &= bits - 1` on `uint8_t` -/
def bitsStep (siz kp : Nat) (s : Nat × Array Nat) : M (Option (Nat × Array Nat)) :=
  if s.1 = 0 then return none else do
    let mp ← maskToIndex (s.1 &&& (256 - s.1))
    let m ← rd RM mp
    let kr := (kp * (30 * kp + 2 * m) + m * m / 30) % 2 ^ 32
    let r ← loop (markStep siz kp mp) (30 * siz + 30) (kr, mp, s.2)
    return some (s.1 &&& (s.1 - 1), r.2.2)

/-- one row (lines 23-29); `~flag[kp]` as a `uint8_t` -/
def row (siz kp : Nat) (flag : Array Nat) : M (Array Nat) := do
  let f ← rd flag kp
  let r ← loop (bitsStep siz kp) 8 (255 - f, flag)
  return r.2

/-- `SimpleSieve()` (lines 18-31), on the static array `flag` -/
def simple (N : Nat) (flag : Array Nat) : M (Array Nat) := do
  let x ← rd flag 0
  let flag ← wr flag 0 (x ||| 1)
  let kmax := ((N + 2) % 2 ^ 32).sqrt / 30
  forUp 0 (kmax + 1) flag (row (siz N))

/-- the static storage of `SimpleSieve<N>` before any constructor has run (lines 65-66) -/
def simpleZero (N : Nat) : Array Nat := Array.replicate (siz N) 0

/-- `SimpleSieve::is_prime` (lines 46-63) -/
def simpleIsPrime (flag : Array Nat) (p : Nat) : M Bool :=
  if p = 2 ∨ p = 3 ∨ p = 5 then return true else
    match residueIndex (p % 30) with
    | some j => do
      let f ← rd flag (p / 30)
      return ((f >>> j) &&& 1) == 0
    | none => return false

/-- the loop over the zero bits of a row in `prime_list` (lines 37-41); the state is `(f, res)` -/
def pushStep (offset : Nat) (s : Nat × List Int) : M (Option (Nat × List Int)) :=
  if s.1 = 0 then return none else do
    let g := s.1 &&& (256 - s.1)
    let j ← maskToIndex g
    let m ← rd RM j
    return some (s.1 ^^^ g, s.2 ++ [toI32 (offset + m)])

/-- one iteration of the loop over the rows in `prime_list` (lines 36-42); the state is `(i, offset, res)` -/
def listStep (N : Nat) (flag : Array Nat) (maxVal : Nat) (s : Nat × Nat × List Int) : M (Option (Nat × Nat × List Int)) :=
  if s.1 < siz N ∧ s.2.1 < maxVal then do
    let f ← rd flag s.1
    let r ← loop (pushStep s.2.1) 8 (255 - f, s.2.2)
    return some (s.1 + 1, (s.2.1 + 30) % 2 ^ 32, r.2)
  else return none

/-- `SimpleSieve::prime_list` (lines 32-45): the final `while` drops the elements at the back that exceed `max_val` as
`unsigned int` -/
def primeList (N : Nat) (flag : Array Nat) (maxVal : Nat) : M (List Int) := do
  let r ← loop (listStep N flag maxVal) (siz N) (0, 0, [2, 3, 5])
  return r.2.2.rdropWhile fun x => decide ((maxVal : Int) < x % 2 ^ 32)

/-! ### `Sieve<N>` -/

/-- `base_max` (line 71) -/
def baseMax (N : Nat) : Nat := (N + 1) * 8 % 2 ^ 32 / 30

/-- the static storage of `Sieve<N>` before any constructor has run (lines 162-163) -/
def pfZero (N : Nat) : Array Nat := Array.replicate (baseMax N + 8) 0

/-- one iteration of the innermost loop (lines 86-88); the state is `(base_k, mq, pf)` -/
def pfMarkStep (bm kp mp act : Nat) (s : Nat × Nat × Array Nat) : M (Option (Nat × Nat × Array Nat)) :=
  if s.1 ≤ bm then do
    let o ← tab OFFSET mp s.2.1
    let pf ← wr s.2.2 (s.1 + o) act
    let dr ← rd DRP s.2.1
    let df ← tab DFP mp s.2.1
    return some ((s.1 + (kp * dr + df)) % 2 ^ 32, (s.2.1 + 1) &&& 7, pf)
  else return none

/-- the body of the loop over `mp` (lines 81-90) -/
def pfCol (bm kp mp : Nat) (pf : Array Nat) : M (Array Nat) := do
  let m ← rd RM mp
  let x ← rd pf (kp * 8 + mp)
  if x = 0 then do
    let k := (kp * (30 * kp + 2 * m) + m * m / 30) * 8 % 2 ^ 32
    let r ← loop (pfMarkStep bm kp mp (kp * 30 + m)) (4 * bm + 60) (k, mp, pf)
    return r.2.2
  else return pf

/-- `Sieve()` (lines 75-92), on the static array `pf` -/
def sieve (N : Nat) (pf : Array Nat) : M (Array Nat) := do
  let pf ← wr pf 0 1
  let kmax := (((N + 1) % 2 ^ 32).sqrt + 2 ^ 32 - 1) % 2 ^ 32 / 30
  forUp 0 (kmax + 1) pf fun kp pf => forUp 0 8 pf (pfCol (baseMax N) kp)

/-- `Sieve::is_prime` (lines 93-110) -/
def isPrime (pf : Array Nat) (p : Nat) : M Bool :=
  if p = 2 ∨ p = 3 ∨ p = 5 then return true else
    match residueIndex (p % 30) with
    | some j => do
      let x ← rd pf (p / 30 * 8 + j)
      return x == 0
    | none => return false

/-- `Sieve::prime_factor` (lines 111-129) -/
def primeFactor (pf : Array Nat) (p : Nat) : M Nat :=
  if p % 30 % 2 = 0 then return 2
  else if p % 30 % 3 = 0 then return 3
  else if p % 30 % 5 = 0 then return 5
  else match residueIndex (p % 30) with
    | some j => do
      let x ← rd pf (p / 30 * 8 + j)
      return if x ≠ 0 then x else p
    | none => .error .assertion

/-- `do { n /= p, ++c; } while (n % p == 0);` (line 138), after the first execution of the body -/
def divideStep (p : Nat) (s : Nat × Nat) : M (Option (Nat × Nat)) :=
  if s.1 % p = 0 then return some (s.1 / p, s.2 + 1) else return none

/-- one iteration of the loop of `factorize` (lines 136-140); division by zero is undefined -/
def factorizeStep (pf : Array Nat) (s : Nat × List (Nat × Nat)) : M (Option (Nat × List (Nat × Nat))) :=
  if s.1 > 1 then do
    let p ← primeFactor pf s.1
    if p = 0 then .error .ub else do
      let r ← loop (divideStep p) s.1 (s.1 / p, 1)
      return some (r.1, s.2 ++ [(p, r.2)])
  else return none

/-- `Sieve::factorize` (lines 133-142) -/
def factorize (N : Nat) (pf : Array Nat) (n : Nat) : M (List (Nat × Nat)) := do
  check (decide (0 < n ∧ n ≤ N))
  let r ← loop (factorizeStep pf) n (n, [])
  return r.2

/-- `divs.push_back(d *= prime)` (lines 154-156), an `int` multiplication; the state is `(d, divs)` -/
def powersStep (p : Nat) (_ : Nat) (s : Int × Array Int) : M (Int × Array Int) := do
  let d ← i32 (s.1 * p)
  return (d, s.2.push d)

/-- the body of the loop over `i` of `divisors` (lines 152-157) -/
def divisorStep (p c : Nat) (i : Nat) (divs : Array Int) : M (Array Int) := do
  let d ← rd divs i
  let s ← forUp 0 c (d, divs) (powersStep p)
  return s.2

/-- `Sieve::divisors` (lines 147-160) -/
def divisors (N : Nat) (pf : Array Nat) (n : Nat) : M (Array Int) := do
  check (decide (0 < n ∧ n ≤ N))
  let fs ← factorize N pf n
  forEach fs #[1] fun divs f => forUp 0 divs.size divs (divisorStep f.1 f.2)

end WheelSieve
