import Verif.Model.Machine

/-!
# Model of `library/number/mod_sqrt.hpp`

`long long` values are integers; a result outside the range is undefined where it can occur (`Cxx.i64`). The products in `__int128_t` are exact. `atcoder::inv_mod` and
`atcoder::crt` are the parameters `inv` and `crt`.
-/

namespace ModSqrt
open Cxx

/-- `if ((a %= m) < 0) a += m;` — mod_sqrt.hpp:13, 31. -/
def norm (a m : Int) : Int := if a.tmod m < 0 then a.tmod m + m else a.tmod m

/-- `mul_mod64(a, b, m)` — mod_sqrt.hpp:23-25. -/
def mulMod (a b m : Int) : Int := (a * b).tmod m

/-- The loop of `pow_mod64` — mod_sqrt.hpp:15-20; the first argument bounds the number of rounds. -/
def powGo (m : Int) : Nat → Nat → Int → Int → Int
  | 0, _, res, _ => res
  | k + 1, b, res, pw => if b = 0 then res else powGo m k (b / 2) (if b % 2 = 1 then (res * pw).tmod m else res) ((pw * pw).tmod m)

/-- `pow_mod64(a, b, m)` — mod_sqrt.hpp:12-22. -/
def powMod (a : Int) (b : Nat) (m : Int) : Int := powGo m b b 1 (norm a m)

/-- Trailing zeros. -/
def ctzGo : Nat → Nat → Nat
  | 0, _ => 0
  | k + 1, x => if x % 2 = 1 then 0 else ctzGo k (x / 2) + 1

/-- `__builtin_ctz(x)` of a `long long`, which is converted to `unsigned int`; undefined for 0. -/
def ctz32 (x : Nat) : M Nat := if x % 2 ^ 32 = 0 then .error .ub else .ok (ctzGo 32 (x % 2 ^ 32))

/-- One round of the search for a non-residue — mod_sqrt.hpp:41-43. -/
def nonresStep (p : Int) (b : Int) : M (Option Int) := return if powMod b ((p - 1) / 2).toNat p = 1 then some (b + 1) else none

/-- One round of the main loop — mod_sqrt.hpp:52-62; the state is `x`, `b` and `shift`. -/
def rootStep (tlz : Nat) (a ia p : Int) (s : Int × Int × Nat) : M (Option (Int × Int × Nat)) :=
  let x2 := mulMod s.1 s.1 p
  if x2 = a then return none
  else if tlz < s.2.2 then .error .ub
  else
    let e := mulMod ia x2 p
    let x := if powMod e (2 ^ (tlz - s.2.2)) p ≠ 1 then mulMod s.1 s.2.1 p else s.1
    return some (x, mulMod s.2.1 s.2.1 p, s.2.2 + 1)

/-- `prime_mod_sqrt(a, p)` — mod_sqrt.hpp:28-63. -/
def primeModSqrt (inv : Int → Int → Int) (a p : Int) : M (Option Int) :=
  let a := norm a p
  if a = 0 then return some 0
  else if p = 2 then return some a
  else if powMod a ((p - 1) / 2).toNat p ≠ 1 then return none
  else do
    let b ← loop (nonresStep p) p.toNat 1
    let tlz ← ctz32 (p - 1).toNat
    let q := (p - 1).toNat / 2 ^ tlz
    let ia := inv a p
    let x := powMod a ((q + 1) / 2) p
    let b := powMod b q p
    let s ← loop (rootStep tlz a ia p) tlz (x, b, 2)
    return some s.1

/-- The loop that removes the factors `p` — mod_sqrt.hpp:74-77; the state is `a` and `b`. -/
def stripStep (p : Int) (s : Int × Nat) : M (Option (Int × Nat)) := return if s.1.tmod p = 0 then some (s.1.tdiv p, s.2 + 1) else none

/-- The lifting modulo powers of an odd prime — mod_sqrt.hpp:96-107. -/
def liftOdd (pq : Array Int) (p a inv0 : Int) (q : Nat) (x : Int) : M Int := forUp 1 q x fun i x => do
  let pi ← rd pq i
  let fx := x * x - a
  let y := mulMod ((-(fx.tdiv pi)).tmod p) inv0 p
  let y := if y < 0 then y + p else y
  let d ← i64 (pi * y)
  i64 (x + d)

/-- The lifting modulo powers of two — mod_sqrt.hpp:115-125; the shift of the negative number is arithmetic. -/
def liftTwo (a : Int) (q : Nat) : M Nat := forUp 3 q 1 fun i (x : Nat) => return x ||| ((((x : Int) * x - a) / 2 ^ i) % 2).toNat <<< (i - 1)

/-- `prime_power_mod_sqrt(a, p, q)` — mod_sqrt.hpp:66-128. -/
def primePowerModSqrt (inv : Int → Int → Int) (a p : Int) (q : Nat) : M (Option Int) := do
  let pq ← forUp 1 (q + 1) ((Array.replicate (q + 1) (0 : Int)).setIfInBounds 0 1) fun i pq => do
    let y ← rd pq (i - 1)
    let y ← i64 (y * p)
    wr pq i y
  let m ← rd pq q
  if a.tmod m = 0 then return some 0
  else do
    let s ← loop (stripStep p) q (a.tmod m, 0)
    if s.2 % 2 = 1 then return none
    else do
      let c ← rd pq (s.2 / 2)
      let q := q - s.2
      if p ≠ 2 then do
        let ox ← primeModSqrt inv s.1 p
        match ox with
        | none => return none
        | some x => do
          let d ← i64 (2 * x)
          let x ← liftOdd pq p s.1 (inv d p) q x
          let r ← i64 (c * x)
          return some r
      else if s.1.tmod 8 ≠ 1 then return none
      else do
        let x ← liftTwo s.1 q
        let r ← i64 (c * x)
        return some r

/-- The body of the loop of `composite_mod_sqrt` — mod_sqrt.hpp:134-142; the state is `rs` and `ms`, or `none` after `return std::nullopt`. -/
def compositeStep (inv : Int → Int → Int) (a : Int) (s : Option (List Int × List Int)) (f : Nat × Nat) : M (Option (List Int × List Int)) :=
  match s with
  | none => return none
  | some s => do
    let x ← primePowerModSqrt inv a f.1 f.2
    match x with
    | none => return none
    | some x => do
      let pq ← forUp 0 f.2 1 fun _ (y : Int) => i64 (y * f.1)
      return some (s.1 ++ [x], s.2 ++ [pq])

/-- `composite_mod_sqrt(a, factorized)` — mod_sqrt.hpp:131-144. -/
def compositeModSqrt (inv : Int → Int → Int) (crt : List Int → List Int → Int) (a : Int) (factorized : List (Nat × Nat)) : M (Option Int) := do
  let s ← forEach factorized (some ([], [])) (compositeStep inv a)
  match s with
  | none => return none
  | some s => return some (crt s.1 s.2)

end ModSqrt
