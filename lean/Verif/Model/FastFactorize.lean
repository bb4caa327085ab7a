import Mathlib.Logic.Function.Iterate
import Verif.Model.WheelSieve
import Verif.Model.MillerRabin
import Verif.Model.Machine

/-!
# Model of `library/number/fast_factorize.hpp`

For `T = long long`. The primality test is the parameter `prm`. The random constants drawn by `dist(rng)` are the parameter `cs`
(`rnd n` for the call with argument `n`): one element is consumed for each draw, and the result is `none` once the list is exhausted, so
nothing is assumed about the generator. The products in lines 35 and 42 are computed in `__int128`, where values below `2^63` cannot
overflow.
-/

namespace FastFactorize
open Cxx

/-- `while (n) n >>= 1, ++i`; the state is `(i, n)` — line 20. -/
def log2Step (s : Nat × Nat) : M (Option (Nat × Nat)) := if s.2 = 0 then return none else return some (s.1 + 1, s.2 / 2)

/-- `floor_log2(n)` for `n > 0` — lines 18-22. -/
def floorLog2 (n : Nat) : M Nat := do
  let s ← loop log2Step 64 (0, n)
  return s.1 - 1

/-- The map `f` — line 35. -/
def f (n c x : Nat) : Nat := (x * x + c) % n

/-- `x > y ? x - y : y - x` — lines 42, 48. -/
def dist (x y : Nat) : Nat := if x > y then x - y else y - x

/-- `y = f(y), q = M(q) * |x - y| % n`; the state is `(y, q)` — line 42. -/
def batchStep (n c x : Nat) (s : Nat × Nat) : Nat × Nat := (f n c s.1, s.2 * dist x (f n c s.1) % n)

/-- The variables of the loop over `k`. -/
structure Batch where
  k : Nat
  y : Nat
  ys : Nat
  q : Nat
  g : Nat
deriving Repr, DecidableEq

/-- One iteration of the loop over `k` — lines 40-44. -/
def batch (n c m r x : Nat) (s : Batch) : M (Option Batch) :=
  if s.k < r ∧ s.g = 1 then
    let t := (batchStep n c x)^[min m (r - s.k)] (s.y, s.q)
    return some ⟨s.k + m, t.1, s.y, t.2, Nat.gcd t.2 n⟩
  else return none

/-- The variables of the loop over `r`. -/
structure Rho where
  r : Nat
  x : Nat
  y : Nat
  ys : Nat
  q : Nat
  g : Nat
deriving Repr, DecidableEq

/-- One iteration of the loop over `r` — lines 37-45; `r <<= 1` must not overflow. -/
def round (n c m : Nat) (s : Rho) : M (Option Rho) :=
  if s.g = 1 then do
    let b ← loop (batch n c m s.r s.y) s.r ⟨0, (f n c)^[s.r] s.y, s.ys, s.q, s.g⟩
    let _ ← i64 (2 * s.r)
    return some ⟨2 * s.r, s.y, b.y, b.ys, b.q, b.g⟩
  else return none

/-- `ys = f(ys), g = gcd(|x - ys|, n)`; the state is `(ys, g)` — line 48. -/
def retryStep (n c x : Nat) (s : Nat × Nat) : M (Option (Nat × Nat)) :=
  if s.2 = 1 then return some (f n c s.1, Nat.gcd (dist x (f n c s.1)) n) else return none

/-- Lines 46-49. -/
def retry (n c m : Nat) (s : Rho) : M Nat :=
  if s.g = n then do
    let t ← loop (retryStep n c s.x) (m + 1) (s.ys, 1)
    return t.2
  else return s.g

/-- The search with the constant `c` — lines 36-49. The uninitialised `x` and `ys` are 0. -/
def search (n c : Nat) : M Nat := do
  let e ← floorLog2 n
  let m := 2 ^ (e / 5)
  let s ← loop (round n c m) 64 ⟨1, 0, 2, 0, 1, 1⟩
  retry n c m s

/-- `pollard_rho(n)` — lines 24-56. -/
def pollard (prm : Nat → M Bool) : List Nat → Nat → M (Option Nat)
  | [], _ => return none
  | c :: cs, n => do
    let g ← search n (c % n)
    if g < n then do
      let b ← prm g
      if b then return some g else do
        let b ← prm (n / g)
        if b then return some (n / g) else pollard prm cs g
    else pollard prm cs n

/-- `while (n % p == 0) ++q, n /= p`; the state is `(q, n)` — lines 72, 83, 91. -/
def divStep (p : Nat) (s : Nat × Nat) : M (Option (Nat × Nat)) :=
  if s.2 % p = 0 then return some (s.1 + 1, s.2 / p) else return none

/-- `do ++q, n /= p; while (n % p == 0)` with `q = 0` — lines 71-72, 82-83, 90-91. -/
def divOut (p n : Nat) : M (Nat × Nat) := loop (divStep p) 64 (1, n / p)

/-- One iteration of `while (n > 1)`; the state is `(n, res)`, or `none` when the constants are exhausted — lines 78-85. -/
def splitStep (prm : Nat → M Bool) (rnd : Nat → List Nat) : Option (Nat × List (Nat × Nat)) → M (Option (Option (Nat × List (Nat × Nat))))
  | none => return none
  | some (n, res) =>
    if 1 < n then do
      let b ← prm n
      if b then return some (some (1, res ++ [(n, 1)])) else do
        match ← pollard prm (rnd n) n with
        | none => return some none
        | some p => do
          let t ← divOut p n
          return some (some (t.2, res ++ [(p, t.1)]))
    else return none

/-- The variables of the trial division; `fin` is set by `break` (line 87), `stuck` when the constants are exhausted. -/
structure Trial where
  fin : Bool
  stuck : Bool
  p : Nat
  rest : Nat
  res : List (Nat × Nat)
deriving Repr, DecidableEq

/-- Lines 89-93. -/
def trialDiv (p n : Nat) (res : List (Nat × Nat)) : M (Nat × List (Nat × Nat)) :=
  if n % p = 0 then do
    let t ← divOut p n
    return (t.2, res ++ [(p, t.1)])
  else return (n, res)

/-- Lines 77-87. -/
def finish (prm : Nat → M Bool) (rnd : Nat → List Nat) (s : Trial) : M Trial := do
  let t ← loop (splitStep prm rnd) 64 (some (s.rest, s.res))
  match t with
  | none => return { s with fin := true, stuck := true }
  | some (n, res) => return { s with fin := true, rest := n, res := res }

/-- One iteration of the loop over `p` — lines 75-94. -/
def trialStep (prm : Nat → M Bool) (rnd : Nat → List Nat) (s : Trial) : M (Option Trial) :=
  if s.fin then return none else do
    let sq ← i64 ((s.p : Int) * s.p)
    if sq ≤ s.rest then
      if 101 ≤ s.p ∧ 2 ^ 20 ≤ s.rest then do
        let t ← finish prm rnd s
        return some t
      else do
        let t ← trialDiv s.p s.rest s.res
        return some { s with p := s.p + 2, rest := t.1, res := t.2 }
    else return none

/-- Lines 70-74. -/
def even (n : Nat) : M (Nat × List (Nat × Nat)) :=
  if n % 2 = 0 then do
    let t ← divOut 2 n
    return (t.2, [(2, t.1)])
  else return (n, [])

/-- Lines 75-96. -/
def large (prm : Nat → M Bool) (rnd : Nat → List Nat) (n : Nat) : M (Option (List (Nat × Nat))) := do
  let t ← even n
  let s ← loop (trialStep prm rnd) 1024 ⟨false, false, 3, t.1, t.2⟩
  if s.stuck then return none
  else if 1 < s.rest then return some (s.res ++ [(s.rest, 1)])
  else return some s.res

/-- `factorize(n)` — lines 60-97; `pf` is the table of the static object `sieve`, whose `factorize` takes an `unsigned int`. -/
def factorize (prm : Nat → M Bool) (rnd : Nat → List Nat) (pf : Array Nat) (n : Int) : M (Option (List (Nat × Nat))) :=
  if n ≤ 1000000 then do
    let l ← WheelSieve.factorize 1000000 pf (n % 2 ^ 32).toNat
    return some l
  else large prm rnd n.toNat

end FastFactorize
