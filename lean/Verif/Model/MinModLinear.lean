import Verif.Model.Machine

/-!
# Model of `library/number/min_of_mod_of_linear.hpp`

`atcoder::floor_sum` is modelled by its documented contract: the sum of `⌊(a i + b) / m⌋` for `0 ≤ i < n`, defined for `0 ≤ n < 2^32` and
`1 ≤ m < 2^32`, reduced modulo `2^64` if it is not a `long long`.
-/

namespace MinModLinear
open Cxx

/-- The exact value of `Σ_{i < n} ⌊(a i + b) / m⌋`. -/
def fsum (m a b : Int) : Nat → Int
  | 0 => 0
  | n + 1 => fsum m a b n + (a * n + b) / m

/-- A 64-bit pattern read as `long long`. -/
def wrap64 (x : Int) : Int := (x + 2 ^ 63) % 2 ^ 64 - 2 ^ 63

/-- `atcoder::floor_sum`, by contract (called in lines 24 and 29). -/
def floorSum (n m a b : Int) : M Int :=
  if 0 ≤ n ∧ n < 2 ^ 32 ∧ 1 ≤ m ∧ m < 2 ^ 32 then .ok (wrap64 (fsum m a b n.toNat)) else .error .assertion

/-- The body of the loop — lines 27-34; the state is `(l, r)`. -/
def step (n m a b v : Int) (s : Int × Int) : M (Option (Int × Int)) := do
  let d ← i32 (s.2 - s.1)
  if d > 1 then do
    let t ← i32 (s.1 + s.2)
    let k := t / 2
    let e ← i32 (m - 1 - k)
    let c ← i32 (b + e)
    let w ← floorSum n m a c
    if w < v then return some (s.1, k) else return some (k, s.2)
  else return none

/-- `min_of_mod_of_linear(n, m, a, b)` — lines 11-36. -/
def minMod (n m a b : Int) : M Int := do
  let f ← floorSum n m a b
  let v ← i64 (f + n)
  let r ← i32 (m - 1)
  let s ← loop (step n m a b v) (m.toNat + 1) (-1, r)
  return s.2

end MinModLinear
