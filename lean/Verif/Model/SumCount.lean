import Verif.Cxx

/-!
# Model of `library/util/sum_count.hpp`

The types `T` and `R` are signed integer types of `tw` and `rw` bits (at least as wide as `int`, so that there is no promotion),
with `tw ≤ rw`.  Signed overflow is undefined behaviour.
-/

namespace SumCount
open Cxx

/-- The result of an arithmetic operation in a signed type of `w` bits. -/
def ar (w : Nat) (x : Int) : M Int := if -2 ^ (w - 1) ≤ x ∧ x < 2 ^ (w - 1) then .ok x else .error .ub

/-- `sum_count` — sum_count.hpp:6-10. -/
def sumCount (tw rw : Nat) (minA maxA minB maxB sum : Int) : M Int := do
  let u ← ar tw (sum - minB)
  let v ← ar tw (sum - maxB)
  let d ← ar rw (min maxA u - max minA v)
  let d ← ar rw (d + 1)
  return max 0 d

/-- `sum_count_leq` — sum_count.hpp:13-27. -/
def leq (tw rw : Nat) (minA maxA minB maxB maxSum : Int) : M Int := do
  let ra ← ar rw (maxA - minA)
  let rb ← ar rw (maxB - minB)
  let m ← ar tw (minA + minB)
  let rs ← ar rw (maxSum - m)
  if ra < 0 ∨ rb < 0 ∨ rs < 0 then return 0
  else do
    let d ← ar rw (rs - rb)
    let t ← ar rw (min ra d + 1)
    let t := max 0 t
    let f ← ar rw (rs - min ra rs)
    let fr ← ar rw (f + 1)
    let o ← ar rw (rs - t)
    let tt ← ar rw (o + 2)
    let b ← ar rw (rb + 1)
    let p ← ar rw (t * b)
    let x ← ar rw (tt - fr)
    let y ← ar rw (fr + tt)
    let y ← ar rw (y - 1)
    let z ← ar rw (x * y)
    ar rw (p + z.tdiv 2)

/-- `sum_count_lt` — sum_count.hpp:30-33: the call of `sum_count_leq` has no template arguments, so its type `R` is `T`. -/
def lt (tw : Nat) (minA maxA minB maxB x : Int) : M Int := do
  let s ← ar tw (x - 1)
  leq tw tw minA maxA minB maxB s

/-- The number of all pairs, as computed in `sum_count_geq` and `sum_count_gt` — sum_count.hpp:38, 44. -/
def all (tw rw : Nat) (minA maxA minB maxB : Int) : M Int := do
  let a ← ar tw (maxA - minA)
  let a ← ar tw (a + 1)
  let b ← ar tw (maxB - minB)
  let b ← ar tw (b + 1)
  ar rw (max 0 a * max 0 b)

/-- `sum_count_geq` — sum_count.hpp:36-39. -/
def geq (tw rw : Nat) (minA maxA minB maxB minSum : Int) : M Int := do
  let n ← all tw rw minA maxA minB maxB
  let c ← lt tw minA maxA minB maxB minSum
  ar rw (n - c)

/-- `sum_count_gt` — sum_count.hpp:42-45: as in `sum_count_lt` the type `R` of the call is `T`. -/
def gt (tw rw : Nat) (minA maxA minB maxB x : Int) : M Int := do
  let n ← all tw rw minA maxA minB maxB
  let c ← leq tw tw minA maxA minB maxB x
  ar rw (n - c)

end SumCount
