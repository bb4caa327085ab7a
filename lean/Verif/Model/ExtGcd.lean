import Verif.Model.Machine

/-!
# Model of `library/number/ext_gcd.hpp` and `library/number/garner.hpp`

Every `long long` operation is range checked.
-/

namespace ExtGcd
open Cxx

/-- `safe_mod` — ext_gcd.hpp:12-15; the remainder of C++ has the sign of the dividend, `x % 0` is undefined, and so is
`LLONG_MIN % -1`. -/
def safeMod (x m : Int) : M Int :=
  if m = 0 then .error .ub
  else do
    let _ ← i64 (x.tdiv m)
    let x := x.tmod m
    if x < 0 then i64 (x + m) else return x

/-- Variables of the loop of `ext_gcd`. -/
structure Vars where
  a : Int
  b : Int
  x : Int
  y : Int
  z : Int
  w : Int

/-- Loop of `ext_gcd` — ext_gcd.hpp:21-26. -/
def gcdStep (s : Vars) : M (Option Vars) :=
  if s.b = 0 then return none
  else do
    let p ← i64 (s.a.tdiv s.b)
    let q := s.a.tmod s.b
    let yp ← i64 (s.y * p)
    let x ← i64 (s.x - yp)
    let wp ← i64 (s.w * p)
    let z ← i64 (s.z - wp)
    return some ⟨s.b, q, s.y, x, s.w, z⟩

/-- `if (a < 0) …; return { x, z, a };` — ext_gcd.hpp:27-30. -/
def gcdFinish (s : Vars) : M (Int × Int × Int) :=
  if s.a < 0 then do
    let x ← i64 (-s.x)
    let z ← i64 (-s.z)
    let a ← i64 (-s.a)
    return (x, z, a)
  else return (s.x, s.z, s.a)

/-- `ext_gcd` — ext_gcd.hpp:18-31. -/
def extGcd (a b : Int) : M (Int × Int × Int) := do
  let s ← loop gcdStep b.natAbs ⟨a, b, 1, 0, 0, 1⟩
  gcdFinish s

/-- `gcd_inv` — ext_gcd.hpp:34-37. -/
def gcdInv (a m : Int) : M (Int × Int) := do
  let r ← extGcd a m
  let x ← safeMod r.1 m
  return (x, r.2.2)

/-- `inv_mod` — ext_gcd.hpp:40-44. -/
def invMod (a m : Int) : M Int := do
  let r ← extGcd a m
  check (decide (r.2.2 = 1))
  safeMod r.1 m

end ExtGcd

namespace Garner
open Cxx ExtGcd

/-- Body of the loop of `calc_prefix` — garner.hpp:20-23; state `(res, prd)`. -/
def prefixStep (eq : Array (Int × Int)) (a : Array Int) (mod : Int) (j : Nat) (s : Int × Int) : M (Int × Int) := do
  let aj ← rd a j
  let t ← i64 (aj * s.2)
  let r ← i64 (s.1 + t)
  let e ← rd eq j
  let p ← i64 (s.2 * e.2)
  if mod = 0 then .error .ub else return (r.tmod mod, p.tmod mod)

/-- `calc_prefix(i, mod)` — garner.hpp:17-25. -/
def calcPrefix (eq : Array (Int × Int)) (a : Array Int) (i : Nat) (mod : Int) : M Int := do
  let s ← forUp 0 i (0, 1) (prefixStep eq a mod)
  return s.1

/-- Inner loop body — garner.hpp:32-34, on the value of `a[i]`. -/
def divStep (eq : Array (Int × Int)) (mi : Int) (j : Nat) (x : Int) : M Int := do
  let e ← rd eq j
  let v ← invMod e.2 mi
  let t ← i64 (x * v)
  return t.tmod mi

/-- Outer loop body — garner.hpp:28-35; `a[i]` is written when it is finished, the inner loop does not read other entries of `a`. -/
def digitStep (eq : Array (Int × Int)) (i : Nat) (a : Array Int) : M (Array Int) := do
  let e ← rd eq i
  let c ← calcPrefix eq a i e.2
  let d ← i64 (e.1 - c)
  if e.2 = 0 then .error .ub
  else do
    let x := d.tmod e.2
    let x ← i64 (if x < 0 then x + e.2 else x)
    let x ← forUp 0 i x (divStep eq e.2)
    wr a i x

/-- `garner` — garner.hpp:13-38; the result fits into `int` because it is reduced modulo an `int`. -/
def garner (eq : Array (Int × Int)) (m : Int) : M Int := do
  let a ← forUp 0 eq.size (Array.replicate eq.size 0) (digitStep eq)
  calcPrefix eq a eq.size m

end Garner
