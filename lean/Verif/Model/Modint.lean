import Verif.Model.ModArith
import Verif.Model.ModSqrt

/-!
# Model of `library/number/modint.hpp`

A value is the number `_v`; `m` is the modulus, `1 ≤ m < 2 ^ 31`. `dyn` is true for `dynamic_modint` (the modulus being set and not changed later) and false for `static_modint`.
Unsigned words are naturals reduced modulo `2 ^ 32` or `2 ^ 64`; `long long` operations whose range matters go through `i64`.
-/

namespace Modint
open Cxx

/-- `safe_mod(x, m)`, also the body of the constructors from signed values — modint.hpp:12, 87-88, 180-181, 190-191. -/
def safeMod (x m : Int) : Int := if x.tmod m < 0 then x.tmod m + m else x.tmod m

/-! ### `barrett_K128` -/

/-- `L` — modint.hpp:55. -/
def L (m : Nat) : Nat := ((2 ^ 128 - 1) / m + 1) % 2 ^ 128

/-- `rem<care_M1>(c)` — modint.hpp:59-66. -/
def rem (care : Bool) (m c : Nat) : Nat :=
  if care ∧ m = 1 then 0
  else
    let cu := c * (L m / 2 ^ 64) % 2 ^ 128
    let cd := c * (L m % 2 ^ 64) % 2 ^ 128 / 2 ^ 64
    let r := (c + 2 ^ 64 - cu / 2 ^ 64 * m % 2 ^ 64) % 2 ^ 64 % 2 ^ 32
    if cu % 2 ^ 64 > 2 ^ 64 - 1 - cd then (r + 2 ^ 32 - m) % 2 ^ 32 else r

/-! ### The operations -/

/-- The constructors from signed integers — modint.hpp:86-90, 178-184. -/
def ofInt (dyn : Bool) (m : Nat) (v : Int) : Nat :=
  if dyn then
    if v < 0 then (safeMod v m).toNat else rem true m v.toNat
  else (safeMod v m).toNat

/-- The constructors from unsigned integers — modint.hpp:92, 186. -/
def ofNat (dyn : Bool) (m : Nat) (v : Nat) : Nat := if dyn then rem true m v else v % m

/-- `operator++` — modint.hpp:96-100, 197-201. -/
def inc (m a : Nat) : Nat :=
  let v := (a + 1) % 2 ^ 32
  if v = m then 0 else v

/-- `operator--` — modint.hpp:101-105, 202-206. -/
def dec (m a : Nat) : Nat :=
  let v := if a = 0 then m else a
  (v + 2 ^ 32 - 1) % 2 ^ 32

/-- `operator+=` — modint.hpp:109-113, 210-214. -/
def add (m a b : Nat) : Nat :=
  let v := (a + b) % 2 ^ 32
  if v ≥ m then v - m else v

/-- `operator-=` — modint.hpp:114-118, 215-219. -/
def sub (m a b : Nat) : Nat :=
  let v := (a + 2 ^ 32 - b) % 2 ^ 32
  if v ≥ m then (v + m) % 2 ^ 32 else v

/-- `operator-()` — modint.hpp:126. -/
def neg (m a : Nat) : Nat := if a = 0 then a else (m + 2 ^ 32 - a) % 2 ^ 32

/-- `operator*=` — modint.hpp:119-122, 220-223, 68. -/
def mul (dyn : Bool) (m a b : Nat) : Nat := if dyn then rem false m (a * b % 2 ^ 64) else a * b % 2 ^ 64 % m

/-- `pow(n)` — modint.hpp:128-136, 226-234. -/
def pow (dyn : Bool) (m a : Nat) (n : Int) : M Nat := do
  check (decide (0 ≤ n))
  Powi.powi (fun x y => .ok (mul dyn m x y)) (ofInt dyn m 1) a n.toNat

/-- The variables of `inv_gcd` — modint.hpp:40. -/
structure Vars where
  s : Int
  t : Int
  m0 : Int
  m1 : Int

/-- The loop of `inv_gcd` — modint.hpp:41-46. -/
def gcdStep (x : Vars) : M (Option Vars) :=
  if x.t = 0 then return none
  else do
    let u := x.s.tdiv x.t
    let tu ← i64 (x.t * u)
    let s ← i64 (x.s - tu)
    let mu ← i64 (x.m1 * u)
    let m0 ← i64 (x.m0 - mu)
    return some ⟨x.t, s, x.m1, m0⟩

/-- `inv_gcd(a, b)` — modint.hpp:37-49. -/
def invGcd (a b : Int) : M (Int × Int) := do
  let a := safeMod a b
  if a = 0 then return (b, 0)
  else do
    let x ← loop gcdStep b.toNat ⟨b, a, 0, 1⟩
    if x.m0 < 0 then do
      let r ← i64 (x.m0 + b.tdiv x.s)
      return (x.s, r)
    else return (x.s, x.m0)

/-! ### `is_prime` -/

/-- `d` without its factors 2 — modint.hpp:27-28. -/
def oddStep (d : Nat) : M (Option Nat) := return if d % 2 = 0 then some (d / 2) else none

/-- The loop of `pow_mod`, in `unsigned long long` — modint.hpp:16-20. -/
def powMod (x n m : Nat) : M Nat :=
  if m = 1 then return 0
  else Powi.powi (fun x y => .ok (x * y % 2 ^ 64 % m)) 1 (safeMod x m).toNat n

/-- The loop of one base — modint.hpp:32; the state is `t` and `y`. -/
def baseStep (n : Nat) (x : Nat × Nat) : M (Option (Nat × Nat)) :=
  return if x.1 ≠ n - 1 ∧ x.2 ≠ 1 ∧ x.2 ≠ n - 1 then some (x.1 * 2, x.2 * x.2 % n) else none

/-- One base; nothing happens after `return false` — modint.hpp:30-34. -/
def base (n d : Nat) (ok : Bool) (a : Nat) : M Bool :=
  if ok then do
    let y ← powMod a d n
    let x ← loop (baseStep n) n (d, y)
    return !(decide (x.2 ≠ n - 1 ∧ x.1 % 2 = 0))
  else return false

/-- `is_prime(n)` — modint.hpp:23-36. -/
def isPrime (n : Nat) : M Bool :=
  if n ≤ 1 then return false
  else if n = 2 ∨ n = 7 ∨ n = 61 then return true
  else if n % 2 = 0 then return false
  else do
    let d ← loop oddStep n (n - 1)
    forEach [2, 7, 61] true (base n d)

/-! ### Inverses and roots -/

/-- The branch with `inv_gcd` of `inv()` — modint.hpp:143-145, 237-239. -/
def invBy (dyn : Bool) (m a : Nat) : M Nat := do
  let r ← invGcd a m
  check (decide (r.1 = 1))
  return ofInt dyn m r.2

/-- `inv()` — modint.hpp:138-147, 236-240. -/
def inv (dyn : Bool) (m a : Nat) : M Nat :=
  if dyn then invBy dyn m a
  else do
    let p ← isPrime m
    if p then do
      check (decide (a ≠ 0))
      pow dyn m a ((m + 2 ^ 32 - 2) % 2 ^ 32 : Nat)
    else invBy dyn m a

/-- `operator/=` — modint.hpp:123, 224. -/
def div (dyn : Bool) (m a b : Nat) : M Nat := do return mul dyn m a (← inv dyn m b)

/-- `xpow(n)` — modint.hpp:137, 235. -/
def xpow (dyn : Bool) (m a : Nat) (n : Int) : M Nat :=
  if n < 0 then do
    let i ← inv dyn m a
    let k ← i64 (-n)
    pow dyn m i k
  else pow dyn m a n

/-- The search for a non-residue — modint.hpp:277. -/
def nonresStep (dyn : Bool) (m : Nat) (b : Nat) : M (Option Nat) := do
  let y ← pow dyn m b (((m : Int) - 1) / 2)
  if y = ofInt dyn m 1 then return some (inc m b) else return none

/-- The main loop — modint.hpp:281-285; the state is `x`, `b` and `shift`. -/
def rootStep (dyn : Bool) (m tlz a : Nat) (s : Nat × Nat × Nat) : M (Option (Nat × Nat × Nat)) :=
  if mul dyn m s.1 s.1 = a then return none
  else do
    let ia ← inv dyn m a
    let e := mul dyn m (mul dyn m ia s.1) s.1
    if tlz < s.2.2 then .error .ub
    else do
      let y ← pow dyn m e (2 ^ (tlz - s.2.2) : Nat)
      let x := if y ≠ ofInt dyn m 1 then mul dyn m s.1 s.2.1 else s.1
      return some (x, mul dyn m s.2.1 s.2.1, s.2.2 + 1)

/-- `mod_sqrt(a)` — modint.hpp:271-287. -/
def modSqrt (dyn : Bool) (m a : Nat) : M (Option Nat) :=
  if a = ofInt dyn m 0 then return some (ofInt dyn m 0)
  else if m = 2 then return some a
  else do
    let y ← pow dyn m a (((m : Int) - 1) / 2)
    if y ≠ ofInt dyn m 1 then return none
    else do
      let b ← loop (nonresStep dyn m) m (ofInt dyn m 1)
      let tlz ← ModSqrt.ctz32 (m - 1)
      let q := (m - 1) / 2 ^ tlz
      let x ← pow dyn m a ((q + 1) / 2 : Nat)
      let b ← pow dyn m b q
      let s ← loop (rootStep dyn m tlz a) tlz (x, b, 2)
      return some s.1

end Modint
