import Verif.Model.Machine

/-!
# Models of `library/number/barrett_reduction.hpp`, `montogomery.hpp`, `modint_2^61m1.hpp` and of the binary exponentiation of `util.hpp`

Unsigned machine words are naturals with explicit reduction modulo `2 ^ 32`, `2 ^ 64`, …
-/

/-! ### Binary exponentiation -/

namespace Powi
open Cxx

/-- `if (b & 1) res *= pow_a;` — number/util.hpp:20. -/
def condMul {T : Type} (mul : T → T → M T) (b : Nat) (r p : T) : M T := if b % 2 = 1 then mul r p else return r

/-- Body of `for (; b; b >>= 1) { if (b & 1) res *= pow_a; pow_a *= pow_a; }` — number/util.hpp:19-22 (the same loop is montogomery.hpp:77-80
and modint_2^61m1.hpp:75-78); state `(b, res, pow_a)`, `mul` the multiplication of the type (which can be undefined). -/
def powStep {T : Type} (mul : T → T → M T) (s : Nat × T × T) : M (Option (Nat × T × T)) :=
  if s.1 = 0 then return none
  else do
    let r ← condMul mul s.1 s.2.1 s.2.2
    let p ← mul s.2.2 s.2.2
    return some (s.1 / 2, r, p)

/-- `powi(a, b)` — number/util.hpp:17-24, for `b >= 0`. -/
def powi {T : Type} (mul : T → T → M T) (one : T) (a : T) (b : Nat) : M T := do
  let s ← loop (powStep mul) b (b, one, a)
  return s.2.1

end Powi

/-! ### Barrett reduction -/

namespace Barrett
open Cxx

/-- `L` — barrett_reduction.hpp:12,31: `uint64_t(-1) / M + 1`, wrapping. -/
def L (m : Nat) : Nat := ((2 ^ 64 - 1) / m + 1) % 2 ^ 64

/-- `int32_t r = x - q * M;` — barrett_reduction.hpp:23: 64-bit wrap-around, then conversion to `int32_t`. -/
def rest (m x q : Nat) : Int := toI32 ((x + 2 ^ 64 - q * m % 2 ^ 64) % 2 ^ 64)

/-- `{ q, r }` after the correction — barrett_reduction.hpp:24-25; `r += M` is computed in `uint32_t`. -/
def fix (m q : Nat) (r : Int) : Nat × Nat :=
  if r < 0 then ((q + 2 ^ 64 - 1) % 2 ^ 64, ((r + m) % 2 ^ 32).toNat) else (q, r.toNat)

/-- `quorem<care_M1>(x)` — barrett_reduction.hpp:20-26. -/
def quorem (care : Bool) (m x : Nat) : Nat × Nat :=
  if care ∧ m = 1 then (x, 0)
  else
    let q := x * L m / 2 ^ 64
    fix m q (rest m x q)

/-- `mul<care_M1>(a, b)` — barrett_reduction.hpp:28. -/
def mul (care : Bool) (m a b : Nat) : Nat := (quorem care m (a * b)).2

end Barrett

/-! ### Montgomery -/

namespace Montgomery
open Cxx

/-- Members — montogomery.hpp:23,26 (`R2` is computed but never used). `w` is the number of bits of `Int`; `DInt` has `2 w` bits. -/
structure State where
  n : Nat
  n2 : Nat
  rr : Nat
  deriving DecidableEq

/-- Newton step — montogomery.hpp:94-102; state `(cur_bits, invN)`. -/
def newton (w n : Nat) (s : Nat × Nat) : M (Option (Nat × Nat)) :=
  if s.1 < w then return some (2 * s.1, s.2 * ((2 + 2 ^ (2 * w) - n * s.2 % 2 ^ (2 * w)) % 2 ^ (2 * w) % 2 ^ w) % 2 ^ (2 * w) % 2 ^ w)
  else return none

/-- `calcN2` — montogomery.hpp:88-107. -/
def calcN2 (w n : Nat) : M Nat := do
  let s ← loop (newton w n) w (2, n)
  check (decide (n * s.2 % 2 ^ (2 * w) % 2 ^ w = 1))
  return (2 ^ (2 * w) - s.2) % 2 ^ (2 * w) % 2 ^ w

/-- `calcRR` — montogomery.hpp:113-115; division by zero is undefined. -/
def calcRR (w n : Nat) : M Nat := if n = 0 then .error .ub else return (2 ^ (2 * w) - n) % n

/-- Constructor — montogomery.hpp:29-31. -/
def make (w n : Nat) : M State := do
  let n2 ← calcN2 w n
  let rr ← calcRR w n
  check (decide (n % 2 = 1))
  return ⟨n, n2, rr⟩

/-- `reduce` — montogomery.hpp:38-59. -/
def reduce (w : Nat) (s : State) (t : Nat) : Nat :=
  let m := t % 2 ^ w * s.n2 % 2 ^ (2 * w) % 2 ^ w
  let u := (t + m * s.n % 2 ^ (2 * w)) % 2 ^ (2 * w) / 2 ^ w % 2 ^ w
  if u ≥ s.n then u - s.n else u

/-- `make(t)` — montogomery.hpp:34-36. -/
def toMont (w : Nat) (s : State) (t : Nat) : Nat := reduce w s (t * s.rr % 2 ^ (2 * w))

/-- `add` — montogomery.hpp:61-63. -/
def add (w : Nat) (s : State) (a b : Nat) : Nat :=
  let a := (a + b) % 2 ^ w
  if a ≥ s.n then a - s.n else a

/-- `sub` — montogomery.hpp:64-66: `(A -= B) < 0` compares an unsigned value with 0 and is always false. -/
def sub (w : Nat) (_ : State) (a b : Nat) : Nat := (a + 2 ^ w - b) % 2 ^ w

/-- `mul` — montogomery.hpp:67-69. -/
def mul (w : Nat) (s : State) (a b : Nat) : Nat := reduce w s (a * b % 2 ^ (2 * w))

/-- `pow` — montogomery.hpp:75-82, for `b >= 0`. -/
def pow (w : Nat) (s : State) (a b : Nat) : M Nat := Powi.powi (fun x y => .ok (mul w s x y)) (toMont w s 1) a b

end Montgomery

/-! ### modint2p61m1 -/

namespace Modint61
open Cxx

/-- `_mod` — modint_2^61m1.hpp:91. -/
def md : Nat := 2 ^ 61 - 1

/-- `fast_mod` — modint_2^61m1.hpp:19-27. -/
def fastMod (v : Nat) : Nat :=
  let u := v >>> 61
  let d := v &&& (2 ^ 61 - 1)
  let res := (u + d) % 2 ^ 64
  if res ≥ md then res - md else res

/-- `operator+=` — modint_2^61m1.hpp:33-37. -/
def add (a b : Nat) : Nat :=
  let v := (a + b) % 2 ^ 64
  if v ≥ md then v - md else v

/-- `operator-=` — modint_2^61m1.hpp:38-42. -/
def sub (a b : Nat) : Nat :=
  let v := if a < b then (a + md) % 2 ^ 64 else a
  (v + 2 ^ 64 - b) % 2 ^ 64

/-- `operator*=` — modint_2^61m1.hpp:43-65. -/
def mul (a b : Nat) : Nat :=
  let au := a >>> 31
  let ad := a &&& (2 ^ 31 - 1)
  let bu := b >>> 31
  let bd := b &&& (2 ^ 31 - 1)
  let m := (au * bd % 2 ^ 64 + ad * bu % 2 ^ 64) % 2 ^ 64
  let mu := m >>> 30
  let m' := m &&& (2 ^ 30 - 1)
  fastMod (((((au * bu % 2 ^ 64) <<< 1 % 2 ^ 64 + mu) % 2 ^ 64 + m' <<< 31 % 2 ^ 64) % 2 ^ 64 + ad * bd % 2 ^ 64) % 2 ^ 64)

/-- `pow` — modint_2^61m1.hpp:72-80, for `b >= 0`. -/
def pow (a b : Nat) : M Nat := Powi.powi (fun x y => .ok (mul x y)) (fastMod 1) a b

/-- `inv` — modint_2^61m1.hpp:81-89. -/
def inv (a : Nat) : M Nat := do
  let s ← forUp 2 61 (a, mul a a) fun _ (s : Nat × Nat) => do
    let p := mul s.2 s.2
    return (mul s.1 p, p)
  return s.1

end Modint61
