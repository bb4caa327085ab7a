import Verif.Model.Machine

/-!
# Model of `library/number/rational.hpp`

`T` is `long long`. `approximate`, `stern_brocot`, `farey_sequence`, the conversions to floating types and the stream operator are not modelled.
-/

namespace Rational
open Cxx

/-- The members — line 14. -/
structure R where
  num : Int
  den : Int
deriving DecidableEq, Repr

/-- `std::gcd`: undefined if the absolute value of an argument is not representable. -/
def gcdT (a b : Int) : M Int := if a = -2 ^ 63 ∨ b = -2 ^ 63 then .error .ub else .ok (Int.gcd a b)

/-- Division in `T`. -/
def divT (a b : Int) : M Int := if b = 0 then .error .ub else i64 (a.tdiv b)

/-- Remainder in `T`. -/
def modT (a b : Int) : M Int := if b = 0 then .error .ub else .ok (a.tmod b)

/-- `std::abs`. -/
def absT (a : Int) : M Int := i64 a.natAbs

/-- `Rational(n)` — line 17. -/
def ofInt (n : Int) : R := ⟨n, 1⟩

/-- `Rational(n, d)` — lines 18-28. -/
def mk (n d : Int) : M R :=
  if n = 0 then do
    check (decide (d ≠ 0))
    return ⟨0, 1⟩
  else do
    let g ← gcdT n d
    let n ← divT n g
    let d ← divT d g
    if d < 0 then do
      let n ← i64 (-n)
      let d ← i64 (-d)
      return ⟨n, d⟩
    else return ⟨n, d⟩

/-- `signum()` — lines 31-33. -/
def signum (r : R) : Int := -1 + (if r.num ≥ 0 then 1 else 0) + (if r.num > 0 then 1 else 0)

/-- `pow_m1` — line 37: `-int(x) | 1`. -/
def powM1 (x : Bool) : Int := if x then -1 else 1

/-- The loop of `compare` and the last line — lines 44-51. State `(nl, dl, nr, dr)`. `rev` is a `bool`, so `rev = -rev` (line 44) leaves it as it is:
`-rev` is `-1` or `0` and converts back to `true` or `false`. -/
def cmpLoop (rev : Bool) : Nat → Int → Int → Int → Int → M Int
  | 0, _, _, _, _ => .error .diverge
  | f + 1, nl, dl, nr, dr =>
    if dl ≠ 0 ∧ dr ≠ 0 then do
      let ql ← divT nl dl
      let qr ← divT nr dr
      if ql ≠ qr then return powM1 (xor (decide (ql < qr)) rev)
      else do
        let rl ← modT nl dl
        let rr ← modT nr dr
        cmpLoop rev f dl rl dr rr
    else return (if dl ≠ 0 ∨ dr ≠ 0 then powM1 (xor (decide (dr > 0)) rev) else 0)

/-- `compare(l, r)` — lines 36-52; the test `(sgn_l ^ sgn_r) < 0` is the one for opposite signs. -/
def compare (l r : R) : M Int :=
  let sl := signum l
  let sr := signum r
  if l.num = 0 then return -sr
  else if r.num = 0 then return sl
  else if (sl < 0 ∧ 0 ≤ sr) ∨ (0 ≤ sl ∧ sr < 0) then return sl
  else do
    let nl ← absT l.num
    let nr ← absT r.num
    cmpLoop (decide (sl < 0)) (l.den.natAbs + 1) nl l.den nr r.den

/-- The comparison operators — lines 54-71. -/
def lt (l r : R) : M Bool := do return decide ((← compare l r) < 0)
def gt (l r : R) : M Bool := do return decide ((← compare l r) > 0)
def le (l r : R) : M Bool := do return decide ((← compare l r) ≤ 0)
def ge (l r : R) : M Bool := do return decide ((← compare l r) ≥ 0)
def eq (l r : R) : M Bool := do return decide ((← compare l r) = 0)
def ne (l r : R) : M Bool := do return decide ((← compare l r) ≠ 0)

/-- Unary minus — lines 76-78. -/
def neg (r : R) : M R := do
  let n ← i64 (-r.num)
  mk n r.den

/-- The common denominator — lines 80, 84. -/
def lcmT (l r : R) : M Int := do
  let g ← gcdT l.den r.den
  let q ← divT l.den g
  i64 (q * r.den)

/-- `operator+` — lines 79-82. -/
def add (l r : R) : M R := do
  let m ← lcmT l r
  let a ← divT m l.den
  let a ← i64 (l.num * a)
  let b ← divT m r.den
  let b ← i64 (r.num * b)
  let n ← i64 (a + b)
  mk n m

/-- `operator-` — lines 83-86. -/
def sub (l r : R) : M R := do
  let m ← lcmT l r
  let a ← divT m l.den
  let a ← i64 (l.num * a)
  let b ← divT m r.den
  let b ← i64 (r.num * b)
  let n ← i64 (a - b)
  mk n m

/-- `operator*` — lines 87-91. -/
def mul (l r : R) : M R := do
  let g1 ← gcdT l.num r.den
  let g2 ← gcdT l.den r.num
  let a ← divT l.num g1
  let b ← divT r.num g2
  let n ← i64 (a * b)
  let c ← divT l.den g2
  let d ← divT r.den g1
  let m ← i64 (c * d)
  mk n m

/-- `inv()` — lines 111-113. -/
def inv (r : R) : M R := mk r.den r.num

/-- `operator/` — lines 92-94. -/
def div (l r : R) : M R := do
  let i ← inv r
  mul l i

/-- `abs()` — lines 114-116. -/
def abs (r : R) : M R := do
  let n ← absT r.num
  mk n r.den

/-- The conversion to `long long` — lines 121-123. -/
def toLL (r : R) : M Int := divT r.num r.den

/-- `floor()` — lines 131-133. -/
def floor (r : R) : M Int :=
  if r.num ≥ 0 then divT r.num r.den
  else do
    let n ← i64 (-r.num)
    let q ← divT n r.den
    i64 (-q)

/-- `ceil()` — lines 134-136. -/
def ceil (r : R) : M Int :=
  if r.num ≥ 0 then do
    let n ← i64 (-r.num)
    let q ← divT n r.den
    i64 (-q)
  else divT r.num r.den

end Rational
