import Verif.Model.ConvolutionNaive
import Verif.Model.Machine
import Mathlib.Data.List.DropRight
import Mathlib.Algebra.Ring.Int.Defs

/-!
# Model of part of `library/math/unsigned_bigint.hpp`

Construction, comparison, addition, subtraction, `++`, `--` and multiplication.  A number is the vector of its digits in base `10 ^ 9`, least
significant first; vectors are lists, and loops over them are recursions over the lists.  Products above 64 digits are modelled up to the branch
for more than 200 digits, which is `convolution_int`, passed in as a function.  Division is modelled up to the branch in which the
divisor and the quotient have more than 64 digits, which is passed in as a function.  Conversions to floating-point types are not modelled.
-/

namespace UBig
open Cxx

/-- The base — unsigned_bigint.hpp:13. -/
def D : Int := 1000000000

/-- `for (; v; v /= D) push_back(v % D)`, for `v ≥ 0` — unsigned_bigint.hpp:26-28, 286-289; the first argument bounds the number of iterations. -/
def digits : Nat → Int → M (List Int)
  | 0, _ => .error .diverge
  | k + 1, v => if v = 0 then .ok [] else do
      let r ← digits k (v / D)
      return (v % D) :: r

/-- Construction from an integer — unsigned_bigint.hpp:22-29. -/
def ofInt (v : Int) : M (List Int) := if v < 0 then .error .assertion else digits (v.toNat + 1) v

/-- The inner loop of the construction from a string — unsigned_bigint.hpp:36-40. -/
def word : List Char → Int → M Int
  | [], v => .ok v
  | c :: s, v => do
    let d : Int := (c.toNat : Int) - 48
    check (decide (0 ≤ d ∧ d ≤ 9))
    let w ← i32 (v * 10)
    let v ← i32 (w + d)
    word s v

/-- The outer loop of the construction from a string — unsigned_bigint.hpp:32-41; the first number bounds the number of iterations. -/
def words (s : List Char) : Nat → Nat → M (List Int)
  | 0, _ => .error .diverge
  | k + 1, i => if i = 0 then .ok [] else do
      let l := i - 9
      let v ← word ((s.take i).drop l) 0
      let r ← words s k (i - 9)
      return v :: r

/-- Construction from a string — unsigned_bigint.hpp:30-42. -/
def ofString (s : List Char) : M (List Int) := words s (s.length + 1) s.length

/-- `operator bool` — unsigned_bigint.hpp:45-47. -/
def toBool (a : List Int) : Bool := !a.isEmpty

/-- `operator==` — unsigned_bigint.hpp:49-57. -/
def eq (a b : List Int) : Bool := decide (a = b)

/-- The loop of `operator<`, from the most significant digit — unsigned_bigint.hpp:65-68. -/
def ltRev : List Int → List Int → Bool
  | x :: a, y :: b => if x ≠ y then decide (x < y) else ltRev a b
  | _, _ => false

/-- `operator<` — unsigned_bigint.hpp:61-69. -/
def lt (a b : List Int) : Bool := if a.length ≠ b.length then decide (a.length < b.length) else ltRev a.reverse b.reverse

/-- `_cut_leading_zeros` — unsigned_bigint.hpp:203-205. -/
def cut (a : List Int) : List Int := a.rdropWhile (fun x => decide (x = 0))

/-- `_incr_assign` — unsigned_bigint.hpp:207-214. -/
def incr : List Int → M (List Int)
  | [] => .ok [1]
  | x :: a => do
    let e ← i32 (x + 1)
    if e ≠ D then return e :: a
    else do
      let r ← incr a
      return (e - D) :: r

/-- The loop of `_decr_assign` — unsigned_bigint.hpp:217-220. -/
def decrLoop : List Int → M (List Int)
  | [] => .ok []
  | x :: a => do
    let e ← i32 (x - 1)
    if e ≥ 0 then return e :: a
    else do
      let r ← decrLoop a
      return (e + D) :: r

/-- `_decr_assign` — unsigned_bigint.hpp:215-223. -/
def decr (a : List Int) : M (List Int) := do
  check (decide (a.length ≠ 0))
  let r ← decrLoop a
  return cut r

/-- The loop of `_add_assign` — unsigned_bigint.hpp:228-242; `a` and `b` are what is left of the two, `carry` is 0 or 1. -/
def addLoop : List Int → List Int → Int → M (List Int × Int)
  | [], _, carry => .ok ([], carry)
  | x :: a, [], carry =>
    if carry ≠ 0 then do
      let z ← i32 (x + 1)
      if z ≥ D then do
        let r ← addLoop a [] 1
        return ((z - D) :: r.1, r.2)
      else do
        let r ← addLoop a [] 0
        return (z :: r.1, r.2)
    else .ok (x :: a, carry)
  | x :: a, y :: b, carry => do
    let t ← i32 (y + carry)
    let z ← i32 (x + t)
    if z ≥ D then do
      let r ← addLoop a b 1
      return ((z - D) :: r.1, r.2)
    else do
      let r ← addLoop a b 0
      return (z :: r.1, r.2)

/-- `_add_assign` — unsigned_bigint.hpp:225-245. -/
def add (a b : List Int) : M (List Int) := do
  let a := if a.length < b.length then a ++ List.replicate (b.length - a.length) 0 else a
  let r ← addLoop a b 0
  if r.2 ≠ 0 then return r.1 ++ [1] else return r.1

/-- The loop of `_sub_assign` — unsigned_bigint.hpp:250-264. -/
def subLoop : List Int → List Int → Int → M (List Int × Int)
  | [], _, borrow => .ok ([], borrow)
  | x :: a, [], borrow =>
    if borrow ≠ 0 then do
      let z ← i32 (x - 1)
      if z < 0 then do
        let r ← subLoop a [] 1
        return ((z + D) :: r.1, r.2)
      else do
        let r ← subLoop a [] 0
        return (z :: r.1, r.2)
    else .ok (x :: a, borrow)
  | x :: a, y :: b, borrow => do
    let t ← i32 (y + borrow)
    let z ← i32 (x - t)
    if z < 0 then do
      let r ← subLoop a b 1
      return ((z + D) :: r.1, r.2)
    else do
      let r ← subLoop a b 0
      return (z :: r.1, r.2)

/-- `_sub_assign` — unsigned_bigint.hpp:247-268. -/
def sub (a b : List Int) : M (List Int) := do
  check (decide (a.length ≥ b.length))
  let r ← subLoop a b 0
  check (decide (r.2 = 0))
  return cut r.1

/-- `_cut(l, r)` — unsigned_bigint.hpp:270-275. -/
def part (a : List Int) (l r : Nat) : List Int := cut ((a.take r).drop l)

/-- The first loop of `_build`, then the second — unsigned_bigint.hpp:281-289. -/
def buildLoop : List Int → Int → M (List Int)
  | [], carry => digits (carry.toNat + 1) carry
  | v :: dat, carry => do
    let r ← buildLoop dat ((carry + v) / D)
    return ((carry + v) % D) :: r

/-- `_build(dat)`, for elements that are not negative — unsigned_bigint.hpp:277-292. The 128-bit sums are taken to be exact. -/
def build (dat : List Int) : M (List Int) := do
  let r ← buildLoop dat 0
  return cut r

/-- `_mul_naive` — unsigned_bigint.hpp:294-296. -/
def mulNaive (a b : List Int) : M (List Int) := do
  let c ← ConvNaive.naive (fun x : Int => x) a.toArray b.toArray
  build c.toList

/-- `a << m` — unsigned_bigint.hpp:80-87. -/
def shl (a : List Int) (m : Nat) : List Int := if toBool a then List.replicate m 0 ++ a else a

/-- `x >= y ? x - y : y - x` — unsigned_bigint.hpp:312-313, 315-316. -/
def absdiff (x y : List Int) : M (List Int) := if !lt x y then sub x y else sub y x

/-- `if (neg) md_c -= md_ab; else md_c += md_ab` — unsigned_bigint.hpp:319-320. -/
def middle (neg : Bool) (c ab : List Int) : M (List Int) := if neg then sub c ab else add c ab

/-- `_mul_fft`, that is `operator*`, and the recursion through `_mul_karatsuba` — unsigned_bigint.hpp:298-334; the number bounds the depth of
the recursion. -/
def mulF (conv : List Int → List Int → M (List Int)) : Nat → List Int → List Int → M (List Int)
  | 0, _, _ => .error .diverge
  | k + 1, a, b =>
    if min a.length b.length ≤ 64 then mulNaive a b
    else if max a.length b.length ≤ 200 then do
      let m := max a.length b.length / 2
      let loA := part a 0 m
      let hiA := part a m a.length
      let loB := part b 0 m
      let hiB := part b m b.length
      let loC ← mulF conv k loA loB
      let hiC ← mulF conv k hiA hiB
      let mdA ← absdiff hiA loA
      let mdB ← absdiff hiB loB
      let neg := (!lt hiA loA) == (!lt hiB loB)
      let mdAB ← mulF conv k mdA mdB
      let s ← add (shl hiC m) loC
      let s ← add s hiC
      let mdC ← add s (part loC m loC.length)
      let mdC ← middle neg mdC mdAB
      let c ← add (shl mdC m) (part loC 0 m)
      return cut c
    else do
      let c ← conv a b
      build c

/-- `operator*` — unsigned_bigint.hpp:132-134. -/
def mul (conv : List Int → List Int → M (List Int)) (a b : List Int) : M (List Int) := mulF conv (max a.length b.length + 1) a b

/-- `a >>= k` — unsigned_bigint.hpp:88-95. -/
def shr (a : List Int) (k : Nat) : List Int := a.drop (min k a.length)

/-- The loop of `_divmod_int` — unsigned_bigint.hpp:356-360, over the digits from the most significant one; the quotients in the order in which they
are pushed, and the remainder. -/
def divLoop (b0 : Int) : List Int → Int → M (List Int × Int)
  | [], r => .ok ([], r)
  | x :: s, r => do
    let t ← i64 (r * D)
    let r ← i64 (t + x)
    if b0 = 0 then .error .ub
    else do
      let p ← divLoop b0 s (r.tmod b0)
      return (r.tdiv b0 :: p.1, p.2)

/-- `_divmod_int(a, b)` — unsigned_bigint.hpp:351-364; `b` has the digits `b0 :: _`. -/
def divmodInt (a b : List Int) : M (List Int × List Int) := do
  check (decide (b.length = 1))
  let p ← divLoop (b.headD 0) a.reverse 0
  return (cut p.1.reverse, if p.2 ≠ 0 then [p.2] else [])

/-- `while (bx > r) bx -= b, --x` — unsigned_bigint.hpp:393; the number bounds the number of iterations. -/
def lower (b r : List Int) : Nat → List Int → Int → M (List Int × Int)
  | 0, _, _ => .error .diverge
  | k + 1, bx, x => if lt r bx then do
      let bx ← sub bx b
      let x ← i32 (x - 1)
      lower b r k bx x
    else .ok (bx, x)

/-- `while (bx + b <= r) bx += b, ++x` — unsigned_bigint.hpp:394. -/
def raise (b r : List Int) : Nat → List Int → Int → M (List Int × Int)
  | 0, _, _ => .error .diverge
  | k + 1, bx, x => do
    let y ← add bx b
    if !lt r y then do
      let x ← i32 (x + 1)
      raise b r k y x
    else return (bx, x)

/-- The digit of the quotient and the new remainder — unsigned_bigint.hpp:380-397. -/
def divDigit (b r : List Int) : M (Int × List Int) :=
  if r.length < b.length then .ok (0, r)
  else if r.length = b.length then
    if !lt r b then do
      let r ← sub r b
      return (1, r)
    else .ok (0, r)
  else do
    check (decide (r.length = b.length + 1))
    let t ← i64 (r.reverse.headD 0 * D)
    let t ← i64 (t + (r.reverse.drop 1).headD 0)
    if b.reverse.headD 0 = 0 then .error .ub
    else do
      let x ← i32 (t.tdiv (b.reverse.headD 0))
      let bx ← mulNaive b [x]
      let p ← lower b r (2 ^ 32) bx x
      let p ← raise b r (2 ^ 32) p.1 p.2
      let r ← sub r p.1
      return (p.2, r)

/-- The loop of `_divmod_naive` — unsigned_bigint.hpp:379-401; the first list holds the digits of `a` that are still to come, from the most
significant one. -/
def longDiv (b : List Int) : List Int → List Int → M (List Int × List Int)
  | [], r => do
    let p ← divDigit b r
    return ([p.1], p.2)
  | x :: s, r => do
    let p ← divDigit b r
    let t ← longDiv b s (x :: p.2)
    return (p.1 :: t.1, t.2)

/-- `_divmod_naive(a, b)` — unsigned_bigint.hpp:366-410. The products by `coef`, of one digit, are those of `_mul_naive`. -/
def divmodNaive (a b : List Int) : M (List Int × List Int) :=
  if b.length = 1 then divmodInt a b
  else if lt a b then .ok ([], a)
  else if b.length = 0 then .error .ub
  else do
    let coef := [D.tdiv (b.reverse.headD 0 + 1)]
    let a ← mulNaive a coef
    let b ← mulNaive b coef
    check (decide (2 * b.reverse.headD 0 ≥ D))
    let p ← longDiv b (a.take (a.length - b.length)).reverse (a.drop (a.length - b.length))
    let rem ← divmodInt (cut p.2) coef
    return (cut p.1.reverse, rem.1)

/-- `divmod(a, b)` — unsigned_bigint.hpp:136-138, 451-478; `big` is the branch for large numbers. -/
def divmod (big : List Int → List Int → M (List Int × List Int)) (a b : List Int) : M (List Int × List Int) := do
  check (decide (b.length ≠ 0))
  if min (b.length : Int) ((a.length : Int) - b.length) ≤ 64 then divmodNaive a b
  else big a b

/-- Conversion to an unsigned type of `w ≥ 32` bits, which wraps — unsigned_bigint.hpp:152-164; the digits from the most significant one. -/
def toUnsigned (w : Nat) (a : List Int) : Int := a.reverse.foldl (fun res x => (res * D + x) % 2 ^ w) 0

/-- The decimal digits of `n`, as `operator<<` writes them; the first argument bounds their number. -/
def dec : Nat → Nat → List Char
  | 0, _ => []
  | k + 1, n => if n < 10 then [Char.ofNat (48 + n)] else dec k (n / 10) ++ [Char.ofNat (48 + n % 10)]

/-- `oss << x` for a digit `x` in base `10 ^ 9`, which has at most nine decimal digits. -/
def put (x : Int) : List Char := dec 9 x.toNat

/-- `oss << std::setw(9) << std::setfill('0') << x`. -/
def putPadded (x : Int) : List Char := List.replicate (9 - (put x).length) '0' ++ put x

/-- `_to_string` — unsigned_bigint.hpp:480-489. -/
def toString (a : List Int) : List Char :=
  match a.reverse with
  | [] => ['0']
  | x :: s => put x ++ s.flatMap putPadded

end UBig
