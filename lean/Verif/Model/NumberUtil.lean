import Verif.Model.ModArith

/-!
# Models of `library/number/util.hpp` and `library/number/linear_sieve.hpp`

`T` is a signed integer type with greatest value `maxT` (at least that of `int`).
-/

namespace NumberUtil
open Cxx

/-- `primes`, `next_prime`, `period` — util.hpp:34-41. -/
def primes : List Nat := [2, 3, 5, 7, 11, 13]

/-- `next_prime` — util.hpp:35. -/
def nextPrime : Nat := 17

/-- `period` — util.hpp:37-41: the product of `primes`. -/
def period : Nat := 30030

/-- The table `s` — util.hpp:42-50: offsets of the odd numbers in `[17, 17 + period)` without a small prime factor (there are 5760 of them, the
size of the array). -/
def offsets : List Nat :=
  ((List.range (period / 2)).filter fun j => primes.all fun p => decide ((nextPrime + 2 * j) % p > 0)).map fun j => 2 * j

/-- `do n /= p, ++cnt; while (n % p == 0);` — util.hpp:57; the first test is the one of line 55. State `(n, cnt)`. -/
def divStep (p : Int) (s : Int × Nat) : M (Option (Int × Nat)) :=
  if s.1.tmod p = 0 then return some (s.1.tdiv p, s.2 + 1) else return none

/-- The lambda `f` — util.hpp:54-59; state `(n, res)`. A zero divisor is undefined. -/
def strip (s : Int × List (Int × Nat)) (p : Int) : M (Int × List (Int × Nat)) :=
  if p = 0 then .error .ub
  else if s.1.tmod p ≠ 0 then return s
  else do
    let q ← loop (divStep p) s.1.natAbs (s.1, 0)
    return (q.1, s.2 ++ [(p, q.2)])

/-- Outer loop — util.hpp:61-63; state `(b, n, res)`; `b * b` and `b += period` are computed in `T`, `b + offset` is converted to `int`. -/
def blockStep (maxT : Nat) (s : Nat × Int × List (Int × Nat)) : M (Option (Nat × Int × List (Int × Nat))) :=
  if s.1 * s.1 > maxT then .error .ub
  else if (s.1 * s.1 : Int) ≤ s.2.1 then do
    let t ← forEach offsets s.2 fun t o => strip t (toI32 (s.1 + o))
    if s.1 + period > maxT then .error .ub else return some (s.1 + period, t)
  else return none

/-- `if (n != 1) res.emplace_back(n, 1);` — util.hpp:64. -/
def finish (s : Int × List (Int × Nat)) : List (Int × Nat) := if s.1 ≠ 1 then s.2 ++ [(s.1, 1)] else s.2

/-- `factorize(n)` — util.hpp:33-66. -/
def factorize (maxT : Nat) (n : Int) : M (List (Int × Nat)) := do
  check (decide (n > 0))
  let s ← forEach primes (n, []) fun t (p : Nat) => strip t (p : Int)
  let s ← loop (blockStep maxT) n.toNat (nextPrime, s)
  return finish s.2

section
variable {T : Type} [Mul T] [OfNat T 1] [Sub T] [OfNat T 0]

/-- `for (int j = 0; j < c; ++j) res.push_back(d *= p);` — util.hpp:80; state `(d, res)`. -/
def pushStep (p : T) (_ : Nat) (s : T × Array T) : M (T × Array T) := return (s.1 * p, s.2.push (s.1 * p))

/-- Body of the loop over the old divisors — util.hpp:79-80. -/
def divisorStep (p : T) (c : Nat) (i : Nat) (res : Array T) : M (Array T) := do
  let d ← rd res i
  let s ← forUp 0 c (d, res) (pushStep p)
  return s.2

/-- `divisors(factorized)` — util.hpp:75-84. -/
def divisors (l : List (T × Nat)) : M (Array T) :=
  forEach l #[(1 : T)] fun res pc => forUp 0 res.size res (divisorStep pc.1 pc.2)

end

/-- `divisors(n)` — util.hpp:92-94. -/
def divisorsOf (maxT : Nat) (n : Int) : M (Array Int) := do
  let l ← factorize maxT n
  divisors l

/-- `divs[j].push_back(i)` for the multiples `j = i, 2 i, …` of `i` up to `n` — util.hpp:103. -/
def tableStep (n : Nat) (i : Nat) (s : Nat × Array (List Nat)) : M (Option (Nat × Array (List Nat))) :=
  if s.1 ≤ n then do
    let l ← rd s.2 s.1
    let d ← wr s.2 s.1 (l ++ [i])
    return some (s.1 + i, d)
  else return none

/-- `divisors_table(n)` — util.hpp:100-106. -/
def divisorsTable (n : Nat) : M (Array (List Nat)) :=
  forUp 1 (n + 1) (Array.replicate (n + 1) []) fun i d => do
    let s ← loop (tableStep n i) n (i, d)
    return s.2

/-- A product in the signed type `T`: undefined when it does not fit. -/
def mulT (maxT : Nat) (x y : Int) : M Int := if (x * y).natAbs ≤ maxT then .ok (x * y) else .error .ub

/-- `(p - 1) * powi(p, c - 1)` — util.hpp:117, 154; the exponents of a factorisation are positive. -/
def phiPow (maxT : Nat) (p : Int) (c : Nat) : M Int := do
  let q ← Powi.powi (mulT maxT) 1 p (c - 1)
  mulT maxT (p - 1) q

/-- `totient(factorized)` — util.hpp:115-119. -/
def totient (maxT : Nat) (l : List (Int × Nat)) : M Int :=
  forEach l (1 : Int) fun res pc => do
    let t ← phiPow maxT pc.1 pc.2
    mulT maxT res t

/-- `totient(n)` — util.hpp:127-129. -/
def totientOf (maxT : Nat) (n : Int) : M Int := do
  let l ← factorize maxT n
  totient maxT l

/-- `for (int q = p; q <= n; q += p) res[q] /= p, res[q] *= p - 1;` — util.hpp:140. -/
def phiStep (n p : Nat) (s : Nat × Array Nat) : M (Option (Nat × Array Nat)) :=
  if s.1 ≤ n then do
    let x ← rd s.2 s.1
    let a ← wr s.2 s.1 (x / p * (p - 1))
    return some (s.1 + p, a)
  else return none

/-- Body of the loop over odd `p` — util.hpp:138-141. -/
def phiPrime (n : Nat) (p : Nat) (a : Array Nat) : M (Array Nat) := do
  let x ← rd a p
  if x ≠ p then return a
  else do
    let s ← loop (phiStep n p) n (p, a)
    return s.2

/-- `for (int p = 3; p <= n; p += 2)` — util.hpp:138. -/
def phiLoop (n : Nat) (s : Nat × Array Nat) : M (Option (Nat × Array Nat)) :=
  if s.1 ≤ n then do
    let a ← phiPrime n s.1 s.2
    return some (s.1 + 2, a)
  else return none

/-- `totient_table(n)` — util.hpp:135-143. -/
def totientTable (n : Nat) : M (Array Nat) := do
  let a := Array.ofFn (n := n + 1) fun i => if i.val % 2 = 0 then i.val / 2 else i.val
  let s ← loop (phiLoop n) n (3, a)
  return s.2

/-- `carmichael(factorized)` — util.hpp:152-158. -/
def carmichael (maxT : Nat) (l : List (Int × Nat)) : M Int :=
  forEach l (1 : Int) fun res pc => do
    let t ← phiPow maxT pc.1 pc.2
    return (Int.lcm res (if pc.1 = 2 ∧ pc.2 ≥ 3 then t.tdiv 2 else t) : Int)

/-- `carmichael(n)` — util.hpp:166-168. -/
def carmichaelOf (maxT : Nat) (n : Int) : M Int := do
  let l ← factorize maxT n
  carmichael maxT l

end NumberUtil

namespace LinearSieve
open Cxx

/-- Members — linear_sieve.hpp:48-50. -/
structure State where
  n : Nat
  mpf : Array Nat
  primes : Array Nat

/-- Inner loop — linear_sieve.hpp:18-21; state `(index into prime_list, min_prime_factor)`. -/
def markStep (primes : Array Nat) (d primeMax : Nat) (s : Nat × Array Nat) : M (Option (Nat × Array Nat)) :=
  if s.1 < primes.size then do
    let p ← rd primes s.1
    if p > primeMax then return none
    else do
      let a ← wr s.2 (p * d) p
      return some (s.1 + 1, a)
  else return none

/-- Body of the outer loop — linear_sieve.hpp:15-22; state `(min_prime_factor, prime_list)`. -/
def sieveStep (n : Nat) (d : Nat) (s : Array Nat × Array Nat) : M (Array Nat × Array Nat) := do
  let x ← rd s.1 d
  let primes := if x = d then s.2.push d else s.2
  let r ← loop (markStep primes d (min x (n / d))) primes.size (0, s.1)
  return (r.2, primes)

/-- Constructor — linear_sieve.hpp:12-23. -/
def make (n : Nat) : M State := do
  let s ← forUp 2 (n + 1) (Array.range (n + 1), #[]) (sieveStep n)
  return ⟨n, s.1, s.2⟩

/-- `do { n /= p, ++c; } while (n % p == 0);` — linear_sieve.hpp:42; state `(n, c)`. -/
def divStep (p : Nat) (s : Nat × Nat) : M (Option (Nat × Nat)) :=
  if s.1 % p = 0 then return some (s.1 / p, s.2 + 1) else return none

/-- Loop of `factorize` — linear_sieve.hpp:40-44; the first division is unconditional. State `(n, prime_powers)`. -/
def factorStep (a : Array Nat) (s : Nat × List (Nat × Nat)) : M (Option (Nat × List (Nat × Nat))) :=
  if s.1 > 1 then do
    let p ← rd a s.1
    if p = 0 then .error .ub
    else do
      let q ← loop (divStep p) s.1 (s.1 / p, 1)
      return some (q.1, s.2 ++ [(p, q.2)])
  else return none

/-- `factorize(n)` — linear_sieve.hpp:37-46. -/
def factorize (s : State) (n : Nat) : M (List (Nat × Nat)) := do
  check (decide (0 < n ∧ n ≤ s.n))
  let r ← loop (factorStep s.mpf) n (n, [])
  return r.2

end LinearSieve
