import Verif.Model.Machine
import Mathlib.Algebra.Ring.Defs
import Mathlib.Data.Int.Cast.Basic

/-!
# Models of `library/number/sum_of_mobius_function.hpp` and `library/number/sum_of_totient_function.hpp`

The number `threshold(n)` is computed with floating point functions; it only determines the running time and is a parameter `thr` here. The
value type `T` is any commutative ring (`long long` as far as nothing overflows, or a modular integer). Indices are natural numbers; they
stay below `2^32` (`thr` and the number of large entries are required to).
-/

namespace SumOfMult
open Cxx

variable {T : Type} [CommRing T]

/-- `q < _sz_s ? _dp_s[q] : _dp_l[d * l]` — sum_of_mobius_function.hpp:33, sum_of_totient_function.hpp:30. -/
def entry (dps dpl : Array T) (q dl : Nat) : M T := if q < dps.size then rd dps q else rd dpl dl

/-- Body of the loop over blocks — sum_of_mobius_function.hpp:31-35; state `(l, _dp_l[d])`. -/
def blockStep (dps dpl : Array T) (i d : Nat) (s : Nat × T) : M (Option (Nat × T)) :=
  if s.1 ≤ i then do
    if s.1 = 0 then .error .ub
    let q := i / s.1
    if q = 0 then .error .ub
    let r := i / q
    let v ← entry dps dpl q (d * s.1)
    return some (r + 1, s.2 - v * ((r - s.1 + 1 : Nat) : T))
  else return none

/-- The loop over `d` — sum_of_mobius_function.hpp:27-36, sum_of_totient_function.hpp:23-33; `start i` is the initial value. -/
def large (n : Nat) (start : Nat → T) (dps : Array T) : M (Array T) := do
  let szL := (n / dps.size + 1) % 2 ^ 32
  forDown szL 1 (Array.replicate szL 0) fun d dpl => do
    let r ← loop (blockStep dps dpl (n / d) d) (n / d) (2, start (n / d))
    wr dpl d r.2

/-- `for (i = 1; …) _dp_s[i] = f[i] + _dp_s[i - 1];` — sum_of_mobius_function.hpp:25, sum_of_totient_function.hpp:21. -/
def prefixSums (f : Array T) : M (Array T) :=
  forUp 1 f.size (Array.replicate f.size 0) fun i dps => do
    let x ← rd f i
    let y ← rd dps (i - 1)
    wr dps i (x + y)

/-- `operator()(denominator)` — sum_of_mobius_function.hpp:39-42, sum_of_totient_function.hpp:36-39. -/
def ask (n : Nat) (dps dpl : Array T) (den : Nat) : M T :=
  if den = 0 then .error .ub
  else if n / den < dps.size then rd dps (n / den)
  else rd dpl (n / (n / den + 1) + 1)

end SumOfMult

namespace SumOfMobius
open Cxx

/-- Loop over the multiples of `p` — sum_of_mobius_function.hpp:20-23; `q` is `k * p`; state `(mpf, mobius)`. -/
def markStep (p k : Nat) (s : Array Nat × Array Int) : M (Array Nat × Array Int) := do
  let q := k * p
  let f ← rd s.1 q
  let mpf ← wr s.1 q (if f = 0 then p else f)
  let m ← rd s.2 q
  let mob ← wr s.2 q (if q % (p * p) ≠ 0 then -m else 0)
  return (mpf, mob)

/-- Lines 18-23 for a prime: `q` runs over `2p, 3p, …` below the size. -/
def mark (sz p : Nat) (s : Array Nat × Array Int) : M (Array Nat × Array Int) := do
  let mpf ← wr s.1 p p
  let mob ← wr s.2 p (-1)
  forUp 2 ((sz + p - 1) / p) (mpf, mob) fun k s => markStep p k s

/-- Body of the sieve — sum_of_mobius_function.hpp:16-24. -/
def sieveStep (sz p : Nat) (s : Array Nat × Array Int) : M (Array Nat × Array Int) := do
  let f ← rd s.1 p
  if f ≠ 0 then return s else mark sz p s

/-- The sieve — sum_of_mobius_function.hpp:15-24. -/
def sieve (sz : Nat) : M (Array Int) := do
  let s ← forUp 2 sz (Array.replicate sz 0, Array.replicate sz 1) fun p s => sieveStep sz p s
  return s.2

variable {T : Type} [CommRing T]

/-- The constructor — sum_of_mobius_function.hpp:14-37; the result is `(_dp_s, _dp_l)`. -/
def build (n thr : Nat) : M (Array T × Array T) := do
  let mob ← sieve (thr + 1)
  let dps ← SumOfMult.prefixSums (mob.map fun (x : Int) => (x : T))
  let dpl ← SumOfMult.large n (fun _ => 1) dps
  return (dps, dpl)

end SumOfMobius

namespace SumOfTotient
open Cxx

/-- Body of the inner loop — sum_of_totient_function.hpp:19; `q` is `k * p`. -/
def markStep (p k : Nat) (phi : Array Nat) : M (Array Nat) := do
  let x ← rd phi (k * p)
  wr phi (k * p) (x / p * (p - 1))

/-- Body of the sieve — sum_of_totient_function.hpp:17-20. -/
def sieveStep (sz p : Nat) (phi : Array Nat) : M (Array Nat) := do
  let f ← rd phi p
  if f ≠ p then return phi else forUp 1 ((sz + p - 1) / p) phi fun k phi => markStep p k phi

/-- The sieve — sum_of_totient_function.hpp:15-20. -/
def sieve (sz : Nat) : M (Array Nat) := forUp 2 sz (Array.range sz) fun p phi => sieveStep sz p phi

variable {T : Type} [CommRing T]

/-- The initial value of `_dp_l[d]` — sum_of_totient_function.hpp:26-27; `i + 1` wraps around modulo `2^64`. -/
def start (i : Nat) : T :=
  if i % 2 = 1 then (((i + 1) % 2 ^ 64 / 2 : Nat) : T) * (i : T) else ((i / 2 : Nat) : T) * (((i + 1) % 2 ^ 64 : Nat) : T)

/-- The constructor — sum_of_totient_function.hpp:14-34. -/
def build (n thr : Nat) : M (Array T × Array T) := do
  let phi ← sieve (thr + 1)
  let dps ← SumOfMult.prefixSums (phi.map fun (x : Nat) => (x : T))
  let dpl ← SumOfMult.large n start dps
  return (dps, dpl)

end SumOfTotient
