import Verif.Model.SumOfMultiplicative
import Verif.Model.NumberUtil

/-!
# Model of `library/number/mobius_function.hpp`

`N < 2^31`, so that the numbers up to `N` are values of `int`. The sieve of the constructor is token for token that of `sum_of_mobius_function.hpp:15-24` with
`sz = N + 1`, and the loop of `factorize` that of `linear_sieve.hpp:40-44`: their models are shared.
-/

namespace MobiusFunction
open Cxx

/-- The members — lines 63-64. -/
structure State where
  n : Nat
  mpf : Array Nat
  dat : Array Int

/-- The constructor — lines 13-25. -/
def make (N : Nat) : M State := do
  let s ← forUp 2 (N + 1) (Array.replicate (N + 1) 0, Array.replicate (N + 1) 1) (SumOfMobius.sieveStep (N + 1))
  return ⟨N, s.1, s.2⟩

/-- `operator()`, `operator[]` and `mobius` — lines 27-38. -/
def mobius (s : State) (k : Nat) : M Int := do
  check (decide (0 < k ∧ k ≤ s.n))
  rd s.dat k

/-- `min_prime_factor(n)` — lines 40-43. -/
def minPrimeFactor (s : State) (k : Nat) : M Nat := do
  check (decide (2 ≤ k ∧ k ≤ s.n))
  rd s.mpf k

/-- `factorize(n)` — lines 48-57. -/
def factorize (s : State) (k : Nat) : M (List (Nat × Nat)) := do
  check (decide (0 < k ∧ k ≤ s.n))
  let r ← loop (LinearSieve.factorStep s.mpf) k (k, [])
  return r.2

/-- `is_prime(n)` — lines 58-61. -/
def isPrime (s : State) (k : Nat) : M Bool := do
  check (decide (k ≤ s.n))
  if 2 ≤ k then do
    let p ← rd s.mpf k
    return decide (p = k)
  else return false

end MobiusFunction
