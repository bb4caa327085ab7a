import Verif.Model.ModTables
import Verif.Model.NumberUtil

/-!
# Models of `library/sequence/{montmort_number,powers,eulerian_number,binomial_coefficient_small_prime_mod}.hpp`

`F` is the field of the modular integers. Sizes are taken to be below `2 ^ 31 - 1`, so that `int` and `uint32_t` counters are exact.
-/

namespace Sequences
open Cxx

section
variable {F : Type} [Field F] [DecidableEq F]

/-- `v.resize(k)`. -/
def resize (a : Array F) (k : Nat) : Array F := (a ++ Array.replicate (k - a.size) 0).extract 0 k

/-- `res.push_back((i - 1) * (res[i - 1] + res[i - 2]))` — montmort_number.hpp:10. -/
def montStep (i : Nat) (res : Array F) : M (Array F) := do
  let x ← rd res (i - 1)
  let y ← rd res (i - 2)
  return res.push (((i - 1 : Nat) : F) * (x + y))

/-- `montmort_number(n)` — montmort_number.hpp:8-13. -/
def montmort (n : Nat) : M (Array F) := do
  let res ← forUp 2 (n + 1) #[1, 0] montStep
  return resize res (n + 1)

/-- `mint(i).pow(k)` for `uint64_t k`; the parameter of `pow` is a `long long`, which must not be negative — powers.hpp:14. -/
def powU64 (x : F) (k : Nat) : M F := do
  check (decide (k < 2 ^ 63))
  return x ^ k

/-- The body of the loop — powers.hpp:14. -/
def powersStep (mpf : Array Nat) (k i : Nat) (res : Array F) : M (Array F) := do
  if i = 1 then wr res i 1
  else do
    let p ← rd mpf i
    if p = i then do
      let x ← powU64 (i : F) k
      wr res i x
    else do
      let x ← rd res p
      let y ← rd res (i / p)
      wr res i (x * y)

/-- `powers(n, k)` — powers.hpp:10-16. -/
def powers (n k : Nat) : M (Array F) := do
  let s ← LinearSieve.make n
  let res ← wr (Array.replicate (n + 1) 0) 0 (if k = 0 then 1 else 0)
  forUp 1 (n + 1) res (powersStep s.mpf k)

/-- `f * g`, taken to be the exact product of the polynomials — eulerian_number.hpp:24. -/
def conv (f g : Array F) : Array F :=
  Array.ofFn fun k : Fin (f.size + g.size - 1) => ((List.range (k + 1)).map fun i => at' 0 g i * at' 0 f (k - i)).sum

/-- `g[i] = (i & 1 ? -v : v)` — eulerian_number.hpp:20-23; the state is the table of factorials and `g`. -/
def signStep (n i : Nat) (s : Factorial.Tab F × Array F) : M (Factorial.Tab F × Array F) := do
  let r ← Factorial.binom s.1 ((n + 1 : Nat) : Int) i
  let g ← wr s.2 i (if i % 2 = 1 then -r.2 else r.2)
  return (r.1, g)

/-- `res[i] = res[n - 1 - i]` — eulerian_number.hpp:26. -/
def mirrorStep (n i : Nat) (res : Array F) : M (Array F) := do
  let x ← rd res (n - 1 - i)
  wr res i x

/-- `eulerian_number(n)` — eulerian_number.hpp:10-28. -/
def eulerian (t : Factorial.Tab F) (n : Nat) : M (Factorial.Tab F × Array F) := do
  if n = 0 then return (t, #[])
  else do
    let t ← Factorial.ensure t (n + 1)
    let h := (n + 1) / 2
    let f ← powers h n
    let f := f.extract 1 f.size
    let s ← forUp 0 h (t, Array.replicate h 0) (signStep n)
    let res ← forUp h n (resize (conv f s.2) n) (mirrorStep n)
    return (s.1, res)

/-- The inner loop — eulerian_number.hpp:36. -/
def tableStep (i : Nat) (prev : Array F) (j : Nat) (row : Array F) : M (Array F) := do
  let x ← rd prev (j - 1)
  let y ← rd prev j
  wr row j (((i - j : Nat) : F) * x + ((j + 1 : Nat) : F) * y)

/-- One row — eulerian_number.hpp:34-36. -/
def rowStep (i : Nat) (dp : Array (Array F)) : M (Array (Array F)) := do
  let row ← wr (Array.replicate i 0) (i - 1) 1
  let row ← wr row 0 1
  let prev ← rd dp (i - 1)
  let row ← forUp 1 (i - 1) row (tableStep i prev)
  wr dp i row

/-- `eulerian_number_table(n)` — eulerian_number.hpp:30-39. -/
def eulerianTable (n : Nat) : M (Array (Array F)) := do
  if n = 0 then return #[]
  else forUp 1 (n + 1) (Array.replicate (n + 1) #[]) rowStep

/-- The state of the loop of `binom`. -/
structure Luc (F : Type) where
  t : Factorial.Tab F
  n : Nat
  r : Nat
  res : F

/-- The loop — binomial_coefficient_small_prime_mod.hpp:20-25; `return 0` is an end with `r = 0` and result 0. -/
def lucasStep (p : Nat) (s : Luc F) : M (Option (Luc F)) := do
  if s.r = 0 then return none
  else
    let ni := s.n % p
    let ri := s.r % p
    if ni < ri then return some { s with r := 0, res := 0 }
    else do
      let b ← Factorial.binom s.t (ni : Int) ri
      return some ⟨b.1, s.n / p, s.r / p, s.res * b.2⟩

/-- `binom(n, r)` — binomial_coefficient_small_prime_mod.hpp:12-27. -/
def binomSmall (p : Nat) (t : Factorial.Tab F) (n r : Int) : M (Factorial.Tab F × F) := do
  let t ← Factorial.ensure t (p - 1)
  if r < 0 ∨ n < r then return (t, 0)
  else do
    let s ← loop (lucasStep p) (n.toNat + 2) ⟨t, n.toNat, (min r (n - r)).toNat, 1⟩
    return (s.t, s.res)

end

end Sequences
