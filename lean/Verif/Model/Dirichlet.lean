import Verif.Model.Machine
import Mathlib.Algebra.Ring.Defs

/-!
# Model of `library/convolution/dirichlet_convolution.hpp`
-/

namespace Dirichlet
open Cxx

/-- `std::min((n + i - 1) / i, k)` — lines 14 and 28. The sum is computed in `int`. -/
def jmax (n k i : Nat) : M Nat := do
  let _ ← i32 ((n : Int) + i)
  return Nat.min ((n + i - 1) / i) k

variable {T : Type} [CommSemiring T]

/-- `c[i * j] += a[i] * b[j];` — lines 16 and 34. -/
def addTerm (a b : Array T) (i j : Nat) (c : Array T) : M (Array T) := do
  let x ← rd a i
  let y ← rd b j
  let z ← rd c (i * j)
  wr c (i * j) (z + x * y)

/-- Body of the outer loop — lines 13-18. -/
def row (a b : Array T) (n k i : Nat) (c : Array T) : M (Array T) := do
  let jm ← jmax n k i
  forUp 1 jm c fun j c => addTerm a b i j c

/-- `dirichlet_convolution(a, b, n)` — lines 10-20. -/
def conv (a b : Array T) (n : Nat) : M (Array T) :=
  forUp 1 (Nat.min a.size n) (Array.replicate n 0) fun i c => row a b n (Nat.min b.size n) i c

/-- `i > j ? dp[i - j][j] : dp[i][j - i]` — line 32. -/
def gcdEntry (dp : Array (Array Nat)) (i j : Nat) : M Nat :=
  if i > j then do
    let r ← rd dp (i - j)
    rd r j
  else do
    let r ← rd dp i
    rd r (j - i)

/-- `dp[i].push_back(g);`. -/
def push (dp : Array (Array Nat)) (i g : Nat) : M (Array (Array Nat)) := do
  let r ← rd dp i
  wr dp i (r.push g)

/-- `if (g == 1) c[i * j] += a[i] * b[j];` — line 34. -/
def addIf (a b : Array T) (i j g : Nat) (c : Array T) : M (Array T) :=
  if g = 1 then addTerm a b i j c else return c

/-- Body of the inner loop — lines 31-35. -/
def inner (a b : Array T) (i j : Nat) (s : Array (Array Nat) × Array T) : M (Array (Array Nat) × Array T) := do
  let g ← gcdEntry s.1 i j
  let dp ← push s.1 i g
  let c ← addIf a b i j g s.2
  return (dp, c)

/-- Body of the outer loop — lines 27-36. -/
def rowCoprime (a b : Array T) (n k i : Nat) (s : Array (Array Nat) × Array T) : M (Array (Array Nat) × Array T) := do
  let jm ← jmax n k i
  let dp ← push s.1 i i
  forUp 1 jm (dp, s.2) fun j s => inner a b i j s

/-- `dirichlet_convolution_coprime(a, b, n)` — lines 23-38. -/
def convCoprime (a b : Array T) (n : Nat) : M (Array T) := do
  let r ← forUp 1 (Nat.min a.size n) (Array.replicate (Nat.min a.size n) #[], Array.replicate n 0)
    fun i s => rowCoprime a b n (Nat.min b.size n) i s
  return r.2

end Dirichlet
