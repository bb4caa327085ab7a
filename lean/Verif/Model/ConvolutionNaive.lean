import Verif.Cxx
import Mathlib.Algebra.Ring.Defs

/-!
# Model of `library/convolution/convolution_naive.hpp`

`R` is any commutative semiring, such as modular or wrapping unsigned integers; signed results that do not overflow are exact integers.
`conv` is the conversion from `T` to `R`.
-/

namespace ConvNaive
open Cxx
variable {T R : Type} [CommSemiring R]

/-- `c[i + j] += R(a[i]) * b[j]` — convolution_naive.hpp:12, 14. -/
def cell (conv : T → R) (a b : Array T) (i j : Nat) (c : Array R) : M (Array R) := do
  let x ← rd a i
  let y ← rd b j
  let z ← rd c (i + j)
  wr c (i + j) (z + conv x * conv y)

/-- `convolution_naive(a, b)` — convolution_naive.hpp:7-17. The size -1 of the result for two empty vectors is converted to a size that no
vector can have: the exception `std::length_error` is modelled as a failed assertion. -/
def naive (conv : T → R) (a b : Array T) : M (Array R) :=
  let n := a.size
  let m := b.size
  if n + m = 0 then .error .assertion
  else
    let c := Array.replicate (n + m - 1) 0
    if n < m then forUp 0 m c fun j c => forUp 0 n c fun i c => cell conv a b i j c
    else forUp 0 n c fun i c => forUp 0 m c fun j c => cell conv a b i j c

end ConvNaive
