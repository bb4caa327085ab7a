import Verif.Model.Algorithm
import Verif.Model.Machine

/-!
# Model of `library/convolution/min_plus_convolution.hpp` with `T = long long`

Indices are `int` in the source; the sizes are assumed to fit.
-/

namespace MinPlus
open Cxx

/-- `assert(a[i - 1] - a[i - 2] <= a[i] - a[i - 1])` — min_plus_convolution.hpp:17, 19 and 39. -/
def convexStep (a : Array Int) (i : Nat) (_ : Unit) : M Unit := do
  let x ← rd a (i - 1)
  let y ← rd a (i - 2)
  let p ← i64 (x - y)
  let z ← rd a i
  let x ← rd a (i - 1)
  let q ← i64 (z - x)
  check (decide (p ≤ q))

/-- The loop over these assertions; it does nothing for sizes up to 2. -/
def convex (a : Array Int) : M Unit := if 2 ≤ a.size then forUp 2 a.size () (convexStep a) else return ()

/-- `a[i] + b[j]`. -/
def plus (a b : Array Int) (i j : Nat) : M Int := do
  let x ← rd a i
  let y ← rd b j
  i64 (x + y)

/-- `a[i + 1] + b[j] < a[i] + b[j + 1]`. -/
def less (a b : Array Int) (i j : Nat) : M Bool := do
  let p ← plus a b (i + 1) j
  let q ← plus a b i (j + 1)
  return decide (p < q)

/-- The condition — min_plus_convolution.hpp:25. -/
def goLeft (a b : Array Int) (i j : Nat) : M Bool :=
  if j = b.size - 1 then return true
  else if i < a.size - 1 then less a b i j
  else return false

/-- Body of the loop — min_plus_convolution.hpp:23-30; state `(i, c)`. -/
def mergeStep (a b : Array Int) (k : Nat) (st : Nat × Array Int) : M (Nat × Array Int) := do
  let j := k - st.1
  let l ← goLeft a b st.1 j
  if l then do
    let x ← plus a b (st.1 + 1) j
    let c ← wr st.2 (k + 1) x
    return (st.1 + 1, c)
  else do
    let x ← plus a b st.1 (j + 1)
    let c ← wr st.2 (k + 1) x
    return (st.1, c)

/-- `min_plus_convolution_convex_convex(a, b)` — min_plus_convolution.hpp:13-32. -/
def convexConvex (a b : Array Int) : M (Array Int) := do
  check (decide (a.size ≠ 0 ∧ b.size ≠ 0))
  convex a
  convex b
  let x ← plus a b 0 0
  let c ← wr (Array.replicate (a.size + b.size - 1) 0) 0 x
  let r ← forUp 0 (a.size + b.size - 2) (0, c) (mergeStep a b)
  return r.2

/-- The comparison — min_plus_convolution.hpp:43-50. -/
def compare (a b : Array Int) (k j1 j2 : Nat) : M Bool :=
  let i1 : Int := k - j1
  let i2 : Int := k - j2
  if i2 < 0 then return true
  else if i1 ≥ a.size then return false
  else do
    let p ← plus a b i1.toNat j1
    let q ← plus a b i2.toNat j2
    return decide (p < q)

/-- Body of the loop — min_plus_convolution.hpp:53-56. -/
def fillStep (a b : Array Int) (argmin : Array Int) (k : Nat) (c : Array Int) : M (Array Int) := do
  let j ← rd argmin k
  let i : Int := k - j
  if i < 0 ∨ j < 0 then .error .ub
  else do
    let x ← plus a b i.toNat j.toNat
    wr c k x

/-- `min_plus_convolution_convex_arbitrary(a, b)` — min_plus_convolution.hpp:35-58. -/
def convexArbitrary (a b : Array Int) : M (Array Int) := do
  check (decide (a.size ≠ 0 ∧ b.size ≠ 0))
  convex a
  let argmin ← MonotoneMinima.run (a.size + b.size - 1) b.size (compare a b)
  forUp 0 (a.size + b.size - 1) (Array.replicate (a.size + b.size - 1) 0) (fillStep a b argmin)

end MinPlus
