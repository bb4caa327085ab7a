import Verif.Cxx
import Mathlib.Algebra.Field.Defs

/-!
# Model of `library/linear_algebra/gaussian_elimination.hpp`

The element type is exact (not floating point), so `equals_zero(v)` is `v == zero` and the pivot is chosen by gaussian_elimination.hpp:11-21.
-/

namespace Gauss
open Cxx

/-- The template parameters and the arguments `zero`, `one` — gaussian_elimination.hpp:48-50. -/
structure Ops (T : Type) where
  add : T → T → T
  neg : T → T
  mul : T → T → T
  inv : T → T
  zero : T
  one : T

/-- `add_fp_arithmetic` etc. with `T(0)`, `T(1)` — gaussian_elimination.hpp:42-45. -/
def Ops.field (F : Type) [Field F] : Ops F := ⟨fun x y => x + y, fun x => 0 - x, fun x y => x * y, fun x => 1 / x, 0, 1⟩

/-- `add_fp_f2` etc. on the values 0 and 1 — gaussian_elimination.hpp:37-40. -/
def Ops.f2 : Ops Bool := ⟨fun x y => x ^^ y, fun x => x, fun x y => x && y, fun x => x, false, true⟩

variable {T : Type} [DecidableEq T] (o : Ops T)

/-- `std::find_if_not(v.begin(), v.begin() + len, equals_zero) - v.begin()`, reading the elements up to the result; also the search of lines 87-91. -/
def findNonzero (v : Array T) (len : Nat) : Nat → Nat → M Nat
  | 0, col => return col
  | k + 1, col => do
    if col < len then
      let x ← rd v col
      if x = o.zero then findNonzero v len k (col + 1) else return col
    else return col

/-- Body of the loop of `pivoting` — gaussian_elimination.hpp:15-19; state `(mse, pivot)`. -/
def pivotStep (Ab : Array (Array T)) (row : Nat) (s : Nat × Nat) : M (Nat × Nat) := do
  let v ← rd Ab row
  let col ← findNonzero o v s.1 s.1 0
  return if col < s.1 then (col, row) else s

/-- `pivoting(Ab, i, equals_zero)` — gaussian_elimination.hpp:12-21. -/
def pivoting (Ab : Array (Array T)) (m i : Nat) : M (Nat × Nat) := forUp i Ab.size (m, Ab.size) (pivotStep o Ab)

/-- `Ab[row][col] = add_fp(Ab[row][col], mul_fp(coef, Ab[i][col]))` for `col` in `[mse, m]`, on the row `v`; `u` is row `i ≠ row` — lines 80, 96. -/
def axpy (coef : T) (u : Array T) (mse m : Nat) (v : Array T) : M (Array T) :=
  forUp mse (m + 1) v fun col v => do
    let x ← rd v col
    let y ← rd u col
    wr v col (o.add x (o.mul coef y))

/-- Body of the loops over rows — gaussian_elimination.hpp:78-81, 94-97. -/
def elimStep (i mse m : Nat) (inv : T) (row : Nat) (Ab : Array (Array T)) : M (Array (Array T)) := do
  let v ← rd Ab row
  let x ← rd v mse
  if x = o.zero then return Ab
  else do
    let u ← rd Ab i
    let v ← axpy o (o.neg (o.mul x inv)) u mse m v
    wr Ab row v

/-- `Ab[i].swap(Ab[pivot])` — gaussian_elimination.hpp:76. -/
def swapRows (Ab : Array (Array T)) (i j : Nat) : M (Array (Array T)) := do
  let x ← rd Ab i
  let y ← rd Ab j
  let Ab ← wr Ab i y
  wr Ab j x

/-- Lines 76-81. -/
def reduceAt (m i : Nat) (p : Nat × Nat) (Ab : Array (Array T)) : M (Array (Array T)) := do
  let Ab ← swapRows Ab i p.2
  let u ← rd Ab i
  let x ← rd u p.1
  forUp (i + 1) Ab.size Ab (elimStep o i p.1 m (o.inv x))

/-- Body of the first loop — gaussian_elimination.hpp:73-82; state `(i, Ab)`. -/
def forwardBody (m : Nat) (s : Nat × Array (Array T)) : M (Option (Nat × Array (Array T))) :=
  if s.1 < s.2.size then do
    let p ← pivoting o s.2 m s.1
    if p.2 = s.2.size then return none
    else do
      let Ab ← reduceAt o m s.1 p s.2
      return some (s.1 + 1, Ab)
  else return none

/-- The variables of the second loop. -/
structure Back (T : Type) where
  Ab : Array (Array T)
  basisNum : Int
  down : Array Bool
  x0 : Array T
  empty : Bool

/-- `Ab[i][col] = mul_fp(Ab[i][col], mse_val_inv)` for `col` in `[mse, m]`, on row `i` — gaussian_elimination.hpp:98. -/
def scale (inv : T) (mse m : Nat) (u : Array T) : M (Array T) :=
  forUp mse (m + 1) u fun col u => do
    let x ← rd u col
    wr u col (o.mul x inv)

/-- The case `mse < m` — gaussian_elimination.hpp:92-101. -/
def backPivot (m i mse : Nat) (s : Back T) : M (Back T) := do
  let u ← rd s.Ab i
  let x ← rd u mse
  let inv := o.inv x
  let Ab ← forUp 0 i s.Ab (elimStep o i mse m inv)
  let u ← rd Ab i
  let u ← scale o inv mse m u
  let Ab ← wr Ab i u
  let y ← rd u m
  let x0 ← wr s.x0 mse y
  let down ← wr s.down mse true
  return ⟨Ab, s.basisNum - 1, down, x0, s.empty⟩

/-- Body of the second loop — gaussian_elimination.hpp:86-106; once `_empty` is set the function has returned. -/
def backStep (m i : Nat) (s : Back T) : M (Back T) :=
  if s.empty then return s
  else do
    let u ← rd s.Ab i
    let mse ← findNonzero o u (m + 1) (m + 1) 0
    if mse < m then backPivot o m i mse s
    else if mse = m then return { s with empty := true }
    else return s

/-- `_basis[basis_id][j2] = down[j2] ? Ab[i++][j] : zero` — gaussian_elimination.hpp:110; state `(i, row)`. -/
def basisEntry (Ab : Array (Array T)) (down : Array Bool) (j j2 : Nat) (s : Nat × Array T) : M (Nat × Array T) := do
  let d ← rd down j2
  if d then do
    let u ← rd Ab s.1
    let x ← rd u j
    let v ← wr s.2 j2 x
    return (s.1 + 1, v)
  else do
    let v ← wr s.2 j2 o.zero
    return (s.1, v)

/-- Lines 110-111: the basis vector of a free column. -/
def basisVector (Ab : Array (Array T)) (down : Array Bool) (m j : Nat) (v : Array T) : M (Array T) := do
  let s ← forUp 0 m (0, v) (basisEntry o Ab down j)
  wr s.2 j (o.neg o.one)

/-- Body of the last loop — gaussian_elimination.hpp:109-112; state `(basis_id, basis)`. -/
def basisStep (Ab : Array (Array T)) (down : Array Bool) (m j : Nat) (s : Nat × Array (Array T)) : M (Nat × Array (Array T)) := do
  let d ← rd down j
  if d then return s
  else do
    let v ← rd s.2 s.1
    let v ← basisVector o Ab down m j v
    let basis ← wr s.2 s.1 v
    return (s.1 + 1, basis)

/-- The object: `_x0`, `_basis`, `_empty`. -/
structure Result (T : Type) where
  x0 : Array T
  basis : Array (Array T)
  empty : Bool
  deriving DecidableEq

/-- The end of `solve` — gaussian_elimination.hpp:107-112. -/
def finish (m : Nat) (s : Back T) : M (Result T) :=
  if s.empty then return ⟨s.x0, #[], true⟩
  else if s.basisNum < 0 then .error .ub
  else do
    let r ← forUp 0 m (0, Array.replicate s.basisNum.toNat (Array.replicate m o.zero)) (basisStep o s.Ab s.down m)
    return ⟨s.x0, r.2, false⟩

/-- `solve(zero, one, Ab)` — gaussian_elimination.hpp:66-113. -/
def solve (Ab : Array (Array T)) : M (Result T) := do
  let row0 ← rd Ab 0
  if row0.size = 0 then .error .ub
  else do
    let m := row0.size - 1
    let f ← loop (forwardBody o m) Ab.size (0, Ab)
    let s ← forDown Ab.size 0 ⟨f.2, m, Array.replicate m false, Array.replicate m o.zero, false⟩ (backStep o m)
    finish o m s

/-- `A[i].push_back(b[i])` — gaussian_elimination.hpp:52. -/
def augment (b : Array T) (i : Nat) (A : Array (Array T)) : M (Array (Array T)) := do
  let v ← rd A i
  let x ← rd b i
  wr A i (v.push x)

/-- `GaussianElimination(A, b)` — gaussian_elimination.hpp:50-54. -/
def make (A : Array (Array T)) (b : Array T) : M (Result T) := do
  let Ab ← forUp 0 A.size A (augment b)
  solve o Ab

/-- `has_solution()` — gaussian_elimination.hpp:55. -/
def hasSolution (r : Result T) : Bool := !r.empty
/-- `has_unique_solution()` — gaussian_elimination.hpp:56. -/
def hasUniqueSolution (r : Result T) : Bool := !r.empty && r.basis.size == 0
/-- `has_multiple_solutions()` — gaussian_elimination.hpp:57. -/
def hasMultipleSolutions (r : Result T) : Bool := decide (r.basis.size > 0)
/-- `get_solution()` — gaussian_elimination.hpp:58. -/
def getSolution (r : Result T) : Option (Array T) := if r.empty then none else some r.x0
/-- `dimension()` — gaussian_elimination.hpp:60. -/
def dimension (r : Result T) : Int := if r.empty then -1 else r.basis.size

end Gauss
