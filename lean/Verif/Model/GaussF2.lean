import Verif.Cxx

/-!
# Model of `gaussian_elimination_f2` — `library/linear_algebra/gaussian_elimination_f2.hpp`

A `DynamicBitSet` is an array of Booleans (its word representation is not modelled here); a `MatrixF2` is its `n`, `m` and rows.
-/

namespace GaussF2
open Cxx

/-- `MatrixF2` — matrix_f2.hpp:11-25, 133-134. -/
structure MatrixF2 where
  n : Nat
  m : Nat
  dat : Array (Array Bool)

/-- `SolutionSpace` — gaussian_elimination_f2.hpp:7-15, 56-58. -/
structure SolutionSpace where
  normalized : Bool
  solution : Option (Array Bool)
  basis : Array (Array Bool)
  deriving DecidableEq

/-- `A[i].push_back(b[i])` — gaussian_elimination_f2.hpp:64. -/
def augment (b : Array Bool) (i : Nat) (A : Array (Array Bool)) : M (Array (Array Bool)) := do
  let v ← rd A i
  let x ← rd b i
  wr A i (v.push x)

/-- `A[i] ^= A[r]` for rows of the same length, `i ≠ r`; `DynamicBitSet::operator^=`. -/
def xorRow (A : Array (Array Bool)) (i r : Nat) : M (Array (Array Bool)) := do
  let v ← rd A i
  let u ← rd A r
  wr A i (Array.zipWith (· ^^ ·) v u)

/-- `A[i][j]`. -/
def bit (A : Array (Array Bool)) (i j : Nat) : M Bool := do
  let v ← rd A i
  rd v j

/-- `std::swap(A[i], A[j])`. -/
def swapRows (A : Array (Array Bool)) (i j : Nat) : M (Array (Array Bool)) := do
  let x ← rd A i
  let y ← rd A j
  let A ← wr A i y
  wr A j x

/-- `if (A[i][j]) A[i] ^= A[r]` — gaussian_elimination_f2.hpp:71, 74. -/
def clearRow (r j i : Nat) (A : Array (Array Bool)) : M (Array (Array Bool)) := do
  let x ← bit A i j
  if x then xorRow A i r else return A

/-- Body of the first inner loop — gaussian_elimination_f2.hpp:69-72. -/
def downStep (rank j i : Nat) (A : Array (Array Bool)) : M (Array (Array Bool)) := do
  let x ← bit A i j
  if x then do
    let A ← swapRows A rank i
    clearRow rank j i A
  else return A

/-- The local variables: the matrix, `rank`, `ones`, `zeros`. -/
structure St where
  A : Array (Array Bool)
  rank : Nat
  ones : Array Nat
  zeros : Array Nat

/-- Lines 73-79. -/
def decideCol (j : Nat) (A : Array (Array Bool)) (s : St) : M St := do
  let x ← bit A s.rank j
  if x then do
    let A ← forUp 0 s.rank A (clearRow s.rank j)
    return ⟨A, s.rank + 1, s.ones.push j, s.zeros⟩
  else return ⟨A, s.rank, s.ones, s.zeros.push j⟩

/-- Body of the loop over columns — gaussian_elimination_f2.hpp:68-80; the state is left alone once `rank < n` fails, as the loop has then ended. -/
def colStep (n j : Nat) (s : St) : M St :=
  if s.rank < n then do
    let A ← forUp (s.rank + 1) n s.A (downStep s.rank j)
    decideCol j A s
  else return s

/-- Lines 81-83: is there a row from `rank` on with `A[i][m]`? -/
def anyRhs (A : Array (Array Bool)) (m : Nat) (i : Nat) (found : Bool) : M Bool :=
  if found then return true
  else bit A i m

/-- Lines 85-87, 91: `v[ones[i]] = A[i][j]` for `i < rank`. -/
def fill (s : St) (j : Nat) (v : Array Bool) : M (Array Bool) :=
  forUp 0 s.rank v fun i v => do
    let c ← rd s.ones i
    let x ← bit s.A i j
    wr v c x

/-- Body of the loop over `zeros` — gaussian_elimination_f2.hpp:89-94. -/
def basisStep (s : St) (m : Nat) (bs : Array (Array Bool)) (j : Nat) : M (Array (Array Bool)) := do
  let base ← fill s j (Array.replicate m false)
  let base ← wr base j true
  return bs.push base

/-- The end of the function — gaussian_elimination_f2.hpp:81-95. -/
def finish (n m : Nat) (s : St) : M SolutionSpace := do
  let bad ← forUp s.rank n false (anyRhs s.A m)
  if bad then return ⟨false, none, #[]⟩
  else do
    let sol ← fill s m (Array.replicate m false)
    let basis ← forEach s.zeros.toList #[] (basisStep s m)
    return ⟨false, some sol, basis⟩

/-- `gaussian_elimination_f2(A, b)` — gaussian_elimination_f2.hpp:61-96. -/
def solve (A : MatrixF2) (b : Array Bool) : M SolutionSpace := do
  check (A.n == b.size)
  let Ab ← forUp 0 A.n A.dat (augment b)
  let s ← forUp 0 A.m ⟨Ab, 0, #[], #[]⟩ (colStep A.n)
  finish A.n A.m s

/-- `v` as a number, the order `operator<` of `DynamicBitSet` compares from the highest index down; used by `add_base`. -/
def less (w v : Array Bool) : Bool := decide (w.toList.reverse < v.toList.reverse)

/-- Body of the loop of `add_base` — gaussian_elimination_f2.hpp:27. -/
def reduceBy (v e : Array Bool) : Array Bool :=
  let w := Array.zipWith (· ^^ ·) e v
  if less w v then w else v

/-- `add_base(v)` — gaussian_elimination_f2.hpp:25-29. -/
def addBase (s : SolutionSpace) (v : Array Bool) : M (Bool × SolutionSpace) := do
  check s.normalized
  let v := s.basis.foldl reduceBy v
  return if v.any id then (true, { s with basis := s.basis.push v }) else (false, s)

/-- `operator+=` — gaussian_elimination_f2.hpp:30-33. -/
def addAll (s t : SolutionSpace) : M SolutionSpace :=
  forEach t.basis.toList s fun s base => do
    let r ← addBase s base
    return r.2

/-- `normalized()` — gaussian_elimination_f2.hpp:16-21. -/
def normalize (s : SolutionSpace) : M SolutionSpace := do
  let res ← addAll ⟨false, s.solution, #[]⟩ s
  return { res with normalized := true }

end GaussF2
