import Verif.Cxx

/-!
# Model of `library/util/transpose.hpp` and `library/util/rot90.hpp`

The overloads for vectors of vectors and for vectors of strings have the same bodies; the element type is a parameter here, with the
value-initialised element (`'\0'` for strings) as its default.
-/

namespace Rot90
open Cxx
variable {T : Type} [Inhabited T]

/-- `B[j][i] = A[i][c];` — transpose.hpp:13, rot90.hpp:22. -/
def put (A : Array (Array T)) (i j c : Nat) (B : Array (Array T)) : M (Array (Array T)) := do
  let row ← rd A i
  let x ← rd row c
  let r ← rd B j
  let r ← wr r i x
  wr B j r

/-- `transpose(A)` — transpose.hpp:8-22. -/
def transpose (A : Array (Array T)) : M (Array (Array T)) :=
  if A.size = 0 then return A
  else do
    let row ← rd A 0
    forUp 0 A.size (Array.replicate row.size (Array.replicate A.size default)) fun i B =>
      forUp 0 row.size B fun j B => put A i j j B

/-- `rot90(A)` — rot90.hpp:17-31. -/
def rot90 (A : Array (Array T)) : M (Array (Array T)) :=
  if A.size = 0 then return A
  else do
    let row ← rd A 0
    forUp 0 A.size (Array.replicate row.size (Array.replicate A.size default)) fun i B =>
      forUp 0 row.size B fun j B => put A i j (row.size - j - 1) B

end Rot90
