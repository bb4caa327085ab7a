import Verif.Cxx

/-!
# Model of `library/graph/enumerate_triangles.hpp`

The consumer `fun` is modelled by the list of the triples it is called with, in order.
-/

namespace Triangles
open Cxx

/-- The body of the loop of line 27. -/
def countStep (g : Array (List Nat)) (cnt : Array Nat) (i : Nat) : M (Array Nat) := do
  let a ← rd g i
  let c ← rd cnt (a.length + 1)
  wr cnt (a.length + 1) (c + 1)

/-- The body of the loop of line 28. -/
def prefStep (cnt : Array Nat) (i : Nat) : M (Array Nat) := do
  let a ← rd cnt i
  let b ← rd cnt (i + 1)
  wr cnt (i + 1) (b + a)

/-- The body of the loop of line 30: the state is `cnt`, `ord`, `idx`. -/
def rankStep (g : Array (List Nat)) (s : Array Nat × Array Nat × Array Nat) (i : Nat) : M (Array Nat × Array Nat × Array Nat) := do
  let a ← rd g i
  let c ← rd s.1 a.length
  let cnt ← wr s.1 a.length (c + 1)
  let idx ← wr s.2.2 i c
  let ord ← wr s.2.1 c i
  return (cnt, ord, idx)

/-- `std::remove_if` with the lambda of line 31 followed by `erase`. -/
def removeLess (idx : Array Nat) (r : Nat) : List Nat → M (List Nat)
  | [] => return []
  | j :: l => do
    let x ← rd idx j
    let l' ← removeLess idx r l
    return if x < r then l' else j :: l'

/-- The body of the loop of line 31. -/
def filterStep (idx : Array Nat) (g : Array (List Nat)) (i : Nat) : M (Array (List Nat)) := do
  let a ← rd g i
  let r ← rd idx i
  let a' ← removeLess idx r a
  wr g i a'

/-- The innermost body of line 35. -/
def kStep (ex : Array Bool) (i j : Nat) (out : List (Nat × Nat × Nat)) (k : Nat) : M (List (Nat × Nat × Nat)) := do
  let b ← rd ex k
  return if b then out ++ [(i, j, k)] else out

/-- The inner loop of line 35. -/
def jStep (g : Array (List Nat)) (ex : Array Bool) (i : Nat) (out : List (Nat × Nat × Nat)) (j : Nat) : M (List (Nat × Nat × Nat)) := do
  let a ← rd g j
  forEach a out (kStep ex i j)

/-- The body of the loop of lines 33-37: the state is `exists` and the calls made so far. -/
def iStep (g : Array (List Nat)) (s : Array Bool × List (Nat × Nat × Nat)) (i : Nat) : M (Array Bool × List (Nat × Nat × Nat)) := do
  let a ← rd g i
  let ex ← forEach a s.1 fun ex j => wr ex j true
  let out ← forEach a s.2 (jStep g ex i)
  let ex ← forEach a ex fun ex j => wr ex j false
  return (ex, out)

/-- `enumerate_triangles` — lines 24-38. -/
def enumerate (g : Array (List Nat)) : M (List (Nat × Nat × Nat)) := do
  let n := g.size
  let cnt ← forUp 0 n (Array.replicate (n + 1) 0) (fun i cnt => countStep g cnt i)
  let cnt ← forUp 0 n cnt (fun i cnt => prefStep cnt i)
  let s ← forUp 0 n (cnt, Array.replicate n 0, Array.replicate n 0) (fun i s => rankStep g s i)
  let g' ← forUp 0 n g (fun i g => filterStep s.2.2 g i)
  let r ← forEach s.2.1.toList (Array.replicate n false, []) (iStep g')
  return r.2

end Triangles
