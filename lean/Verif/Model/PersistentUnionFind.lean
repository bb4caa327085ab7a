import Verif.Model.PersistentArray
import Verif.Model.UnionFind

/-!
# Model of `library/datastructure/union_find/persistent_union_find.hpp`

A union-find is the root of its persistent array (`PersistentArray<int, 4>`) in the static pool and the number `n` of vertices.
The values of `_dat` are `Int`; their absolute values never exceed `n`. The function-local `static` buffer of `root` is empty at entry and exit, so a fresh one is used.
-/

namespace PersistentUnionFind
open Cxx PersistentArray

/-- `PersistentUnionFind(int n)` — persistent_union_find.hpp:14. -/
def init (h : Heap Int) (n : Nat) : M (Heap Int × Option Nat) := build 4 h (Array.replicate n (-1))

/-- One round of the first loop of `root` — lines 23-26; the state is `(x, buf)`, the back of `buf` is the head. -/
def climbStep (h : Heap Int) (p : Option Nat) (s : Nat × List Nat) : M (Option (Nat × List Nat)) := do
  let r ← get 4 h p s.1
  if r ≥ 0 then return some (r.toNat, s.1 :: s.2) else return none

/-- `root(x)` — lines 21-29. The number `n` of vertices bounds the iterations of the model. -/
def root (n : Nat) (h : Heap Int) (p : Option Nat) (x : Nat) : M (Heap Int × Nat) := do
  let (x, buf) ← loop (climbStep h p) n (x, [])
  let h ← forEach buf h fun h v => do
    let (h, _) ← mutSet 4 h p v (x : Int)
    return h
  return (h, x)

/-- Lines 38-43 of `merge`, with `x`, `y` different roots. -/
def link (h : Heap Int) (p : Option Nat) (x y : Nat) : M (Heap Int × Option Nat) := do
  let vx ← get 4 h p x
  let vy ← get 4 h p y
  let (x, y, vx, vy) := if vx > vy then (y, x, vy, vx) else (x, y, vx, vy)
  let (h, q) ← set 4 h p x (vx + vy)
  let (h, q) ← set 4 h q y (x : Int)
  return (h, q)

/-- `merge(x, y)` — lines 35-44: the pool, the new union-find, the flag. -/
def merge (n : Nat) (h : Heap Int) (p : Option Nat) (x y : Nat) : M (Heap Int × Option Nat × Bool) := do
  let (h, x) ← root n h p x
  let (h, y) ← root n h p y
  if x = y then return (h, p, false)
  else do
    let (h, q) ← link h p x y
    return (h, q, true)

/-- `same(x, y)` — lines 46-48. -/
def same (n : Nat) (h : Heap Int) (p : Option Nat) (x y : Nat) : M (Heap Int × Bool) := do
  let (h, rx) ← root n h p x
  let (h, ry) ← root n h p y
  return (h, decide (rx = ry))

/-- `size(x)` — lines 50-52. -/
def size (n : Nat) (h : Heap Int) (p : Option Nat) (x : Nat) : M (Heap Int × Int) := do
  let (h, r) ← root n h p x
  let d ← get 4 h p r
  return (h, -d)

/-- `groups()` — lines 54-59. -/
def groups (n : Nat) (h : Heap Int) (p : Option Nat) : M (Heap Int × List (List Nat)) := do
  let (h, res) ← forUp 0 n (h, Array.replicate n ([] : List Nat)) fun i (h, res) => do
    let (h, r) ← root n h p i
    let b ← rd res r
    let res ← wr res r (b ++ [i])
    return (h, res)
  return (h, res.toList.filter (· ≠ []))

/-- One call on one version: the new pool, the resulting version (that of `merge`, otherwise the same), the answer. -/
def call (n : Nat) (h : Heap Int) (p : Option Nat) : UnionFind.Op → M (Heap Int × Option Nat × UnionFind.Out)
  | .root x => do let (h, r) ← root n h p x; return (h, p, .vertex r)
  | .merge x y => do let (h, q, b) ← merge n h p x y; return (h, q, .bool b)
  | .same x y => do let (h, b) ← same n h p x y; return (h, p, .bool b)
  | .size x => do let (h, k) ← size n h p x; return (h, p, .int k)
  | .groups => do let (h, g) ← groups n h p; return (h, p, .groups g)

/-- A call on the newest version only, as in `uf = uf.merge(x, y).first`. -/
def stepLast (n : Nat) (s : Heap Int × Option Nat) (op : UnionFind.Op) : M ((Heap Int × Option Nat) × UnionFind.Out) := do
  let (h, q, o) ← call n s.1 s.2 op
  return ((h, q), o)

/-- A call on any version: every `merge` adds a version. -/
def stepAny (n : Nat) (s : Heap Int × List (Option Nat)) (op : Nat × UnionFind.Op) : M ((Heap Int × List (Option Nat)) × UnionFind.Out) := do
  let (h, q, o) ← call n s.1 (s.2.getD op.1 none) op.2
  return ((h, s.2 ++ [q]), o)

end PersistentUnionFind
