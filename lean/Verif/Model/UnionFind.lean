import Verif.Cxx

/-!
# Model of `library/datastructure/union_find/union_find.hpp`

The object is its vector `_dat` (`_n` is always `_dat.size()`).  Vertices are `Nat`: a negative `int`
argument would be an out-of-range index at once.  `_dat` holds `int`s, modelled by `Int` (the absolute values
never exceed `n`).
-/

namespace UnionFind
open Cxx

/-- `UnionFind(int _n)` — union_find.hpp:10. -/
def init (n : Nat) : Array Int := Array.replicate n (-1)

/-- One evaluation of the loop head/body `while (_dat[x] >= 0) buf.push_back(x), x = _dat[x];` —
union_find.hpp:14.  The state is `(x, buf)`, the top of `buf` is the head of the list. -/
def climbStep (dat : Array Int) (s : Nat × List Nat) : M (Option (Nat × List Nat)) := do
  let d ← rd dat s.1
  if d ≥ 0 then return some (d.toNat, s.1 :: s.2) else return none

/-- `int root(int x)` — union_find.hpp:12-17: climb to the root remembering the path in `buf`, then let every
vertex of the path point to the root (line 15).  `buf` is `static` in C++ but is empty at entry and exit of each call, so
a fresh one is used.  The bound `dat.size()` on the number of iterations is an artefact of the model. -/
def root (dat : Array Int) (x : Nat) : M (Array Int × Nat) := do
  let (x, buf) ← loop (climbStep dat) dat.size (x, [])
  let dat ← forEach buf dat fun dat v => wr dat v (x : Int)
  return (dat, x)

/-- `bool merge(int x, int y)` — union_find.hpp:23-29. -/
def merge (dat : Array Int) (x y : Nat) : M (Array Int × Bool) := do
  let (dat, x) ← root dat x
  let (dat, y) ← root dat y
  if x = y then return (dat, false)
  let dx ← rd dat x
  let dy ← rd dat y
  let (x, y) := if dx > dy then (y, x) else (x, y)
  let dx ← rd dat x
  let dy ← rd dat y
  let dat ← wr dat x (dx + dy)
  let dat ← wr dat y (x : Int)
  return (dat, true)

/-- `bool same(int x, int y)` — union_find.hpp:31-33 (operands evaluated left to right; C++ leaves the
order open). -/
def same (dat : Array Int) (x y : Nat) : M (Array Int × Bool) := do
  let (dat, rx) ← root dat x
  let (dat, ry) ← root dat y
  return (dat, decide (rx = ry))

/-- `int size(int x)` — union_find.hpp:35-37. -/
def size (dat : Array Int) (x : Nat) : M (Array Int × Int) := do
  let (dat, r) ← root dat x
  let d ← rd dat r
  return (dat, -d)

/-- `groups()` — union_find.hpp:39-44: bucket all vertices by root, drop the empty buckets. -/
def groups (dat : Array Int) : M (Array Int × List (List Nat)) := do
  let n := dat.size
  let (dat, res) ← forUp 0 n (dat, Array.replicate n ([] : List Nat)) fun i (dat, res) => do
    let (dat, r) ← root dat i
    let b ← rd res r
    let res ← wr res r (b ++ [i])
    return (dat, res)
  return (dat, res.toList.filter (· ≠ []))

/-- The calls a user can make. -/
inductive Op where
  | root (x : Nat)
  | merge (x y : Nat)
  | same (x y : Nat)
  | size (x : Nat)
  | groups

/-- What a call returns. -/
inductive Out where
  | vertex (r : Nat)
  | bool (b : Bool)
  | int (k : Int)
  | groups (g : List (List Nat))
  deriving DecidableEq

/-- One call. -/
def step (dat : Array Int) : Op → M (Array Int × Out)
  | .root x => do let (dat, r) ← root dat x; return (dat, .vertex r)
  | .merge x y => do let (dat, b) ← merge dat x y; return (dat, .bool b)
  | .same x y => do let (dat, b) ← same dat x y; return (dat, .bool b)
  | .size x => do let (dat, k) ← size dat x; return (dat, .int k)
  | .groups => do let (dat, g) ← groups dat; return (dat, .groups g)

end UnionFind
