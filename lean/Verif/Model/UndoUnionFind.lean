import Verif.Model.UnionFind

/-!
# Model of `union_find/undo_union_find.hpp` and `union_find/undo_union_find_component_sum.hpp`
-/

namespace UndoUnionFind
open Cxx

/-- Members of `UndoUnionFind` — undo_union_find.hpp:53-55 (`_n` is `dat.size`); the head of `hist` is
`_history.back()`. -/
structure State where
  dat : Array Int
  hist : List (Nat × Int)
  deriving DecidableEq

/-- `UndoUnionFind(int n)` — undo_union_find.hpp:12. -/
def init (n : Nat) : State := ⟨Array.replicate n (-1), []⟩

/-- `int root(int x) const` — undo_union_find.hpp:14-17.  The tail recursion is the loop
`while (_dat[x] >= 0) x = _dat[x]` with the assertion of line 15 in each round. -/
def root (dat : Array Int) (x : Nat) : M Nat :=
  loop (fun x => do
    check (decide (x < dat.size))
    let d ← rd dat x
    if d < 0 then return none else return some d.toNat) dat.size x

/-- `bool merge(int x, int y)` — undo_union_find.hpp:21-28. -/
def merge (s : State) (x y : Nat) : M (State × Bool) := do
  let x ← root s.dat x
  let y ← root s.dat y
  if x = y then return (s, false)
  let dx ← rd s.dat x
  let dy ← rd s.dat y
  let (x, y) := if dx > dy then (y, x) else (x, y)
  let dx ← rd s.dat x
  let dy ← rd s.dat y
  let dat ← wr s.dat x (dx + dy)
  let hist := (x, dx) :: s.hist
  let dy ← rd dat y
  let dat ← wr dat y (x : Int)
  let hist := (y, dy) :: hist
  return (⟨dat, hist⟩, true)

/-- `bool same(int x, int y) const` — undo_union_find.hpp:29-31. -/
def same (s : State) (x y : Nat) : M Bool := do
  let rx ← root s.dat x
  let ry ← root s.dat y
  return decide (rx = ry)

/-- `int size(int x) const` — undo_union_find.hpp:32-34. -/
def size (s : State) (x : Nat) : M Int := do
  let d ← rd s.dat (← root s.dat x)
  return -d

/-- `groups() const` — undo_union_find.hpp:35-40. -/
def groups (s : State) : M (List (List Nat)) := do
  let n := s.dat.size
  let res ← forUp 0 n (Array.replicate n ([] : List Nat)) fun i res => do
    let r ← root s.dat i
    let b ← rd res r
    wr res r (b ++ [i])
  return res.toList.filter (· ≠ [])

/-- `void snapshot()` — undo_union_find.hpp:41-43. -/
def snapshot (s : State) : State := ⟨s.dat, []⟩

/-- One statement `_dat[_history.back().first] = _history.back().second, _history.pop_back();` — lines 46, 47;
`back()` of an empty vector is undefined. -/
def restore (s : State) : M State :=
  match s.hist with
  | [] => .error .ub
  | (i, v) :: h => do
    let dat ← wr s.dat i v
    return ⟨dat, h⟩

/-- `void undo()` — undo_union_find.hpp:44-48. -/
def undo (s : State) : M State := do
  check (!s.hist.isEmpty)
  let s ← restore s
  restore s

/-- `void rollback()` — undo_union_find.hpp:49-51. -/
def rollback (s : State) : M State :=
  loop (fun s => if s.hist.isEmpty then return none else do let s ← undo s; return some s) s.hist.length s

/-- The calls a user can make. -/
inductive Op where
  | root (x : Nat) | merge (x y : Nat) | same (x y : Nat) | size (x : Nat) | groups
  | snapshot | undo | rollback

/-- What a call returns. -/
inductive Out where
  | vertex (r : Nat) | bool (b : Bool) | int (k : Int) | groups (g : List (List Nat)) | unit
  deriving DecidableEq

/-- One call. -/
def step (s : State) : Op → M (State × Out)
  | .root x => do let r ← root s.dat x; return (s, .vertex r)
  | .merge x y => do let (s, b) ← merge s x y; return (s, .bool b)
  | .same x y => do let b ← same s x y; return (s, .bool b)
  | .size x => do let k ← size s x; return (s, .int k)
  | .groups => do let g ← groups s; return (s, .groups g)
  | .snapshot => return (snapshot s, .unit)
  | .undo => do let s ← undo s; return (s, .unit)
  | .rollback => do let s ← rollback s; return (s, .unit)

end UndoUnionFind
