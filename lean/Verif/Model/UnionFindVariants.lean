import Verif.Model.UnionFind
import Verif.Model.UndoUnionFind

/-!
# Models of `union_find_component_sum.hpp`, `undo_union_find_component_sum.hpp` and `linked_union_find.hpp`
-/

namespace UnionFindComponentSum
open Cxx

/-- Members: `_dat` (from `UnionFind`) and `_sum` — union_find_component_sum.hpp:26. -/
structure State (T : Type) where
  dat : Array Int
  sum : Array T

variable {T : Type} (mergeData : T → T → T) (moved : T → T)

/-- `UnionFindComponentSum(const std::vector<T>&)` — union_find_component_sum.hpp:11. -/
def init (a : Array T) : State T := ⟨UnionFind.init a.size, a⟩

/-- `bool merge(int x, int y)` — union_find_component_sum.hpp:13-21.  `mergeData p c` is the value left in the first
(reference) argument; `moved v` is whatever is left in a moved-from `v` (arbitrary). -/
def merge (s : State T) (x y : Nat) : M (State T × Bool) := do
  let (dat, x) ← UnionFind.root s.dat x
  let (dat, y) ← UnionFind.root dat y
  let (dat, res) ← UnionFind.merge dat x y
  if res then
    let (dat, rx) ← UnionFind.root dat x
    let (x, y) := if rx = y then (y, x) else (x, y)
    let sx ← rd s.sum x
    let sy ← rd s.sum y
    let sum ← wr s.sum x (mergeData sx sy)
    let sum ← wr sum y (moved sy)
    return (⟨dat, sum⟩, res)
  return (⟨dat, s.sum⟩, res)

/-- `const T& sum(int x)` — union_find_component_sum.hpp:22-24. -/
def sum (s : State T) (x : Nat) : M (State T × T) := do
  let (dat, r) ← UnionFind.root s.dat x
  let v ← rd s.sum r
  return (⟨dat, s.sum⟩, v)

/-- The calls a user can make. -/
inductive Op where
  | merge (x y : Nat) | same (x y : Nat) | size (x : Nat) | sum (x : Nat)

/-- What a call returns. -/
inductive Out (T : Type) where
  | bool (b : Bool) | int (k : Int) | val (v : T)
  deriving DecidableEq

/-- One call; `same` and `size` are inherited from `UnionFind`. -/
def step (s : State T) : Op → M (State T × Out T)
  | .merge x y => do let (s, b) ← merge mergeData moved s x y; return (s, .bool b)
  | .same x y => do let (dat, b) ← UnionFind.same s.dat x y; return (⟨dat, s.sum⟩, .bool b)
  | .size x => do let (dat, k) ← UnionFind.size s.dat x; return (⟨dat, s.sum⟩, .int k)
  | .sum x => do let (s, v) ← sum s x; return (s, .val v)

end UnionFindComponentSum

namespace UndoUnionFindComponentSum
open Cxx

/-- Members: those of `UndoUnionFind` and `_sum` — undo_union_find_component_sum.hpp:41. -/
structure State (T : Type) where
  base : UndoUnionFind.State
  sum : Array T

variable {T : Type} (mergeData : T → T → T) (undoData : T → T)

/-- `UndoUnionFindComponentSum(const std::vector<T>&)` — undo_union_find_component_sum.hpp:11. -/
def init (a : Array T) : State T := ⟨UndoUnionFind.init a.size, a⟩

/-- `bool merge(int x, int y)` — undo_union_find_component_sum.hpp:13-21. -/
def merge (s : State T) (x y : Nat) : M (State T × Bool) := do
  let x ← UndoUnionFind.root s.base.dat x
  let y ← UndoUnionFind.root s.base.dat y
  if x = y then return (s, false)
  let dx ← rd s.base.dat x
  let dy ← rd s.base.dat y
  let (x, y) := if dx > dy then (y, x) else (x, y)
  let dx ← rd s.base.dat x
  let dy ← rd s.base.dat y
  let dat ← wr s.base.dat x (dx + dy)
  let hist := (x, dx) :: s.base.hist
  let dy ← rd dat y
  let dat ← wr dat y (x : Int)
  let hist := (y, dy) :: hist
  let sx ← rd s.sum x
  let sy ← rd s.sum y
  let sum ← wr s.sum x (mergeData sx sy)
  return (⟨⟨dat, hist⟩, sum⟩, true)

/-- `void snapshot()` — undo_union_find_component_sum.hpp:22-24. -/
def snapshot (s : State T) : State T := ⟨⟨s.base.dat, []⟩, s.sum⟩

/-- `void undo()` — undo_union_find_component_sum.hpp:25-30. -/
def undo (s : State T) : M (State T) := do
  check (!s.base.hist.isEmpty)
  let b ← UndoUnionFind.restore s.base
  match b.hist with
  | [] => .error .ub
  | (i, _) :: _ => do
    let v ← rd s.sum i
    let sum ← wr s.sum i (undoData v)
    let b ← UndoUnionFind.restore b
    return ⟨b, sum⟩

/-- `void rollback()` — undo_union_find_component_sum.hpp:31-33. -/
def rollback (s : State T) : M (State T) :=
  loop (fun s => if s.base.hist.isEmpty then return none else do let s ← undo undoData s; return some s)
    s.base.hist.length s

/-- `const T& sum(int x) const` — undo_union_find_component_sum.hpp:34-36. -/
def sum (s : State T) (x : Nat) : M T := do rd s.sum (← UndoUnionFind.root s.base.dat x)

/-- The calls a user can make. -/
inductive Op where
  | merge (x y : Nat) | same (x y : Nat) | size (x : Nat) | sum (x : Nat) | snapshot | undo | rollback

/-- What a call returns. -/
inductive Out (T : Type) where
  | bool (b : Bool) | int (k : Int) | val (v : T) | unit
  deriving DecidableEq

/-- One call; `same` and `size` are inherited from `UndoUnionFind`. -/
def step (s : State T) : Op → M (State T × Out T)
  | .merge x y => do let (s, b) ← merge mergeData s x y; return (s, .bool b)
  | .same x y => do let b ← UndoUnionFind.same s.base x y; return (s, .bool b)
  | .size x => do let k ← UndoUnionFind.size s.base x; return (s, .int k)
  | .sum x => do let v ← sum s x; return (s, .val v)
  | .snapshot => return (snapshot s, .unit)
  | .undo => do let s ← undo undoData s; return (s, .unit)
  | .rollback => do let s ← rollback undoData s; return (s, .unit)

end UndoUnionFindComponentSum

namespace LinkedUnionFind
open Cxx

/-- Members: `_dat` (from `UnionFind`) and `_link` — linked_union_find.hpp:28. -/
structure State where
  dat : Array Int
  link : Array Nat

/-- `LinkedUnionFind(int n)` — linked_union_find.hpp:10-12. -/
def init (n : Nat) : State := ⟨UnionFind.init n, Array.range n⟩

/-- `std::swap(_link[x], _link[y])` — linked_union_find.hpp:16. -/
def swapLink (link : Array Nat) (x y : Nat) : M (Array Nat) := do
  let a ← rd link x
  let b ← rd link y
  let link ← wr link x b
  wr link y a

/-- `bool merge(int x, int y)` — linked_union_find.hpp:14-20. -/
def merge (s : State) (x y : Nat) : M (State × Bool) := do
  let (dat, b) ← UnionFind.merge s.dat x y
  if b then
    let link ← swapLink s.link x y
    return (⟨dat, link⟩, true)
  return (⟨dat, s.link⟩, false)

/-- One evaluation of the loop head/body `for (...; y != x; y = _link[y]) comp.push_back(y);` —
linked_union_find.hpp:24. -/
def compStep (link : Array Nat) (x : Nat) (s : Nat × List Nat) : M (Option (Nat × List Nat)) :=
  if s.1 = x then return none else do
    let z ← rd link s.1
    return some (z, s.2 ++ [s.1])

/-- `std::vector<int> connected_component(int x) const` — linked_union_find.hpp:22-26: follow the links
from `x` until `x` is met again. The bound on the iterations is an artefact of the model. -/
def connectedComponent (link : Array Nat) (x : Nat) : M (List Nat) := do
  let y ← rd link x
  let (_, comp) ← loop (compStep link x) link.size (y, [x])
  return comp

/-- The calls a user can make. -/
inductive Op where
  | merge (x y : Nat) | same (x y : Nat) | size (x : Nat) | component (x : Nat)

/-- What a call returns. -/
inductive Out where
  | bool (b : Bool) | int (k : Int) | list (l : List Nat)
  deriving DecidableEq

/-- One call; `same` and `size` are inherited from `UnionFind`. -/
def step (s : State) : Op → M (State × Out)
  | .merge x y => do let (s, b) ← merge s x y; return (s, .bool b)
  | .same x y => do let (dat, b) ← UnionFind.same s.dat x y; return (⟨dat, s.link⟩, .bool b)
  | .size x => do let (dat, k) ← UnionFind.size s.dat x; return (⟨dat, s.link⟩, .int k)
  | .component x => do let l ← connectedComponent s.link x; return (s, .list l)

end LinkedUnionFind
