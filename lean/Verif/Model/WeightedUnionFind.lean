import Verif.Cxx

/-!
# Model of `library/datastructure/union_find/weighted_union_find.hpp`

`op`, `e`, `neg` are the template parameters.  Vertices are `Nat` (a negative `int` would be out of range at once).
-/

namespace WeightedUnionFind
open Cxx

/-- Members `par`, `siz`, `value` — weighted_union_find.hpp:76-78 (`n` is `par.size()`). -/
structure State (T : Type) where
  par : Array Nat
  siz : Array Nat
  value : Array T

variable {T : Type} (op : T → T → T) (e : T) (neg : T → T)

/-- `WeightedUnionFind(int n)` — weighted_union_find.hpp:18-20. -/
def init (n : Nat) : State T := ⟨Array.range n, Array.replicate n 1, Array.replicate n e⟩

/-- One evaluation of the loop head/body of `root` — weighted_union_find.hpp:23-27: path halving. -/
def rootStep (s : State T × Nat) : M (Option (State T × Nat)) := do
  let (s, x) := s
  let p ← rd s.par x
  if p = x then return none
  let vp ← rd s.value p
  let vx ← rd s.value x
  let value ← wr s.value x (op vp vx)
  let pp ← rd s.par p
  let par ← wr s.par x pp
  return some (⟨par, s.siz, value⟩, pp)

/-- `int root(int x)` — weighted_union_find.hpp:22-29. The iteration bound `n` is an artefact of the model. -/
def root (s : State T) (x : Nat) : M (State T × Nat) := loop (rootStep op) s.par.size (s, x)

/-- One evaluation of the loop head/body of `weight` — weighted_union_find.hpp:82-87. -/
def weightStep (s : State T × Nat × T) : M (Option (State T × Nat × T)) := do
  let (s, x, res) := s
  let p ← rd s.par x
  if p = x then return none
  let vp ← rd s.value p
  let vx ← rd s.value x
  let value ← wr s.value x (op vp vx)
  let v ← rd value x
  let pp ← rd s.par p
  let par ← wr s.par x pp
  return some (⟨par, s.siz, value⟩, pp, op v res)

/-- `T weight(int x)` — weighted_union_find.hpp:80-89. -/
def weight (s : State T) (x : Nat) : M (State T × T) := do
  let (s, _, res) ← loop (weightStep op) s.par.size (s, x, e)
  return (s, res)

/-- `bool merge(int x, int y, const T& d)` — weighted_union_find.hpp:35-54. -/
def merge (s : State T) (x y : Nat) (d : T) : M (State T × Bool) := do
  let (s, wx) ← weight op e s x
  let (s, wy) ← weight op e s y
  let r := op (op wx d) (neg wy)
  let (s, x) ← root op s x
  let (s, y) ← root op s y
  if x = y then return (s, false)
  let sx ← rd s.siz x
  let sy ← rd s.siz y
  let (x, y, r) := if sx < sy then (y, x, neg r) else (x, y, r)
  let sx ← rd s.siz x
  let sy ← rd s.siz y
  let siz ← wr s.siz x (sx + sy)
  let par ← wr s.par y x
  let value ← wr s.value y r
  return (⟨par, siz, value⟩, true)

/-- `bool same(int x, int y)` — weighted_union_find.hpp:61-63. -/
def same (s : State T) (x y : Nat) : M (State T × Bool) := do
  let (s, x) ← root op s x
  let (s, y) ← root op s y
  return (s, decide (x = y))

/-- `T diff(int x, int y)` — weighted_union_find.hpp:56-59. -/
def diff (s : State T) (x y : Nat) : M (State T × T) := do
  let (s, b) ← same op s x y
  check b
  let (s, wx) ← weight op e s x
  let (s, wy) ← weight op e s y
  return (s, op (neg wx) wy)

/-- `int size(int x)` — weighted_union_find.hpp:65-67. -/
def size (s : State T) (x : Nat) : M (State T × Nat) := do
  let (s, r) ← root op s x
  let k ← rd s.siz r
  return (s, k)

/-- Loop body of `groups` — weighted_union_find.hpp:71. -/
def groupStep (i : Nat) (s : State T × Array (List Nat)) : M (State T × Array (List Nat)) := do
  let (t, r) ← root op s.1 i
  let b ← rd s.2 r
  let res ← wr s.2 r (b ++ [i])
  return (t, res)

/-- `groups()` — weighted_union_find.hpp:69-74. -/
def groups (s : State T) : M (State T × List (List Nat)) := do
  let n := s.par.size
  let (s, res) ← forUp 0 n (s, Array.replicate n ([] : List Nat)) (groupStep op)
  return (s, res.toList.filter (· ≠ []))

/-- The calls a user can make. -/
inductive Op (T : Type) where
  | root (x : Nat) | merge (x y : Nat) (d : T) | diff (x y : Nat) | same (x y : Nat) | size (x : Nat) | groups

/-- What a call returns. -/
inductive Out (T : Type) where
  | vertex (r : Nat) | bool (b : Bool) | nat (k : Nat) | val (v : T) | groups (g : List (List Nat))
  deriving DecidableEq

/-- One call. -/
def step (s : State T) : Op T → M (State T × Out T)
  | .root x => do let (s, r) ← root op s x; return (s, .vertex r)
  | .merge x y d => do let (s, b) ← merge op e neg s x y d; return (s, .bool b)
  | .diff x y => do let (s, v) ← diff op e neg s x y; return (s, .val v)
  | .same x y => do let (s, b) ← same op s x y; return (s, .bool b)
  | .size x => do let (s, k) ← size op s x; return (s, .nat k)
  | .groups => do let (s, g) ← groups op s; return (s, .groups g)

end WeightedUnionFind
