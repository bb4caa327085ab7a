import Verif.Model.UnionFindVariants

/-!
# Model of `library/datastructure/union_find/union_find_lazy.hpp`

The template arguments are a parameter `Fns`. Arguments passed by reference are assumed not to refer to members of the object.
-/

namespace UnionFindLazy
open Cxx

/-- The template arguments — lines 11-18. `mergeSum a b` is the value left in the first (reference) argument, `mapping f v k` the one left
in the second; `moved v` is whatever `std::move` leaves behind (arbitrary). -/
structure Fns (T F : Type) where
  mergeSum : T → T → T
  neg : T → T
  mapping : F → T → Int → T
  comp : F → F → F
  ident : F
  inv : F → F
  moved : T → T

/-- Members: `_dat`, `_link` (inherited), `_val`, `_sum`, `_laz` — lines 77-79. -/
structure State (T F : Type) where
  dat : Array Int
  link : Array Nat
  val : Array T
  sum : Array T
  laz : Array F

variable {T F : Type} (fn : Fns T F)

/-- `UnionFindLazy(const std::vector<T>&)` — line 22. -/
def init (a : Array T) : State T F := ⟨UnionFind.init a.size, Array.range a.size, a, a, Array.replicate a.size fn.ident⟩

/-- `for (int v : comp) mapping(laz, _val[v], 1);` — lines 32-34 and 65-67. -/
def mapAll (laz : F) (comp : List Nat) (val : Array T) : M (Array T) :=
  forEach comp val fun val v => do
    let w ← rd val v
    wr val v (fn.mapping laz w 1)

/-- The rest of `merge` after `UnionFind::merge(x, y)` and the exchange of `x` and `y` — lines 31-39. -/
def absorb (s : State T F) (x y : Nat) : M (State T F) := do
  let lx ← rd s.laz x
  let ly ← rd s.laz y
  let comp ← LinkedUnionFind.connectedComponent s.link y
  let val ← mapAll fn (fn.comp (fn.inv lx) ly) comp s.val
  let sx ← rd s.sum x
  let sy ← rd s.sum y
  let sum ← wr s.sum x (fn.mergeSum sx sy)
  let sum ← wr sum y (fn.moved sy)
  let link ← LinkedUnionFind.swapLink s.link x y
  return ⟨s.dat, link, val, sum, s.laz⟩

/-- `bool merge(int x, int y)` — lines 24-40. -/
def merge (s : State T F) (x y : Nat) : M (State T F × Bool) := do
  let (dat, x) ← UnionFind.root s.dat x
  let (dat, y) ← UnionFind.root dat y
  if x = y then return ({ s with dat := dat }, false)
  let (dat, _) ← UnionFind.merge dat x y
  let (dat, rx) ← UnionFind.root dat x
  let s ← if rx = y then absorb fn { s with dat := dat } y x else absorb fn { s with dat := dat } x y
  return (s, true)

/-- `const T& get_component(int x)` — lines 42-44. -/
def getComponent (s : State T F) (x : Nat) : M (State T F × T) := do
  let (dat, r) ← UnionFind.root s.dat x
  let v ← rd s.sum r
  return ({ s with dat := dat }, v)

/-- `T get_point(int x)` — lines 45-49. -/
def getPoint (s : State T F) (x : Nat) : M (State T F × T) := do
  let v ← rd s.val x
  let (dat, r) ← UnionFind.root s.dat x
  let l ← rd s.laz r
  return ({ s with dat := dat }, fn.mapping l v 1)

/-- `void apply_component(int x, const F& f)` — lines 50-54. -/
def applyComponent (s : State T F) (x : Nat) (f : F) : M (State T F) := do
  let (dat, r) ← UnionFind.root s.dat x
  let (dat, k) ← UnionFind.size dat r
  let v ← rd s.sum r
  let sum ← wr s.sum r (fn.mapping f v k)
  let l ← rd s.laz r
  let laz ← wr s.laz r (fn.comp f l)
  return { s with dat := dat, sum := sum, laz := laz }

/-- `_apply_point(x, f)` — lines 81-89. -/
def applyAt (s : State T F) (x : Nat) (f : T → T) : M (State T F) := do
  let (dat, r) ← UnionFind.root s.dat x
  let (s, v) ← getPoint fn { s with dat := dat } x
  let t ← rd s.sum r
  let sum ← wr s.sum r (fn.mergeSum t (fn.neg v))
  let t ← rd sum r
  let sum ← wr sum r (fn.mergeSum t (f v))
  let l ← rd s.laz r
  let val ← wr s.val x (fn.mapping (fn.inv l) (f v) 1)
  return { s with val := val, sum := sum }

/-- `void apply_point(int x, const F& f)` — lines 55-57. -/
def applyPoint (s : State T F) (x : Nat) (f : F) : M (State T F) := applyAt fn s x fun v => fn.mapping f v 1

/-- `void set_point(int x, const T& new_value)` — lines 58-60. -/
def setPoint (s : State T F) (x : Nat) (t : T) : M (State T F) := applyAt fn s x fun _ => t

/-- `void propagate(int x)` — lines 62-68. -/
def propagate (s : State T F) (x : Nat) : M (State T F) := do
  let (dat, r) ← UnionFind.root s.dat x
  let l ← rd s.laz r
  let laz ← wr s.laz r fn.ident
  let comp ← LinkedUnionFind.connectedComponent s.link r
  let val ← mapAll fn l comp s.val
  return { s with dat := dat, val := val, laz := laz }

/-- `raw_value(int x)` — lines 70-75. -/
def rawValue (s : State T F) (x : Nat) : M T := rd s.val x

/-- The calls a user can make. -/
inductive Op (T F : Type) where
  | merge (x y : Nat)
  | same (x y : Nat)
  | size (x : Nat)
  | component (x : Nat)
  | getComponent (x : Nat)
  | getPoint (x : Nat)
  | applyComponent (x : Nat) (f : F)
  | applyPoint (x : Nat) (f : F)
  | setPoint (x : Nat) (t : T)
  | propagate (x : Nat)

/-- What a call returns. -/
inductive Out (T : Type) where
  | bool (b : Bool) | int (k : Int) | list (l : List Nat) | val (v : T) | unit
  deriving DecidableEq

/-- One call; `same`, `size` and `connected_component` are inherited. -/
def step (s : State T F) : Op T F → M (State T F × Out T)
  | .merge x y => do let (s, b) ← merge fn s x y; return (s, .bool b)
  | .same x y => do let (dat, b) ← UnionFind.same s.dat x y; return ({ s with dat := dat }, .bool b)
  | .size x => do let (dat, k) ← UnionFind.size s.dat x; return ({ s with dat := dat }, .int k)
  | .component x => do let l ← LinkedUnionFind.connectedComponent s.link x; return (s, .list l)
  | .getComponent x => do let (s, v) ← getComponent s x; return (s, .val v)
  | .getPoint x => do let (s, v) ← getPoint fn s x; return (s, .val v)
  | .applyComponent x f => do let s ← applyComponent fn s x f; return (s, .unit)
  | .applyPoint x f => do let s ← applyPoint fn s x f; return (s, .unit)
  | .setPoint x t => do let s ← setPoint fn s x t; return (s, .unit)
  | .propagate x => do let s ← propagate fn s x; return (s, .unit)

end UnionFindLazy
