import Verif.Cxx

/-!
# Model of `library/number/stern_brocot_tree.hpp`

`B` bounds the signed type `Int` (`2^31` or `2^63`); a result outside `[-B, B)` is undefined. `W` is the modulus of `LInt` (`2^64` or `2^128`).
`auxiliary_tree` is not modelled. `Left` is `false`, `Right` is `true`.
-/

namespace SBT
open Cxx

/-- Result of an operation of type `Int` with exact value `x`. -/
def fit (B x : Int) : M Int := if -B ≤ x ∧ x < B then .ok x else .error .ub

/-- `sbt_node` — stern_brocot_tree.hpp:14-19, 224-226. -/
structure Node where
  l : Int × Int
  r : Int × Int
  dep : Int
  path : List (Bool × Int)
  deriving DecidableEq

/-- `sbt_node()` — stern_brocot_tree.hpp:22, 224-226. -/
def root : Node := ⟨(0, 1), (1, 0), 0, []⟩

/-- `x += y * k` for a bound: both components — stern_brocot_tree.hpp:121, 123. -/
def addMul (B : Int) (x y : Int × Int) (k : Int) : M (Int × Int) := do
  let a ← fit B (y.1 * k)
  let a ← fit B (x.1 + a)
  let b ← fit B (y.2 * k)
  let b ← fit B (x.2 + b)
  return (a, b)

/-- `x -= y * k` for a bound — stern_brocot_tree.hpp:96, 98. -/
def subMul (B : Int) (x y : Int × Int) (k : Int) : M (Int × Int) := do
  let a ← fit B (y.1 * k)
  let a ← fit B (x.1 - a)
  let b ← fit B (y.2 * k)
  let b ← fit B (x.2 - b)
  return (a, b)

/-- Lines 114-118: extend the last run or start a new one. -/
def extend (B : Int) (path : List (Bool × Int)) (dir : Bool) (k : Int) : M (List (Bool × Int)) :=
  match path.getLast? with
  | some (d, c) =>
    if d = dir then do
      let c ← fit B (c + k)
      return path.dropLast ++ [(d, c)]
    else return path ++ [(dir, k)]
  | none => return path ++ [(dir, k)]

/-- Lines 120-124. -/
def descend (B : Int) (s : Node) (dir : Bool) (k : Int) : M ((Int × Int) × (Int × Int)) :=
  if dir = false then do
    let r ← addMul B s.r s.l k
    return (s.l, r)
  else do
    let l ← addMul B s.l s.r k
    return (l, s.r)

/-- `move_down(dir, k)` — stern_brocot_tree.hpp:111-125. -/
def moveDown (B : Int) (s : Node) (dir : Bool) (k : Int) : M Node := do
  check (decide (0 ≤ k))
  if k = 0 then return s
  else do
    let path ← extend B s.path dir k
    let dep ← fit B (s.dep + k)
    let lr ← descend B s dir k
    return ⟨lr.1, lr.2, dep, path⟩

/-- The loop state of the constructor: `a`, `b`, `dir` and the node. -/
structure Cf where
  a : Int
  b : Int
  dir : Bool
  s : Node

/-- Body of the loop of the constructor — stern_brocot_tree.hpp:29-35. -/
def cfStep (B : Int) (c : Cf) : M (Option Cf) :=
  if c.b ≠ 0 then do
    let q := c.a / c.b
    let r := c.a % c.b
    let s ← moveDown B c.s c.dir (q - if r = 0 then 1 else 0)
    return some ⟨c.b, r, !c.dir, s⟩
  else return none

/-- `sbt_node(a, b)` — stern_brocot_tree.hpp:24-36; the loop runs as for Euclid's algorithm, at most `a + b + 1` times. -/
def make (B : Int) (a b : Int) : M Node := do
  check (decide (a > 0) && decide (b > 0))
  let c ← loop (cfStep B) (a + b + 1).toNat (if a < b then ⟨b, a, false, root⟩ else ⟨a, b, true, root⟩)
  return c.s

/-- `sbt_node(path)` — stern_brocot_tree.hpp:39-41. -/
def ofPath (B : Int) (path : List (Bool × Int)) : M Node := forEach path root fun s r => moveDown B s r.1 r.2

/-- `operator rational`, `get()` — stern_brocot_tree.hpp:43-45. -/
def get (B : Int) (s : Node) : M (Int × Int) := do
  let a ← fit B (s.l.1 + s.r.1)
  let b ← fit B (s.l.2 + s.r.2)
  return (a, b)

/-- `range()` — stern_brocot_tree.hpp:47. -/
def range (s : Node) : (Int × Int) × (Int × Int) := (s.l, s.r)

/-- The loop of `lca` over the two paths — stern_brocot_tree.hpp:58-68. -/
def lcaLoop (B : Int) : List (Bool × Int) → List (Bool × Int) → Node → M Node
  | x :: pa, y :: pb, c =>
    if x = y then do
      let c ← moveDown B c x.1 x.2
      lcaLoop B pa pb c
    else if x.1 = y.1 then moveDown B c x.1 (min x.2 y.2)
    else return c
  | _, _, c => return c

/-- `lca(a, b)` — stern_brocot_tree.hpp:54-72. -/
def lca (B : Int) (a b : Node) : M Node := lcaLoop B a.path b.path root

/-- `dist(a, b)` — stern_brocot_tree.hpp:75-80. -/
def dist (B : Int) (a b : Node) : M Int := do
  let c ← lca B a b
  let x ← fit B (a.dep - c.dep)
  let y ← fit B (b.dep - c.dep)
  fit B (x + y)

/-- `less(a, b)` — stern_brocot_tree.hpp:228-231. -/
def less (W : Int) (a b : Int × Int) : Bool := decide (a.1 * b.2 % W < b.1 * a.2 % W)

/-- `is_ancestor_of(a)` — stern_brocot_tree.hpp:83. -/
def isAncestorOf (B W : Int) (s a : Node) : M Bool := do
  let v ← get B a
  return less W s.l v && less W v s.r

/-- `is_descendant_of(a)` — stern_brocot_tree.hpp:85. -/
def isDescendantOf (B W : Int) (s a : Node) : M Bool := isAncestorOf B W a s

/-- The update of the bounds in `move_up` — stern_brocot_tree.hpp:95-99. -/
def ascend (B : Int) (s : Node) (dir : Bool) (u : Int) : M ((Int × Int) × (Int × Int)) :=
  if dir = false then do
    let r ← subMul B s.r s.l u
    return (s.l, r)
  else do
    let l ← subMul B s.l s.r u
    return (l, s.r)

/-- Lines 91-101 for the last run `(dir, first)`; gives the remaining `k` and the node. -/
def upRun (B : Int) (k : Int) (s : Node) (dir : Bool) (first : Int) : M (Int × Node) := do
  let u := min k first
  let k ← fit B (k - u)
  let dep ← fit B (s.dep - u)
  let lr ← ascend B s dir u
  let first ← fit B (first - u)
  return (k, ⟨lr.1, lr.2, dep, if first = 0 then s.path.dropLast else s.path.dropLast ++ [(dir, first)]⟩)

/-- Body of the loop of `move_up` — stern_brocot_tree.hpp:90-102. -/
def upStep (B : Int) (c : Int × Node) : M (Option (Int × Node)) :=
  if c.1 ≠ 0 then
    match c.2.path.getLast? with
    | none => .error .ub
    | some (dir, first) => do
      let c ← upRun B c.1 c.2 dir first
      return some c
  else return none

/-- `move_up(k)` — stern_brocot_tree.hpp:88-104. -/
def moveUp (B : Int) (s : Node) (k : Int) : M (Bool × Node) :=
  if k < 0 ∨ k > s.dep then return (false, s)
  else do
    let c ← loop (upStep B) (s.path.length + 1) (k, s)
    return (true, c.2)

/-- `move_to(dst, k)` — stern_brocot_tree.hpp:128-135. -/
def moveTo (B : Int) (s dst : Node) (k : Int) : M (Bool × Node) := do
  let a ← lca B s dst
  let d1 ← fit B (s.dep - a.dep)
  let d2 ← fit B (dst.dep - a.dep)
  if k ≤ d1 then moveUp B s k
  else do
    let e ← fit B (k - d1)
    if e > d2 then return (false, s)
    else do
      let f ← fit B (d2 - e)
      moveUp B dst f

/-- `operator==` — stern_brocot_tree.hpp:137. -/
def eq (a b : Node) : Bool := a.l == b.l && a.r == b.r

/-- `operator<` — stern_brocot_tree.hpp:139. -/
def lt (B W : Int) (a b : Node) : M Bool := do
  let x ← get B a
  let y ← get B b
  return less W x y

/-- `a < b ? -1 : +1` — stern_brocot_tree.hpp:146, 152, 158. -/
def bySize (B W : Int) (a b : Node) : M Int := do
  let c ← lt B W a b
  return if c then -1 else 1

/-- `compare_in_order(a, b)` — stern_brocot_tree.hpp:144-147. -/
def compareInOrder (B W : Int) (a b : Node) : M Int :=
  if eq a b then return 0 else bySize B W a b

/-- Lines 151-152, 157-158, with the result for an ancestor. -/
def compareSecond (B W : Int) (a b : Node) (res : Int) : M Int := do
  let y ← isAncestorOf B W b a
  if y then return res else bySize B W a b

/-- Lines 149-152, 155-158. -/
def compareWith (B W : Int) (a b : Node) (res : Int) : M Int :=
  if eq a b then return 0
  else do
    let x ← isAncestorOf B W a b
    if x then return -res else compareSecond B W a b res

/-- `compare_pre_order(a, b)` — stern_brocot_tree.hpp:148-153. -/
def comparePreOrder (B W : Int) (a b : Node) : M Int := compareWith B W a b 1

/-- `compare_post_order(a, b)` — stern_brocot_tree.hpp:154-159. -/
def comparePostOrder (B W : Int) (a b : Node) : M Int := compareWith B W a b (-1)

end SBT
