import Verif.Cxx

/-!
# Model of `library/datastructure/segment_tree/sparse_lazy_segment_tree.hpp`

Positions inside of the tree are natural numbers; `max` is the largest value of `IndexType`, a signed integer type, and the sum of two positions beyond it is undefined. `pool_index_type` has 32 bits. `reserve` has no observable effect. A copy of an object copies `n` and `root`. The two calls of `query` inside of `query` are made from left to right; in C++ the order is not specified.
-/

namespace SparseLazySegmentTree
open Cxx

variable {T F : Type}

/-- Template parameters — sparse_lazy_segment_tree.hpp:9-19. -/
structure Prm (T F : Type) where
  max : Nat
  op : T → T → T
  e : T
  map : F → T → Nat → Nat → T
  comp : F → F → F
  id : F
  init : Nat → Nat → T

/-- `Node` — sparse_lazy_segment_tree.hpp:27-32. -/
structure Node (T F : Type) where
  c0 : Nat
  c1 : Nat
  dat : T
  laz : F

/-- `ch[b]`. -/
def Node.ch (x : Node T F) (b : Bool) : Nat := if b then x.c1 else x.c0

/-- Assignment to `ch[b]`. -/
def Node.setCh (x : Node T F) (b : Bool) (c : Nat) : Node T F := if b then { x with c1 := c } else { x with c0 := c }

/-- The pool. -/
abbrev Pool (T F : Type) := Array (Node T F)

/-- The pool at the start — sparse_lazy_segment_tree.hpp:34. -/
def pool0 (P : Prm T F) : Pool T F := #[⟨0, 0, P.e, P.id⟩]

/-- Members — sparse_lazy_segment_tree.hpp:101-102. -/
structure Obj where
  n : Nat
  root : Nat

/-- `new_node` — sparse_lazy_segment_tree.hpp:36-39. -/
def newNode (P : Prm T F) (h : Pool T F) (dat : T) : Pool T F × Nat := (h.push ⟨0, 0, dat, P.id⟩, h.size % 2 ^ 32)

/-- Constructors — sparse_lazy_segment_tree.hpp:41-42. -/
def make (P : Prm T F) (h : Pool T F) (n : Nat) : Pool T F × Obj :=
  let (h, r) := newNode P h (P.init 0 n)
  (h, ⟨n, r⟩)

/-- `(l + r) >> 1`. -/
def mid (P : Prm T F) (l r : Nat) : M Nat := if l + r ≤ P.max then return (l + r) / 2 else .error .ub

/-- The loop of `get` — sparse_lazy_segment_tree.hpp:52-57. -/
def getLoop (P : Prm T F) (h : Pool T F) (i : Nat) : Nat → F → Nat → Nat → Nat → M (F × Nat)
  | 0, _, _, _, _ => .error .diverge
  | k + 1, f, cur, l, r => do
    if cur ≠ 0 ∧ r - l > 1 then
      let m ← mid P l r
      let x ← rd h cur
      let f := P.comp f x.laz
      if i ≥ m then getLoop P h i k f x.c1 m r else getLoop P h i k f x.c0 l m
    else return (f, cur)

/-- `get` — sparse_lazy_segment_tree.hpp:48-59. -/
def get (P : Prm T F) (h : Pool T F) (o : Obj) (i : Int) : M T := do
  check (decide (0 ≤ i ∧ i < o.n))
  let (f, cur) ← getLoop P h i.toNat (o.n + 1) P.id o.root 0 o.n
  let v ← (if cur ≠ 0 then do
      let x ← rd h cur
      return x.dat
    else return P.init i.toNat (i.toNat + 1) : M T)
  return P.map f v i.toNat (i.toNat + 1)

/-- `get_or_create_child` — sparse_lazy_segment_tree.hpp:104-108. -/
def child (P : Prm T F) (h : Pool T F) (node : Nat) (b : Bool) (tl tr : Nat) : M (Pool T F × Nat) := do
  let x ← rd h node
  if x.ch b ≠ 0 then return (h, x.ch b)
  let (h, c) := newNode P h (P.init tl tr)
  let x ← rd h node
  let h ← wr h node (x.setCh b c)
  return (h, c)

/-- `apply_all(node, f, tl, tr)` — sparse_lazy_segment_tree.hpp:110-113. -/
def applyNode (P : Prm T F) (h : Pool T F) (node : Nat) (f : F) (tl tr : Nat) : M (Pool T F) := do
  let x ← rd h node
  wr h node { x with dat := P.map f x.dat tl tr, laz := P.comp f x.laz }

/-- `push` — sparse_lazy_segment_tree.hpp:114-120. -/
def push (P : Prm T F) (h : Pool T F) (node tl tr : Nat) : M (Pool T F) := do
  let m ← mid P tl tr
  let x ← rd h node
  let laz := x.laz
  let (h, c) ← child P h node false tl m
  let h ← applyNode P h c laz tl m
  let (h, c) ← child P h node true m tr
  let h ← applyNode P h c laz m tr
  let x ← rd h node
  wr h node { x with laz := P.id }

/-- `update` — sparse_lazy_segment_tree.hpp:122-125. -/
def update (P : Prm T F) (h : Pool T F) (node : Nat) : M (Pool T F) := do
  let x ← rd h node
  let a ← rd h x.c0
  let b ← rd h x.c1
  wr h node { x with dat := P.op a.dat b.dat }

/-- The first loop of `apply_fun` — sparse_lazy_segment_tree.hpp:65-71; `path` has the last node first. -/
def down (P : Prm T F) (i : Nat) : Nat → Pool T F → List Nat → Nat → Nat → Nat → M (Pool T F × List Nat × Nat)
  | 0, _, _, _, _, _ => .error .diverge
  | k + 1, h, path, cur, l, r => do
    if r - l > 1 then
      let m ← mid P l r
      let h ← push P h cur l r
      let x ← rd h cur
      if i ≥ m then down P i k h (cur :: path) x.c1 m r else down P i k h (cur :: path) x.c0 l m
    else return (h, path, cur)

/-- `apply_fun` — sparse_lazy_segment_tree.hpp:60-74. -/
def applyFun (P : Prm T F) (h : Pool T F) (o : Obj) (i : Int) (f : T → T) : M (Pool T F) := do
  check (decide (0 ≤ i ∧ i < o.n))
  let (h, path, cur) ← down P i.toNat (o.n + 1) h [] o.root 0 o.n
  let x ← rd h cur
  let h ← wr h cur { x with dat := f x.dat }
  forEach path h fun h q => update P h q

/-- `set` — sparse_lazy_segment_tree.hpp:75-77. -/
def set (P : Prm T F) (h : Pool T F) (o : Obj) (i : Int) (v : T) : M (Pool T F) := applyFun P h o i fun _ => v

/-- `apply(i, f)` — sparse_lazy_segment_tree.hpp:78-80. -/
def applyAt (P : Prm T F) (h : Pool T F) (o : Obj) (i : Int) (f : F) : M (Pool T F) := applyFun P h o i fun v => P.map f v i.toNat (i.toNat + 1)

/-- `query` — sparse_lazy_segment_tree.hpp:127-133. -/
def query (P : Prm T F) (ql qr : Nat) : Nat → Pool T F → Nat → Nat → Nat → M (Pool T F × T)
  | 0, _, _, _, _ => .error .diverge
  | k + 1, h, node, tl, tr => do
    if tr ≤ ql ∨ qr ≤ tl then return (h, P.e)
    if ql ≤ tl ∧ tr ≤ qr then do
      let x ← rd h node
      return (h, x.dat)
    let h ← push P h node tl tr
    let m ← mid P tl tr
    let x ← rd h node
    let (h, a) ← query P ql qr k h x.c0 tl m
    let x ← rd h node
    let (h, b) ← query P ql qr k h x.c1 m tr
    return (h, P.op a b)

/-- `operator()`, `prod` — sparse_lazy_segment_tree.hpp:82-88. -/
def prod (P : Prm T F) (h : Pool T F) (o : Obj) (l r : Int) : M (Pool T F × T) := do
  check (decide (0 ≤ l ∧ l ≤ r ∧ r ≤ o.n))
  query P l.toNat r.toNat (o.n + 1) h o.root 0 o.n

/-- `prod_all` — sparse_lazy_segment_tree.hpp:89-91. -/
def prodAll (h : Pool T F) (o : Obj) : M T := do
  let x ← rd h o.root
  return x.dat

/-- `apply(node, f, ql, qr, tl, tr)` — sparse_lazy_segment_tree.hpp:135-142. -/
def applyRec (P : Prm T F) (f : F) (ql qr : Nat) : Nat → Pool T F → Nat → Nat → Nat → M (Pool T F)
  | 0, _, _, _, _ => .error .diverge
  | k + 1, h, node, tl, tr => do
    if tr ≤ ql ∨ qr ≤ tl then return h
    if ql ≤ tl ∧ tr ≤ qr then applyNode P h node f tl tr
    else
      let m ← mid P tl tr
      let h ← push P h node tl tr
      let x ← rd h node
      let h ← applyRec P f ql qr k h x.c0 tl m
      let x ← rd h node
      let h ← applyRec P f ql qr k h x.c1 m tr
      update P h node

/-- `apply(l, r, f)` — sparse_lazy_segment_tree.hpp:93-96. -/
def apply (P : Prm T F) (h : Pool T F) (o : Obj) (l r : Int) (f : F) : M (Pool T F) := do
  check (decide (0 ≤ l ∧ l ≤ r ∧ r ≤ o.n))
  applyRec P f l.toNat r.toNat (o.n + 1) h o.root 0 o.n

/-- `apply_all(f)` — sparse_lazy_segment_tree.hpp:97-99. -/
def applyAll (P : Prm T F) (h : Pool T F) (o : Obj) (f : F) : M (Pool T F) := applyNode P h o.root f 0 o.n

/-- The calls on a family of objects. -/
inductive Op (T F : Type)
  | make (n : Nat) | copy (o : Nat) | get (o : Nat) (i : Int) | applyFun (o : Nat) (i : Int) (g : T → T) | set (o : Nat) (i : Int) (v : T) | applyAt (o : Nat) (i : Int) (f : F)
  | prod (o : Nat) (l r : Int) | prodAll (o : Nat) | apply (o : Nat) (l r : Int) (f : F) | applyAll (o : Nat) (f : F)

/-- The pool and the objects. -/
structure State (T F : Type) where
  pool : Pool T F
  objs : Array Obj

/-- One call; the answers are values of `T`. -/
def step (P : Prm T F) (s : State T F) : Op T F → M (State T F × Option T)
  | .make n =>
    let (h, o) := make P s.pool n
    return (⟨h, s.objs.push o⟩, none)
  | .copy o => do return ({ s with objs := s.objs.push (← rd s.objs o) }, none)
  | .get o i => do return (s, some (← get P s.pool (← rd s.objs o) i))
  | .applyFun o i g => do return ({ s with pool := ← applyFun P s.pool (← rd s.objs o) i g }, none)
  | .set o i v => do return ({ s with pool := ← set P s.pool (← rd s.objs o) i v }, none)
  | .applyAt o i f => do return ({ s with pool := ← applyAt P s.pool (← rd s.objs o) i f }, none)
  | .prod o l r => do
    let (h, a) ← prod P s.pool (← rd s.objs o) l r
    return ({ s with pool := h }, some a)
  | .prodAll o => do return (s, some (← prodAll s.pool (← rd s.objs o)))
  | .apply o l r f => do return ({ s with pool := ← apply P s.pool (← rd s.objs o) l r f }, none)
  | .applyAll o f => do return ({ s with pool := ← applyAll P s.pool (← rd s.objs o) f }, none)

end SparseLazySegmentTree
