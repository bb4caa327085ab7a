import Verif.Cxx

/-!
# Model of `library/datastructure/segment_tree/sparse_segment_tree.hpp`

Positions inside of the tree are natural numbers; `max` is the largest value of `IndexType`, a signed integer type, and the sum of two positions beyond it is undefined. `pool_index_type` has 32 bits. `reserve` has no observable effect. A copy of an object copies `n` and `root`.
-/

namespace SparseSegmentTree
open Cxx

variable {T : Type}

/-- Template parameters — sparse_segment_tree.hpp:12-19. -/
structure Prm (T : Type) where
  max : Nat
  op : T → T → T
  e : T
  init : Nat → Nat → T

/-- `Node` — sparse_segment_tree.hpp:26-30. -/
structure Node (T : Type) where
  c0 : Nat
  c1 : Nat
  dat : T

/-- `ch[b]`. -/
def Node.ch (x : Node T) (b : Bool) : Nat := if b then x.c1 else x.c0

/-- Assignment to `ch[b]`. -/
def Node.setCh (x : Node T) (b : Bool) (c : Nat) : Node T := if b then { x with c1 := c } else { x with c0 := c }

/-- The pool. -/
abbrev Pool (T : Type) := Array (Node T)

/-- The pool at the start — sparse_segment_tree.hpp:32. -/
def pool0 (P : Prm T) : Pool T := #[⟨0, 0, P.e⟩]

/-- Members — sparse_segment_tree.hpp:87-88. -/
structure Obj where
  n : Nat
  root : Nat

/-- `new_node` — sparse_segment_tree.hpp:34-37. -/
def newNode (h : Pool T) (dat : T) : Pool T × Nat := (h.push ⟨0, 0, dat⟩, h.size % 2 ^ 32)

/-- Constructors — sparse_segment_tree.hpp:39-40. -/
def make (P : Prm T) (h : Pool T) (n : Nat) : Pool T × Obj :=
  let (h, r) := newNode h (P.init 0 n)
  (h, ⟨n, r⟩)

/-- `(l + r) >> 1`. -/
def mid (P : Prm T) (l r : Nat) : M Nat := if l + r ≤ P.max then return (l + r) / 2 else .error .ub

/-- `get(node, tl, tr)` — sparse_segment_tree.hpp:90-92. -/
def getNode (P : Prm T) (h : Pool T) (node tl tr : Nat) : M T := do
  if node ≠ 0 then
    let x ← rd h node
    return x.dat
  else return P.init tl tr

/-- The loop of `get` — sparse_segment_tree.hpp:49-53. -/
def getLoop (P : Prm T) (h : Pool T) (i : Nat) : Nat → Nat → Nat → Nat → M Nat
  | 0, _, _, _ => .error .diverge
  | k + 1, cur, l, r => do
    if cur ≠ 0 ∧ r - l > 1 then
      let m ← mid P l r
      let x ← rd h cur
      if i < m then getLoop P h i k x.c0 l m else getLoop P h i k x.c1 m r
    else return cur

/-- `get` — sparse_segment_tree.hpp:46-55. -/
def get (P : Prm T) (h : Pool T) (o : Obj) (i : Int) : M T := do
  check (decide (0 ≤ i ∧ i < o.n))
  let cur ← getLoop P h i.toNat (o.n + 1) o.root 0 o.n
  getNode P h cur i.toNat (i.toNat + 1)

/-- `get_or_create_child` — sparse_segment_tree.hpp:94-98. -/
def child (P : Prm T) (h : Pool T) (node : Nat) (b : Bool) (tl tr : Nat) : M (Pool T × Nat) := do
  let x ← rd h node
  if x.ch b ≠ 0 then return (h, x.ch b)
  let (h, c) := newNode h (P.init tl tr)
  let x ← rd h node
  let h ← wr h node (x.setCh b c)
  return (h, c)

/-- The recursive lambda of `apply_fun` — sparse_segment_tree.hpp:59-68. -/
def applyRec (P : Prm T) (f : T → T) (i : Nat) : Nat → Pool T → Nat → Nat → Nat → M (Pool T)
  | 0, _, _, _, _ => .error .diverge
  | k + 1, h, cur, l, r => do
    if r - l = 1 then
      let v ← getNode P h cur l r
      let x ← rd h cur
      wr h cur { x with dat := f v }
    else
      let m ← mid P l r
      let h ← (if i < m then do
          let (h, c) ← child P h cur false l m
          applyRec P f i k h c l m
        else do
          let (h, c) ← child P h cur true m r
          applyRec P f i k h c m r : M (Pool T))
      let x ← rd h cur
      let a ← getNode P h x.c0 l m
      let b ← getNode P h x.c1 m r
      wr h cur { x with dat := P.op a b }

/-- `apply_fun` — sparse_segment_tree.hpp:56-70. -/
def applyFun (P : Prm T) (h : Pool T) (o : Obj) (i : Int) (f : T → T) : M (Pool T) := do
  check (decide (0 ≤ i ∧ i < o.n))
  applyRec P f i.toNat (o.n + 1) h o.root 0 o.n

/-- `set` — sparse_segment_tree.hpp:71-73. -/
def set (P : Prm T) (h : Pool T) (o : Obj) (i : Int) (v : T) : M (Pool T) := applyFun P h o i fun _ => v

/-- `query` — sparse_segment_tree.hpp:100-106. -/
def query (P : Prm T) (h : Pool T) (ql qr : Nat) : Nat → Nat → Nat → Nat → M T
  | 0, _, _, _ => .error .diverge
  | k + 1, node, tl, tr => do
    if tr ≤ ql ∨ qr ≤ tl then return P.e
    if node = 0 then return P.init (Nat.max ql tl) (Nat.min qr tr)
    let x ← rd h node
    if ql ≤ tl ∧ tr ≤ qr then return x.dat
    let m ← mid P tl tr
    let a ← query P h ql qr k x.c0 tl m
    let b ← query P h ql qr k x.c1 m tr
    return P.op a b

/-- `operator()`, `prod` — sparse_segment_tree.hpp:75-81. -/
def prod (P : Prm T) (h : Pool T) (o : Obj) (l r : Int) : M T := do
  check (decide (0 ≤ l ∧ l ≤ r ∧ r ≤ o.n))
  query P h l.toNat r.toNat (o.n + 1) o.root 0 o.n

/-- `prod_all` — sparse_segment_tree.hpp:82-84. -/
def prodAll (h : Pool T) (o : Obj) : M T := do
  let x ← rd h o.root
  return x.dat

/-- The calls on a family of objects. -/
inductive Op (T : Type)
  | make (n : Nat) | copy (o : Nat) | get (o : Nat) (i : Int) | applyFun (o : Nat) (i : Int) (f : T → T) | set (o : Nat) (i : Int) (v : T)
  | prod (o : Nat) (l r : Int) | prodAll (o : Nat)

/-- The pool and the objects. -/
structure State (T : Type) where
  pool : Pool T
  objs : Array Obj

/-- One call; the answers are values of `T`. -/
def step (P : Prm T) (s : State T) : Op T → M (State T × Option T)
  | .make n =>
    let (h, o) := make P s.pool n
    return (⟨h, s.objs.push o⟩, none)
  | .copy o => do return ({ s with objs := s.objs.push (← rd s.objs o) }, none)
  | .get o i => do return (s, some (← get P s.pool (← rd s.objs o) i))
  | .applyFun o i f => do return ({ s with pool := ← applyFun P s.pool (← rd s.objs o) i f }, none)
  | .set o i v => do return ({ s with pool := ← set P s.pool (← rd s.objs o) i v }, none)
  | .prod o l r => do return (s, some (← prod P s.pool (← rd s.objs o) l r))
  | .prodAll o => do return (s, some (← prodAll s.pool (← rd s.objs o)))

end SparseSegmentTree
