import Verif.Model.RedBlack

/-!
# Model of `library/datastructure/bbst/persistent_red_black_{tree_base,tree,segment_tree,lazy_segment_tree}.hpp`

The persistent classes derive from the classes of `Verif.Model.RedBlack` and override only `clone`. Here the nodes live in the object pool and trees are pointers into it, so that sharing between versions is visible.
The plain tree and the segment tree inherit `push` from `RedBlackTreeNodeBase`, which returns its argument; the lazy segment tree has a `push` that clones the node.
Histories without `apply` are modelled, so `_laz` is always the identity and is left out.
-/

namespace RedBlackHeap
open Cxx RedBlack

/-- A node — red_black_tree_base.hpp:200-204; `none` is the null pointer. -/
structure Nd (T : Type) where
  col : Color
  ch0 : Option Nat
  ch1 : Option Nat
  val : T
  siz : Int
  lev : Int

/-- The static `ObjectPool` — library/util/object_pool.hpp:16-18; pointers are indices into `pool`, `it` is an index into `stock`. -/
structure Pool (T : Type) where
  pool : Array (Nd T)
  stock : Array Nat
  it : Nat

/-- The class: does `push` clone, does `update` maintain products; the template arguments; `value_type{}`. -/
structure Cls (T : Type) where
  clones : Bool
  prod : Bool
  op : T → T → T
  e : T
  dflt : T

variable {T : Type}

/-- Computations on the pool. -/
abbrev H (T : Type) := StateT (Pool T) M

/-- `ObjectPool(siz)` — object_pool.hpp:21-23, 37-41. -/
def initPool (C : Cls T) (n : Nat) : Pool T := ⟨Array.replicate n ⟨.red, none, none, C.dflt, 0, 0⟩, Array.ofFn (n := n) fun i => i.val, 0⟩

/-- `*p`. -/
def load (p : Option Nat) : H T (Nd T) := fun s => match p with
  | none => .error .ub
  | some i => do
    let x ← rd s.pool i
    return (x, s)

/-- `*p = x`. -/
def store (p : Option Nat) (x : Nd T) : H T Unit := fun s => match p with
  | none => .error .ub
  | some i => do
    let a ← wr s.pool i x
    return ((), { s with pool := a })

/-- `pool.alloc()` — object_pool.hpp:28-31 (`auto_extend` is false). -/
def alloc : H T Nat := fun s => do
  let p ← rd s.stock s.it
  return (p, { s with it := s.it + 1 })

/-- `free_node(node)` — red_black_tree_base.hpp:244-246, object_pool.hpp:33-35. -/
def freeNode (p : Option Nat) : H T Unit := fun s => match p with
  | none => return ((), s)
  | some i =>
    if s.it = 0 then .error .ub
    else do
      let a ← wr s.stock (s.it - 1) i
      return ((), { s with stock := a, it := s.it - 1 })

/-- `size(node)` — red_black_tree_base.hpp:34. -/
def size (p : Option Nat) : H T Int :=
  if p.isNone then return 0 else do
    let x ← load p
    return x.siz

/-- `color(node)` — line 212. -/
def color (p : Option Nat) : H T Color :=
  if p.isNone then return .black else do
    let x ← load p
    return x.col

/-- `height(node)` — line 213. -/
def height (p : Option Nat) : H T Int :=
  if p.isNone then return 0 else do
    let x ← load p
    return x.lev

/-- `value(node)` — red_black_segment_tree.hpp:33. -/
def value (C : Cls T) (p : Option Nat) : H T T :=
  if p.isNone then return C.e else do
    let x ← load p
    return x.val

/-- `node->_ch[i]` of a loaded node. -/
def Nd.ch (x : Nd T) (i : Bool) : Option Nat := if i then x.ch1 else x.ch0

/-- `node->_col = c`. -/
def setCol (p : Option Nat) (c : Color) : H T Unit := do
  let x ← load p
  store p { x with col := c }

/-- `node->_ch[i] = q`. -/
def setCh (p : Option Nat) (i : Bool) (q : Option Nat) : H T Unit := do
  let x ← load p
  store p (if i then { x with ch1 := q } else { x with ch0 := q })

/-- `node->_val = v`. -/
def setVal (p : Option Nat) (v : T) : H T Unit := do
  let x ← load p
  store p { x with val := v }

/-- `is_leaf()` — line 215. -/
def Nd.isLeaf (x : Nd T) : Bool := x.ch0.isNone && x.ch1.isNone

/-- The new `_siz` of `update` — line 221. -/
def newSiz (x : Nd T) : H T Int :=
  if x.isLeaf then return 1 else do
    let a ← size x.ch0
    let b ← size x.ch1
    i32 (a + b)

/-- The new `_lev` of `update` — line 222. -/
def newLev (x : Nd T) : H T Int :=
  if x.ch0.isNone then return 0 else do
    let h ← height x.ch0
    let c ← color x.ch0
    return h + if c = .black then 1 else 0

/-- The new `_val` of `update` — red_black_segment_tree.hpp:37. -/
def newVal (C : Cls T) (x : Nd T) : H T T :=
  if C.prod then do
    let a ← value C x.ch0
    let b ← value C x.ch1
    return C.op a b
  else return x.val

/-- `node_type::update(node)` — red_black_tree_base.hpp:220-224, red_black_segment_tree.hpp:35-39. -/
def update (C : Cls T) (p : Option Nat) : H T (Option Nat) := do
  let x ← load p
  let s ← newSiz x
  let h ← newLev x
  let v ← newVal C x
  store p { x with siz := s, lev := h, val := v }
  return p

/-- `create_leaf(val)` — red_black_tree_base.hpp:206, 236-238. -/
def createLeaf (v : T) : H T (Option Nat) := do
  let p ← alloc
  store (some p) ⟨.black, none, none, v, 1, 0⟩
  return some p

/-- `create_branch(l, r)` — lines 207, 240-242; `update` overwrites `_siz` and `_lev`. -/
def createBranch (C : Cls T) (l r : Option Nat) : H T (Option Nat) := do
  let p ← alloc
  let a ← load l
  let _ ← load r
  store (some p) ⟨.red, l, r, C.dflt, 0, a.lev⟩
  update C (some p)

/-- `PersistentRedBlackTreeNodeBase::clone(node)` — persistent_red_black_tree_base.hpp:48-51. -/
def clone (C : Cls T) (p : Option Nat) : H T (Option Nat) :=
  if p.isNone then return p else do
    let q ← createLeaf C.dflt
    let x ← load p
    store q x
    return q

/-- `node_type::push(node)` — red_black_tree_base.hpp:225-227; red_black_lazy_segment_tree.hpp:70-78 with `_laz == id()`. -/
def push (C : Cls T) (p : Option Nat) : H T (Option Nat) := if C.clones then clone C p else return p

/-- `rotate(node, index)` — red_black_tree_base.hpp:229-234. -/
def rotate (C : Cls T) (p : Option Nat) (i : Bool) : H T (Option Nat) := do
  let p ← push C p
  let x ← load p
  let c ← push C (x.ch i)
  let y ← load c
  setCh c (!i) p
  setCh p i (y.ch (!i))
  let _ ← update C p
  update C c

/-- Line 62. -/
def force (fb : Bool) (p : Option Nat) : H T (Option Nat) :=
  if fb then do
    setCol p .black
    return p
  else return p

/-- Lines 47-50 and 62-63 (`i = 1`), 55-58 and 62-63 (`i = 0`). -/
def fix (C : Cls T) (fb i : Bool) (p c : Option Nat) : H T (Option Nat) := do
  let x ← load p
  let y ← load c
  setCol p y.col
  setCol c x.col
  let o ← load (x.ch (!i))
  setCol (x.ch (!i)) .black
  if o.col = .black then rotate C p i
  else do
    let p ← update C p
    force fb p

/-- Lines 44-50 (`i = 1`), 52-58 (`i = 0`). -/
def descend (C : Cls T) (fb i : Bool) (rec : Option Nat → H T (Option Nat)) (p : Option Nat) : H T (Option Nat) := do
  let p ← push C p
  let x ← load p
  let c ← rec (x.ch i)
  setCh p i c
  let x ← load p
  let y ← load c
  let k ← color (y.ch i)
  if x.col = .black ∧ y.col = .red ∧ k = .red then fix C fb i p c
  else do
    let p ← update C p
    force fb p

/-- Lines 60-63. -/
def branchF (C : Cls T) (fb : Bool) (l r : Option Nat) : H T (Option Nat) := do
  let p ← createBranch C l r
  force fb p

/-- `merge<force_black_root>(l, r)` — red_black_tree_base.hpp:37-64; `fuel` bounds the recursion. -/
def mergeF (C : Cls T) : Nat → Bool → Option Nat → Option Nat → H T (Option Nat)
  | 0, _, _, _ => fun _ => .error .diverge
  | fuel + 1, fb, l, r =>
    if l.isNone then return r
    else if r.isNone then return l
    else do
      let hl ← height l
      let hr ← height r
      if hl > hr then descend C fb true (fun c => mergeF C fuel false c r) l
      else if hr > hl then descend C fb false (fun c => mergeF C fuel false l c) r
      else branchF C fb l r

/-- `if (color(l) == RED) l->_col = BLACK` — lines 77-78. -/
def blacken (p : Option Nat) : H T Unit := do
  let c ← color p
  if c = .red then setCol p .black else return ()

/-- Lines 80-90. -/
def splitAt (C : Cls T) (fuel : Nat) (k : Int) (rec : Option Nat → Int → H T (Option Nat × Option Nat)) (l r : Option Nat) : H T (Option Nat × Option Nat) := do
  let s ← size l
  if k < s then do
    let p ← rec l k
    let m ← mergeF C fuel true p.2 r
    return (p.1, m)
  else if k > s then do
    let p ← rec r (k - s)
    let m ← mergeF C fuel true l p.1
    return (m, p.2)
  else return (l, r)

/-- `split(node, k)` — red_black_tree_base.hpp:66-91; `fuel` bounds the recursion. -/
def splitF (C : Cls T) : Nat → Option Nat → Int → H T (Option Nat × Option Nat)
  | 0, _, _ => fun _ => .error .diverge
  | fuel + 1, p, k =>
    if p.isNone then return (none, none)
    else do
      let p ← push C p
      let s ← size p
      if k = 0 then return (none, p)
      else if k = s then return (p, none)
      else do
        let x ← load p
        setCh p false none
        setCh p true none
        freeNode p
        blacken x.ch0
        blacken x.ch1
        splitAt C fuel k (splitF C fuel) x.ch0 x.ch1

/-- `split_range(node, l, r)` — lines 93-97. -/
def splitRange (C : Cls T) (fuel : Nat) (p : Option Nat) (l r : Int) : H T (Option Nat × Option Nat × Option Nat) := do
  let a ← splitF C fuel p r
  let b ← splitF C fuel a.1 l
  return (b.1, b.2, a.2)

/-- `merge(merge(a, b), c)`. -/
def merge3 (C : Cls T) (fuel : Nat) (a b c : Option Nat) : H T (Option Nat) := do
  let t ← mergeF C fuel true a b
  mergeF C fuel true t c

/-- `insert(node, k, val)` — lines 99-102. -/
def insert (C : Cls T) (fuel : Nat) (p : Option Nat) (k : Int) (v : T) : H T (Option Nat) := do
  let a ← splitF C fuel p k
  let m ← createLeaf v
  merge3 C fuel a.1 m a.2

/-- `push_back(node, val)` — line 104. -/
def pushBack (C : Cls T) (fuel : Nat) (p : Option Nat) (v : T) : H T (Option Nat) := do
  let s ← size p
  insert C fuel p s v

/-- `erase(node, k)` — lines 106-111. -/
def erase (C : Cls T) (fuel : Nat) (p : Option Nat) (k : Int) : H T (Option Nat × T) := do
  let a ← splitRange C fuel p k (k + 1)
  let x ← load a.2.1
  freeNode a.2.1
  let t ← mergeF C fuel true a.1 a.2.2
  return (t, x.val)

/-- `update_value(node, k, fun)` — lines 115-120. -/
def updateValue (C : Cls T) (fuel : Nat) (p : Option Nat) (k : Int) (g : T → T) : H T (Option Nat) := do
  let a ← splitRange C fuel p k (k + 1)
  let x ← load a.2.1
  setVal a.2.1 (g x.val)
  merge3 C fuel a.1 a.2.1 a.2.2

/-- `get(node, k)` — lines 124-128. -/
def get (C : Cls T) (fuel : Nat) (p : Option Nat) (k : Int) : H T (Option Nat × T) := do
  let a ← splitRange C fuel p k (k + 1)
  let x ← load a.2.1
  let t ← merge3 C fuel a.1 a.2.1 a.2.2
  return (t, x.val)

/-- `prod(node, l, r)` — red_black_segment_tree.hpp:20-24. -/
def prod (C : Cls T) (fuel : Nat) (p : Option Nat) (l r : Int) : H T (Option Nat × T) := do
  let a ← splitRange C fuel p l r
  let v ← value C a.2.1
  let t ← merge3 C fuel a.1 a.2.1 a.2.2
  return (t, v)

/-- `swap(t1, l1, r1, t2, l2, r2)` — persistent_red_black_tree_base.hpp:19-23. -/
def swap (C : Cls T) (fuel : Nat) (t1 : Option Nat) (l1 r1 : Int) (t2 : Option Nat) (l2 r2 : Int) : H T (Option Nat × Option Nat) := do
  let a ← splitRange C fuel t1 l1 r1
  let b ← splitRange C fuel t2 l2 r2
  let x ← merge3 C fuel a.1 b.2.1 a.2.2
  let y ← merge3 C fuel b.1 a.2.1 b.2.2
  return (x, y)

/-- `cut(node, l, r)` — persistent_red_black_tree_base.hpp:24-27. -/
def cut (C : Cls T) (fuel : Nat) (p : Option Nat) (l r : Int) : H T (Option Nat) := do
  let a ← splitRange C fuel p l r
  return a.2.1

/-- `replace(from, to, l, r)` — persistent_red_black_tree_base.hpp:28-32. -/
def replace (C : Cls T) (fuel : Nat) (src dst : Option Nat) (l r : Int) : H T (Option Nat) := do
  let n ← size src
  let a ← swap C fuel dst l r src 0 n
  return a.1

/-- The recursion of `dump` — red_black_tree_base.hpp:144-151; `fuel` bounds the depth. -/
def dumpGo : Nat → Option Nat → H T (List T)
  | 0, _ => fun _ => .error .diverge
  | fuel + 1, p => do
    let x ← load p
    if x.isLeaf then return [x.val]
    else do
      let a ← dumpGo fuel x.ch0
      let b ← dumpGo fuel x.ch1
      return a ++ b

/-- `dump(node, it)` — red_black_tree_base.hpp:141-153. -/
def dump (fuel : Nat) (p : Option Nat) : H T (List T) := if p.isNone then return [] else dumpGo fuel p

end RedBlackHeap
