import Verif.Model.Machine

/-!
# Model of `library/datastructure/bbst/red_black_{tree_base,tree,segment_tree,lazy_segment_tree,reversible_lazy_segment_tree}.hpp`

A tree is a value: in the non-persistent classes every node belongs to one tree and every operation consumes its arguments, so a pointer is modelled by the tree it points to.
The object pool is not modelled. `_siz` is an `int` with checked sums; `_lev` is bounded by the number of nodes and unbounded here.
The classes differ in the hooks `push` and `update`; `Kind` selects them. A field that a class does not have (`_laz`, `_rev`) keeps its initial value.
-/

namespace RedBlack
open Cxx

/-- `RedBlackTreeNodeColor` — red_black_tree_base.hpp:13. -/
inductive Color where
  | red
  | black
  deriving DecidableEq

/-- `tree_type` — red_black_tree_base.hpp:200-204, `_laz` and `_rev` of the derived classes; `nul` is the null pointer. -/
inductive Tree (T F : Type) where
  | nul
  | node (col : Color) (c0 c1 : Tree T F) (val : T) (siz lev : Int) (laz : F) (rev : Bool)

/-- The template arguments. -/
structure Ops (T F : Type) where
  op : T → T → T
  e : T
  mapping : F → T → Int → T
  composition : F → F → F
  id : F

/-- The class: does `update` maintain products, does it have `_laz`, does it have `_rev`. -/
structure Kind where
  prod : Bool
  lazy : Bool
  rev : Bool

variable {T F : Type}

/-- `size(node)` — red_black_tree_base.hpp:34. -/
def size : Tree T F → Int
  | .nul => 0
  | .node _ _ _ _ s _ _ _ => s

/-- `color(node)` — line 212. -/
def color : Tree T F → Color
  | .nul => .black
  | .node c _ _ _ _ _ _ _ => c

/-- `height(node)` — line 213. -/
def height : Tree T F → Int
  | .nul => 0
  | .node _ _ _ _ _ h _ _ => h

/-- `not node`. -/
def isNul : Tree T F → Bool
  | .nul => true
  | _ => false

/-- `value(node)` — red_black_segment_tree.hpp:33. -/
def value (O : Ops T F) : Tree T F → T
  | .nul => O.e
  | .node _ _ _ v _ _ _ _ => v

/-- `node->_val` of an existing node. -/
def getVal : Tree T F → M T
  | .nul => .error .ub
  | .node _ _ _ v _ _ _ _ => .ok v

/-- `node->_col` of an existing node. -/
def getCol : Tree T F → M Color
  | .nul => .error .ub
  | .node c _ _ _ _ _ _ _ => .ok c

/-- `node->_ch[i]` of an existing node. -/
def child (i : Bool) : Tree T F → M (Tree T F)
  | .nul => .error .ub
  | .node _ c0 c1 _ _ _ _ _ => .ok (if i then c1 else c0)

/-- `node->_ch[i] = c`. -/
def setChild (i : Bool) (c : Tree T F) : Tree T F → M (Tree T F)
  | .nul => .error .ub
  | .node k c0 c1 v s h z r => .ok (if i then .node k c0 c v s h z r else .node k c c1 v s h z r)

/-- `node->_col = c`. -/
def setCol (k : Color) : Tree T F → M (Tree T F)
  | .nul => .error .ub
  | .node _ c0 c1 v s h z r => .ok (.node k c0 c1 v s h z r)

/-- `node->_val = v`. -/
def setVal (v : T) : Tree T F → M (Tree T F)
  | .nul => .error .ub
  | .node k c0 c1 _ s h z r => .ok (.node k c0 c1 v s h z r)

/-- The new size of `update` — line 221. -/
def newSiz (c0 c1 : Tree T F) : M Int := if isNul c0 && isNul c1 then return 1 else i32 (size c0 + size c1)

/-- The new level of `update` — line 222. -/
def newLev (c0 : Tree T F) : Int := if isNul c0 then 0 else height c0 + if color c0 = .black then 1 else 0

/-- `node_type::update(node)` — red_black_tree_base.hpp:220-224; red_black_segment_tree.hpp:35-39 and the same lines of the lazy classes. -/
def update (O : Ops T F) (K : Kind) : Tree T F → M (Tree T F)
  | .nul => .error .ub
  | .node k c0 c1 v _ _ z r => do
    let s ← newSiz c0 c1
    return .node k c0 c1 (if K.prod then O.op (value O c0) (value O c1) else v) s (newLev c0) z r

/-- `apply_all(node, f)` — red_black_lazy_segment_tree.hpp:34-40. -/
def applyAll (O : Ops T F) (f : F) : Tree T F → Tree T F
  | .nul => .nul
  | .node k c0 c1 v s h z r => .node k c0 c1 (O.mapping f v s) s h (O.composition f z) r

/-- `reverse_all(node)` — red_black_reversible_lazy_segment_tree.hpp:46-52. -/
def reverseAll : Tree T F → Tree T F
  | .nul => .nul
  | .node k c0 c1 v s h z r => .node k c1 c0 v s h z (!r)

/-- First part of `push` — red_black_lazy_segment_tree.hpp:72-76. -/
def pushLaz (O : Ops T F) [DecidableEq F] : Tree T F → M (Tree T F)
  | .nul => .error .ub
  | .node k c0 c1 v s h z r => return if z ≠ O.id then .node k (applyAll O z c0) (applyAll O z c1) v s h O.id r else .node k c0 c1 v s h z r

/-- Second part of `push` — red_black_reversible_lazy_segment_tree.hpp:91-95. -/
def pushRev : Tree T F → M (Tree T F)
  | .nul => .error .ub
  | .node k c0 c1 v s h z r => return if r then .node k (reverseAll c0) (reverseAll c1) v s h z false else .node k c0 c1 v s h z r

/-- The first part, in the classes that have it. -/
def pushLazIf (O : Ops T F) (K : Kind) [DecidableEq F] (t : Tree T F) : M (Tree T F) := if K.lazy then pushLaz O t else pure t

/-- The second part, in the class that has it. -/
def pushRevIf (K : Kind) (t : Tree T F) : M (Tree T F) := if K.rev then pushRev t else pure t

/-- `node_type::push(node)` — red_black_tree_base.hpp:225-227, red_black_lazy_segment_tree.hpp:70-78, red_black_reversible_lazy_segment_tree.hpp:84-97. -/
def push (O : Ops T F) (K : Kind) [DecidableEq F] (t : Tree T F) : M (Tree T F) := do
  let t ← pushLazIf O K t
  pushRevIf K t

/-- `rotate(node, index)` — red_black_tree_base.hpp:229-234. -/
def rotate (O : Ops T F) (K : Kind) [DecidableEq F] (t : Tree T F) (i : Bool) : M (Tree T F) := do
  let t ← push O K t
  let c ← child i t
  let c ← push O K c
  let x ← child (!i) c
  let t ← setChild i x t
  let t ← update O K t
  let c ← setChild (!i) t c
  update O K c

/-- `create_leaf(val)` — lines 206, 236-238. -/
def leaf (O : Ops T F) (v : T) : Tree T F := .node .black .nul .nul v 1 0 O.id false

/-- `create_branch(l, r)` — lines 207, 240-242; the constructor reads `l` and `r`, and `update` overwrites the fields. The default value of `_val` of a branch is irrelevant. -/
def branch (O : Ops T F) (K : Kind) (l r : Tree T F) : M (Tree T F) := update O K (.node .red l r O.e (size l + size r) 0 O.id false)

/-- `if constexpr (force_black_root) res->_col = BLACK` — line 62. -/
def force (fb : Bool) (t : Tree T F) : M (Tree T F) := if fb then setCol .black t else return t

/-- Lines 46-49 (`i = 1`), 54-57 (`i = 0`) after the condition: `c` is the child `i` of `t`; the colours of `t` and `c` are swapped, the other child becomes black. -/
def fix (O : Ops T F) (K : Kind) [DecidableEq F] (fb i : Bool) (t c : Tree T F) : M (Tree T F) := do
  let kt ← getCol t
  let kc ← getCol c
  let c ← setCol kt c
  let t ← setCol kc t
  let o ← child (!i) t
  let ko ← getCol o
  let o ← setCol .black o
  let t ← setChild (!i) o t
  let t ← setChild i c t
  if ko = .black then rotate O K t i
  else do
    let t ← update O K t
    force fb t

/-- The condition of lines 46 and 54. -/
def redRed (i : Bool) (t c : Tree T F) : M Bool := do
  let kt ← getCol t
  let kc ← getCol c
  let x ← child i c
  return kt = .black && kc = .red && color x = .red

/-- Lines 45-50 (`i = 1`), 53-58 (`i = 0`): `rec` is the recursive call. -/
def descend (O : Ops T F) (K : Kind) [DecidableEq F] (fb i : Bool) (rec : Tree T F → M (Tree T F)) (t : Tree T F) : M (Tree T F) := do
  let t ← push O K t
  let c ← child i t
  let c ← rec c
  let t ← setChild i c t
  let b ← redRed i t c
  if b then fix O K fb i t c
  else do
    let t ← update O K t
    force fb t

/-- `create_branch(l, r)` with the final colouring — lines 60-63. -/
def branchF (O : Ops T F) (K : Kind) (fb : Bool) (l r : Tree T F) : M (Tree T F) := do
  let t ← branch O K l r
  force fb t

/-- `merge<force_black_root>(l, r)` — red_black_tree_base.hpp:37-64; `fuel` bounds the recursion. -/
def mergeF (O : Ops T F) (K : Kind) [DecidableEq F] : Nat → Bool → Tree T F → Tree T F → M (Tree T F)
  | 0, _, _, _ => .error .diverge
  | fuel + 1, fb, l, r =>
    if isNul l then return r
    else if isNul r then return l
    else if height l > height r then descend O K fb true (fun c => mergeF O K fuel false c r) l
    else if height r > height l then descend O K fb false (fun c => mergeF O K fuel false l c) r
    else branchF O K fb l r

/-- The number of nodes: a bound for the depth of the recursions. -/
def nodes : Tree T F → Nat
  | .nul => 0
  | .node _ c0 c1 _ _ _ _ _ => nodes c0 + nodes c1 + 1

/-- `merge(l, r)`. -/
def merge (O : Ops T F) (K : Kind) [DecidableEq F] (l r : Tree T F) : M (Tree T F) := mergeF O K (nodes l + nodes r + 1) true l r

/-- `if (color(l) == RED) l->_col = BLACK` — lines 77-78. -/
def blacken : Tree T F → Tree T F
  | .nul => .nul
  | .node _ c0 c1 v s h z r => .node .black c0 c1 v s h z r

/-- Lines 80-90: `rec` is the recursive call. -/
def splitAt (O : Ops T F) (K : Kind) [DecidableEq F] (k : Int) (rec : Tree T F → Int → M (Tree T F × Tree T F)) (l r : Tree T F) : M (Tree T F × Tree T F) :=
  if k < size l then do
    let p ← rec l k
    let m ← merge O K p.2 r
    return (p.1, m)
  else if k > size l then do
    let p ← rec r (k - size l)
    let m ← merge O K l p.1
    return (m, p.2)
  else return (l, r)

/-- `split(node, k)` — red_black_tree_base.hpp:66-91; `fuel` bounds the recursion. -/
def splitF (O : Ops T F) (K : Kind) [DecidableEq F] : Nat → Tree T F → Int → M (Tree T F × Tree T F)
  | 0, _, _ => .error .diverge
  | fuel + 1, t, k =>
    if isNul t then return (.nul, .nul)
    else do
      let t ← push O K t
      if k = 0 then return (.nul, t)
      else if k = size t then return (t, .nul)
      else do
        let l ← child false t
        let r ← child true t
        splitAt O K k (splitF O K fuel) (blacken l) (blacken r)

/-- `split(node, k)`. -/
def split (O : Ops T F) (K : Kind) [DecidableEq F] (t : Tree T F) (k : Int) : M (Tree T F × Tree T F) := splitF O K (nodes t + 1) t k

/-- `split_range(node, l, r)` — red_black_tree_base.hpp:93-97. -/
def splitRange (O : Ops T F) (K : Kind) [DecidableEq F] (t : Tree T F) (l r : Int) : M (Tree T F × Tree T F × Tree T F) := do
  let p ← split O K t r
  let q ← split O K p.1 l
  return (q.1, q.2, p.2)

/-- `merge(merge(a, b), c)`. -/
def merge3 (O : Ops T F) (K : Kind) [DecidableEq F] (a b c : Tree T F) : M (Tree T F) := do
  let t ← merge O K a b
  merge O K t c

/-- `insert(node, k, val)` — red_black_tree_base.hpp:99-102. -/
def insert (O : Ops T F) (K : Kind) [DecidableEq F] (t : Tree T F) (k : Int) (v : T) : M (Tree T F) := do
  let p ← split O K t k
  merge3 O K p.1 (leaf O v) p.2

/-- `push_front`, `push_back` — lines 103-104. -/
def pushFront (O : Ops T F) (K : Kind) [DecidableEq F] (t : Tree T F) (v : T) : M (Tree T F) := insert O K t 0 v
/-- See `pushFront`. -/
def pushBack (O : Ops T F) (K : Kind) [DecidableEq F] (t : Tree T F) (v : T) : M (Tree T F) := insert O K t (size t) v

/-- `erase(node, k)` — red_black_tree_base.hpp:106-111. -/
def erase (O : Ops T F) (K : Kind) [DecidableEq F] (t : Tree T F) (k : Int) : M (Tree T F × T) := do
  let p ← splitRange O K t k (k + 1)
  let v ← getVal p.2.1
  let t ← merge O K p.1 p.2.2
  return (t, v)

/-- `pop_front`, `pop_back` — lines 112-113. -/
def popFront (O : Ops T F) (K : Kind) [DecidableEq F] (t : Tree T F) : M (Tree T F × T) := erase O K t 0
/-- See `popFront`. -/
def popBack (O : Ops T F) (K : Kind) [DecidableEq F] (t : Tree T F) : M (Tree T F × T) := erase O K t (size t - 1)

/-- `update_value(node, k, fun)` — red_black_tree_base.hpp:115-120. -/
def updateValue (O : Ops T F) (K : Kind) [DecidableEq F] (t : Tree T F) (k : Int) (g : T → T) : M (Tree T F) := do
  let p ← splitRange O K t k (k + 1)
  let v ← getVal p.2.1
  let m ← setVal (g v) p.2.1
  merge3 O K p.1 m p.2.2

/-- `get(node, k)` — red_black_tree_base.hpp:124-128. -/
def get (O : Ops T F) (K : Kind) [DecidableEq F] (t : Tree T F) (k : Int) : M (Tree T F × T) := do
  let p ← splitRange O K t k (k + 1)
  let v ← getVal p.2.1
  let t ← merge3 O K p.1 p.2.1 p.2.2
  return (t, v)

/-- `build(a, l, r)` — red_black_tree_base.hpp:130-135; `fuel` bounds the recursion. -/
def buildF (O : Ops T F) (K : Kind) [DecidableEq F] (a : Array T) : Nat → Nat → Nat → M (Tree T F)
  | 0, _, _ => .error .diverge
  | fuel + 1, l, r =>
    if (r : Int) - l = 1 then do
      let v ← rd a l
      return leaf O v
    else do
      let x ← buildF O K a fuel l ((l + r) / 2)
      let y ← buildF O K a fuel ((l + r) / 2) r
      merge O K x y

/-- `build(a)` — red_black_tree_base.hpp:136-139. -/
def build (O : Ops T F) (K : Kind) [DecidableEq F] (a : Array T) : M (Tree T F) := if a.size = 0 then return .nul else buildF O K a (a.size + 1) 0 a.size

/-- The recursion of `dump` — red_black_tree_base.hpp:144-151. -/
def dumpGo : Tree T F → M (List T)
  | .nul => .error .ub
  | .node _ c0 c1 v _ _ _ _ =>
    if isNul c0 && isNul c1 then return [v]
    else do
      let x ← dumpGo c0
      let y ← dumpGo c1
      return x ++ y

/-- The recursion of `dump` with pending operations — red_black_lazy_segment_tree.hpp:45-54, red_black_reversible_lazy_segment_tree.hpp:57-67 (without `_rev`, `rev` is always false). -/
def dumpLazGo (O : Ops T F) : Tree T F → F → Bool → M (List T)
  | .nul, _, _ => .error .ub
  | .node _ c0 c1 v _ _ z r, laz, rev =>
    if isNul c0 && isNul c1 then return [O.mapping laz v 1]
    else do
      let x ← dumpLazGo O c0 (O.composition laz z) (rev ^^ r)
      let y ← dumpLazGo O c1 (O.composition laz z) (rev ^^ r)
      return if rev then y ++ x else x ++ y

/-- `dump(node, it)`; the output as a list — red_black_tree_base.hpp:141-153, red_black_lazy_segment_tree.hpp:42-55, red_black_reversible_lazy_segment_tree.hpp:54-68. -/
def dump (O : Ops T F) (K : Kind) (t : Tree T F) : M (List T) :=
  if isNul t then return []
  else if K.lazy then dumpLazGo O t O.id false
  else dumpGo t

/-- The recursion of `check_rbtree_properties` — red_black_tree_base.hpp:186-196. -/
def checkGo : Tree T F → M Int
  | .nul => return 0
  | .node k c0 c1 _ _ _ _ _ => do
    check (!(k = .red) || color c0 = .black)
    check (!(k = .red) || color c1 = .black)
    let x ← checkGo c0
    let y ← checkGo c1
    check (x = y)
    return x + if k = .black then 1 else 0

/-- `check_rbtree_properties(node)` — red_black_tree_base.hpp:184-198. -/
def checkProperties (t : Tree T F) : M Unit := do
  check (color t = .black)
  let _ ← checkGo t
  return ()

/-- `prod(node, l, r)` — red_black_segment_tree.hpp:20-24. -/
def prod (O : Ops T F) (K : Kind) [DecidableEq F] (t : Tree T F) (l r : Int) : M (Tree T F × T) := do
  let p ← splitRange O K t l r
  let t ← merge3 O K p.1 p.2.1 p.2.2
  return (t, value O p.2.1)

/-- `prod_all(node)` — red_black_segment_tree.hpp:25-27. -/
def prodAll (O : Ops T F) (t : Tree T F) : T := value O t

/-- `apply(node, l, r, f)` — red_black_lazy_segment_tree.hpp:30-33. -/
def apply (O : Ops T F) (K : Kind) [DecidableEq F] (t : Tree T F) (l r : Int) (f : F) : M (Tree T F) := do
  let p ← splitRange O K t l r
  merge3 O K p.1 (applyAll O f p.2.1) p.2.2

/-- `reverse(node, l, r)` — red_black_reversible_lazy_segment_tree.hpp:42-45. -/
def reverse (O : Ops T F) (K : Kind) [DecidableEq F] (t : Tree T F) (l r : Int) : M (Tree T F) := do
  let p ← splitRange O K t l r
  merge3 O K p.1 (reverseAll p.2.1) p.2.2

end RedBlack
