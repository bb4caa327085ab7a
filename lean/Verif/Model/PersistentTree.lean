import Verif.Cxx

/-!
# Model of `library/datastructure/segment_tree/persistent_{,lazy_,dual_,commutative_dual_}segment_tree.hpp`

The nodes live in a static `ObjectPool` (library/util/object_pool.hpp, `auto_extend` false). Nothing is ever freed, so the pool hands out its nodes in order, and `clear_pool` only starts again from the first one: nodes handed out later keep what was stored in them before.
A pointer is an index into the pool, `none` the null pointer. A class without `_laz` (`_dat`) is modelled with the type `Unit` for it. Sizes are natural numbers and `int` does not overflow (sizes below 2^30).
-/

namespace PTree
open Cxx

variable {T F : Type}

/-- The template arguments `op`, `e`, `mapping`, `composition`, `id` (those that the class has). -/
structure Prm (T F : Type) where
  op : T → T → T
  e : T
  mapping : F → T → T
  composition : F → F → F
  id : F

/-- `Node` — persistent_lazy_segment_tree.hpp:19-26, persistent_segment_tree.hpp:18-24, persistent_dual_segment_tree.hpp:18-24, persistent_commutative_dual_segment_tree.hpp:18-24. -/
structure Nd (T F : Type) where
  c0 : Option Nat
  c1 : Option Nat
  dat : T
  laz : F
  deriving DecidableEq

/-- `ObjectPool<node_type>` — object_pool.hpp:16-18: the nodes and the number of nodes handed out. -/
structure Heap (T F : Type) where
  nodes : Array (Nd T F)
  top : Nat
  deriving DecidableEq

/-- `init_pool(siz)` — persistent_lazy_segment_tree.hpp:214-216, object_pool.hpp:21-23. -/
def initPool (P : Prm T F) (siz : Nat) : Heap T F := ⟨Array.replicate siz ⟨none, none, P.e, P.id⟩, 0⟩

/-- `clear_pool()` — persistent_lazy_segment_tree.hpp:217-219, object_pool.hpp:37-41. -/
def clearPool (h : Heap T F) : Heap T F := { h with top := 0 }

/-- `_pool.alloc()` — object_pool.hpp:28-31; past the end of the pool it is undefined. -/
def alloc (h : Heap T F) : M (Heap T F × Nat) :=
  if h.top < h.nodes.size then return ({ h with top := h.top + 1 }, h.top) else .error .ub

/-- `*p`. -/
def load (h : Heap T F) (p : Option Nat) : M (Nd T F) :=
  match p with
  | none => .error .ub
  | some q => rd h.nodes q

/-- `*p = x`. -/
def store (h : Heap T F) (p : Nat) (x : Nd T F) : M (Heap T F) := do
  let a ← wr h.nodes p x
  return { h with nodes := a }

/-- `clone(node)` — persistent_lazy_segment_tree.hpp:28-30. -/
def clone (h : Heap T F) (p : Option Nat) : M (Heap T F × Nat) := do
  let x ← load h p
  let (h, q) ← alloc h
  let h ← store h q x
  return (h, q)

/-- `p->_ch[0] = c`. -/
def setC0 (h : Heap T F) (p : Nat) (c : Option Nat) : M (Heap T F) := do
  let x ← load h (some p)
  store h p { x with c0 := c }

/-- `p->_ch[1] = c`. -/
def setC1 (h : Heap T F) (p : Nat) (c : Option Nat) : M (Heap T F) := do
  let x ← load h (some p)
  store h p { x with c1 := c }

/-- `p->_dat = x`. -/
def setDat (h : Heap T F) (p : Nat) (d : T) : M (Heap T F) := do
  let x ← load h (some p)
  store h p { x with dat := d }

/-- `p->_laz = f`. -/
def setLaz (h : Heap T F) (p : Nat) (f : F) : M (Heap T F) := do
  let x ← load h (some p)
  store h p { x with laz := f }

/-- `update(node)` — persistent_segment_tree.hpp:30-32, persistent_lazy_segment_tree.hpp:32-34. -/
def update (P : Prm T F) (h : Heap T F) (p : Nat) : M (Heap T F) := do
  let x ← load h (some p)
  let a ← load h x.c0
  let b ← load h x.c1
  setDat h p (P.op a.dat b.dat)

/-- The members of the trees: `_n` and `_root`. -/
structure Obj where
  n : Nat
  root : Option Nat
  deriving DecidableEq

/-- The default constructors — persistent_segment_tree.hpp:167, persistent_lazy_segment_tree.hpp:210, persistent_dual_segment_tree.hpp:97, persistent_commutative_dual_segment_tree.hpp:77. -/
def dflt : Obj := ⟨0, none⟩

/-- `rec` of `build(dat)` — persistent_segment_tree.hpp:39-49, persistent_lazy_segment_tree.hpp:54-66; in the lazy class line 58 or 63 writes the identity to `_laz` (`lz`). For an empty vector the recursion only ends with the pool: the bound is never reached. -/
def buildRec (P : Prm T F) (lz : Bool) (dat : Array T) : Nat → Heap T F → Nat → Nat → M (Heap T F × Nat)
  | 0, _, _, _ => .error .diverge
  | k + 1, h, l, r => do
    let (h, res) ← alloc h
    if r - l = 1 then
      let x ← rd dat l
      let h ← setDat h res x
      let h ← (if lz then setLaz h res P.id else return h : M (Heap T F))
      return (h, res)
    else
      let m := (l + r) / 2
      let (h, a) ← buildRec P lz dat k h l m
      let h ← setC0 h res (some a)
      let (h, b) ← buildRec P lz dat k h m r
      let h ← setC1 h res (some b)
      let h ← update P h res
      let h ← (if lz then setLaz h res P.id else return h : M (Heap T F))
      return (h, res)

/-- The constructors from a vector — persistent_segment_tree.hpp:50, 169, persistent_lazy_segment_tree.hpp:67, 212. -/
def ofVec (P : Prm T F) (lz : Bool) (h : Heap T F) (dat : Array T) : M (Heap T F × Obj) := do
  let (h, r) ← buildRec P lz dat (dat.size + h.nodes.size + 1) h 0 dat.size
  return (h, ⟨dat.size, some r⟩)

/-- The constructors from a length — persistent_segment_tree.hpp:168, persistent_lazy_segment_tree.hpp:211. -/
def ofSize (P : Prm T F) (lz : Bool) (h : Heap T F) (n : Nat) : M (Heap T F × Obj) := ofVec P lz h (Array.replicate n P.e)

/-- `prod_all` — persistent_segment_tree.hpp:53-55, 178-180, persistent_lazy_segment_tree.hpp:70-72, 221-223. -/
def prodAll (P : Prm T F) (h : Heap T F) (o : Obj) : M T :=
  match o.root with
  | none => return P.e
  | some p => do
    let x ← load h (some p)
    return x.dat

end PTree

/-! ## `PersistentSegmentTree` -/

namespace PersistentSegmentTree
open Cxx PTree

variable {T : Type}

/-- `Node::prod` — persistent_segment_tree.hpp:56-61; `k` bounds the depth of the recursion. -/
def prodRec (P : Prm T Unit) (h : Heap T Unit) (ql qr : Int) : Nat → Option Nat → Nat → Nat → M T
  | 0, _, _, _ => .error .diverge
  | k + 1, node, tl, tr =>
    if (tr : Int) ≤ ql ∨ qr ≤ tl then return P.e
    else if ql ≤ tl ∧ (tr : Int) ≤ qr then do
      let x ← load h node
      return x.dat
    else do
      let tm := (tl + tr) / 2
      let x ← load h node
      let a ← prodRec P h ql qr k x.c0 tl tm
      let b ← prodRec P h ql qr k x.c1 tm tr
      return P.op a b

/-- `prod(l, r)` — lines 181-184. -/
def prod (P : Prm T Unit) (h : Heap T Unit) (o : Obj) (l r : Int) : M T := do
  check (decide (0 ≤ l ∧ l ≤ r ∧ r ≤ o.n))
  prodRec P h l r (o.n + 1) o.root 0 o.n

/-- One round of the loop of `search_node<false>` — lines 71-83. -/
def getStep (h : Heap T Unit) (i : Nat) (s : Option Nat × Nat × Nat) : M (Option (Option Nat × Nat × Nat)) :=
  if s.2.2 - s.2.1 > 1 then do
    let m := (s.2.1 + s.2.2) / 2
    let x ← load h s.1
    if i < m then return some (x.c0, s.2.1, m) else return some (x.c1, m, s.2.2)
  else return none

/-- `get(i)` — lines 94-98, 189-192. -/
def get (h : Heap T Unit) (o : Obj) (i : Int) : M T := do
  check (decide (0 ≤ i ∧ i < o.n))
  let s ← loop (getStep h i.toNat) o.n (o.root, 0, o.n)
  let x ← load h s.1
  return x.dat

/-- The variables of `search_node<true>`: `cur`, `l`, `r` and the stack `path`, its top first. -/
structure Walk (T : Type) where
  h : Heap T Unit
  cur : Nat
  l : Nat
  r : Nat
  path : List Nat

/-- One round of the loop of `search_node<true>` — lines 71-83. -/
def walkStep (i : Nat) (s : Walk T) : M (Option (Walk T)) :=
  if s.r - s.l > 1 then do
    let m := (s.l + s.r) / 2
    let x ← load s.h (some s.cur)
    if i < m then
      let (h, c) ← clone s.h x.c0
      let h ← setC0 h s.cur (some c)
      return some ⟨h, c, s.l, m, s.cur :: s.path⟩
    else
      let (h, c) ← clone s.h x.c1
      let h ← setC1 h s.cur (some c)
      return some ⟨h, c, m, s.r, s.cur :: s.path⟩
  else return none

/-- The rest of `search_node<true>` — lines 84-88. -/
def finish (P : Prm T Unit) (f : T → T) (s : Walk T) : M (Heap T Unit) := do
  let x ← load s.h (some s.cur)
  let h ← setDat s.h s.cur (f x.dat)
  forEach s.path h (fun h p => update P h p)

/-- `apply(i, f)` — lines 63-92, 99-102, 197-201. -/
def apply (P : Prm T Unit) (h : Heap T Unit) (o : Obj) (i : Int) (f : T → T) : M (Heap T Unit × Obj) := do
  check (decide (0 ≤ i ∧ i < o.n))
  let (h, res) ← clone h o.root
  let s ← loop (walkStep i.toNat) o.n ⟨h, res, 0, o.n, []⟩
  let h ← finish P f s
  return (h, ⟨o.n, some res⟩)

/-- `set(i, v)` — lines 103-105, 202-205. -/
def set (P : Prm T Unit) (h : Heap T Unit) (o : Obj) (i : Int) (v : T) : M (Heap T Unit × Obj) := apply P h o i fun _ => v

/-- `rec` of `max_right` — lines 110-123; returns the index and `sum`. -/
def maxRightRec (P : Prm T Unit) (h : Heap T Unit) (l : Nat) (f : T → Bool) : Nat → Option Nat → Nat → Nat → T → M (Nat × T)
  | 0, _, _, _, _ => .error .diverge
  | k + 1, cur, tl, tr, sum => do
    let go : M (Nat × T) := do
      let tm := (tl + tr) / 2
      let x ← load h cur
      let (resL, sum) ← maxRightRec P h l f k x.c0 tl tm sum
      if resL ≠ tm then return (resL, sum)
      else maxRightRec P h l f k x.c1 tm tr sum
    if tr ≤ l then return (tr, sum)
    else if l ≤ tl then
      let x ← load h cur
      let nxt := P.op sum x.dat
      if f nxt then return (tr, nxt)
      else if tr - tl = 1 then return (tl, sum)
      else go
    else go

/-- `max_right(l, f)` — lines 107-126, 207-211. -/
def maxRight (P : Prm T Unit) (h : Heap T Unit) (o : Obj) (l : Int) (f : T → Bool) : M Nat := do
  check (decide (0 ≤ l ∧ l ≤ o.n))
  check (f P.e)
  let (r, _) ← maxRightRec P h l.toNat f (o.n + 1) o.root 0 o.n P.e
  return r

/-- `rec` of `min_left` — lines 130-143. -/
def minLeftRec (P : Prm T Unit) (h : Heap T Unit) (r : Nat) (f : T → Bool) : Nat → Option Nat → Nat → Nat → T → M (Nat × T)
  | 0, _, _, _, _ => .error .diverge
  | k + 1, cur, tl, tr, sum => do
    let go : M (Nat × T) := do
      let tm := (tl + tr) / 2
      let x ← load h cur
      let (resR, sum) ← minLeftRec P h r f k x.c1 tm tr sum
      if resR ≠ tm then return (resR, sum)
      else minLeftRec P h r f k x.c0 tl tm sum
    if r ≤ tl then return (tl, sum)
    else if tr ≤ r then
      let x ← load h cur
      let nxt := P.op x.dat sum
      if f nxt then return (tl, nxt)
      else if tr - tl = 1 then return (tr, sum)
      else go
    else go

/-- `min_left(r, f)` — lines 127-146, 216-220. -/
def minLeft (P : Prm T Unit) (h : Heap T Unit) (o : Obj) (r : Int) (f : T → Bool) : M Nat := do
  check (decide (0 ≤ r ∧ r ≤ o.n))
  check (f P.e)
  let (l, _) ← minLeftRec P h r.toNat f (o.n + 1) o.root 0 o.n P.e
  return l

/-- `rec` of `dump` — lines 151-157; `k` bounds the depth of the recursion. -/
def dumpRec (h : Heap T Unit) : Nat → Option Nat → M (List T)
  | 0, _ => .error .diverge
  | k + 1, cur => do
    let x ← load h cur
    if x.c0 = none then return [x.dat]
    else
      let a ← dumpRec h k x.c0
      let b ← dumpRec h k x.c1
      return a ++ b

/-- `dump()` — lines 148-164, 226-232. A path longer than the number of nodes repeats a node, so then the recursion is infinite. -/
def dump (h : Heap T Unit) (o : Obj) : M (List T) :=
  match o.root with
  | none => return []
  | some p => dumpRec h (h.nodes.size + 1) (some p)

/-- The calls that make a new tree; `v` is the number of an earlier one. -/
inductive Op (T : Type)
  | dflt | ofVec (dat : Array T) | ofSize (n : Nat) | apply (v : Nat) (i : Int) (f : T → T) | set (v : Nat) (i : Int) (x : T)

/-- One call on the pool and the trees made so far. -/
def step (P : Prm T Unit) (s : Heap T Unit × List Obj) (o : Op T) : M (Heap T Unit × List Obj) := do
  let (h, t) ← (match o with
    | .dflt => return (s.1, dflt)
    | .ofVec dat => ofVec P false s.1 dat
    | .ofSize n => ofSize P false s.1 n
    | .apply v i f => apply P s.1 (s.2.getD v PTree.dflt) i f
    | .set v i x => set P s.1 (s.2.getD v PTree.dflt) i x : M (Heap T Unit × Obj))
  return (h, s.2 ++ [t])

/-- A history that starts with the pool `h`. -/
def run (P : Prm T Unit) (h : Heap T Unit) (ops : List (Op T)) : M (Heap T Unit × List Obj) := ops.foldlM (step P) (h, [])

end PersistentSegmentTree

/-! ## `PersistentLazySegmentTree` -/

namespace PersistentLazySegmentTree
open Cxx PTree

variable {T F : Type}

/-- `Node::prod` — persistent_lazy_segment_tree.hpp:73-79. -/
def prodRec (P : Prm T F) (h : Heap T F) (ql qr : Int) : Nat → Option Nat → Nat → Nat → F → M T
  | 0, _, _, _, _ => .error .diverge
  | k + 1, node, tl, tr, f =>
    if (tr : Int) ≤ ql ∨ qr ≤ tl then return P.e
    else if ql ≤ tl ∧ (tr : Int) ≤ qr then do
      let x ← load h node
      return P.mapping f x.dat
    else do
      let tm := (tl + tr) / 2
      let x ← load h node
      let g := P.composition f x.laz
      let a ← prodRec P h ql qr k x.c0 tl tm g
      let b ← prodRec P h ql qr k x.c1 tm tr g
      return P.op a b

/-- `prod(l, r)` — lines 224-227. -/
def prod (P : Prm T F) (h : Heap T F) (o : Obj) (l r : Int) : M T := do
  check (decide (0 ≤ l ∧ l ≤ r ∧ r ≤ o.n))
  prodRec P h l r (o.n + 1) o.root 0 o.n P.id

/-- `Node::apply_all` — lines 81-87. -/
def applyAllN (P : Prm T F) (h : Heap T F) (node : Option Nat) (f : F) : M (Heap T F × Option Nat) :=
  match node with
  | none => return (h, none)
  | some p => do
    let (h, q) ← clone h (some p)
    let x ← load h (some q)
    let h ← setDat h q (P.mapping f x.dat)
    let h ← setLaz h q (P.composition f x.laz)
    return (h, some q)

/-- `push<false>(node)` — lines 36-46. -/
def pushAt (P : Prm T F) (h : Heap T F) (p : Nat) : M (Heap T F) := do
  let x ← load h (some p)
  let (h, a) ← applyAllN P h x.c0 x.laz
  let h ← setC0 h p a
  let x ← load h (some p)
  let (h, b) ← applyAllN P h x.c1 x.laz
  let h ← setC1 h p b
  setLaz h p P.id

/-- `Node::apply` of a range — lines 88-97. -/
def applyRec (P : Prm T F) (ql qr : Int) (f : F) : Nat → Heap T F → Option Nat → Nat → Nat → M (Heap T F × Option Nat)
  | 0, _, _, _, _ => .error .diverge
  | k + 1, h, node, tl, tr =>
    if (tr : Int) ≤ ql ∨ qr ≤ tl then return (h, node)
    else if ql ≤ tl ∧ (tr : Int) ≤ qr then applyAllN P h node f
    else do
      let (h, res) ← clone h node
      let h ← pushAt P h res
      let tm := (tl + tr) / 2
      let x ← load h (some res)
      let (h, a) ← applyRec P ql qr f k h x.c0 tl tm
      let h ← setC0 h res a
      let x ← load h (some res)
      let (h, b) ← applyRec P ql qr f k h x.c1 tm tr
      let h ← setC1 h res b
      let h ← update P h res
      return (h, some res)

/-- `apply_all(f)` — lines 232-234. -/
def applyAll (P : Prm T F) (h : Heap T F) (o : Obj) (f : F) : M (Heap T F × Obj) := do
  let (h, r) ← applyAllN P h o.root f
  return (h, ⟨o.n, r⟩)

/-- `apply(l, r, f)` — lines 235-237. -/
def apply (P : Prm T F) (h : Heap T F) (o : Obj) (l r : Int) (f : F) : M (Heap T F × Obj) := do
  let (h, r) ← applyRec P l r f (o.n + 1) h o.root 0 o.n
  return (h, ⟨o.n, r⟩)

/-- One round of the loop of `get` — lines 126-136. -/
def getStep (P : Prm T F) (h : Heap T F) (i : Nat) (s : Option Nat × Nat × Nat × F) : M (Option (Option Nat × Nat × Nat × F)) :=
  if s.2.2.1 - s.2.1 > 1 then do
    let m := (s.2.1 + s.2.2.1) / 2
    let x ← load h s.1
    let f := P.composition s.2.2.2 x.laz
    if i < m then return some (x.c0, s.2.1, m, f) else return some (x.c1, m, s.2.2.1, f)
  else return none

/-- `get(i)` — lines 123-138, 239-242. -/
def get (P : Prm T F) (h : Heap T F) (o : Obj) (i : Int) : M T := do
  check (decide (0 ≤ i ∧ i < o.n))
  let s ← loop (getStep P h i.toNat) o.n (o.root, 0, o.n, P.id)
  let x ← load h s.1
  return P.mapping s.2.2.2 x.dat

/-- The variables of `update_leaf`: `cur`, `l`, `r` and the stack `path`, its top first. -/
structure Walk (T F : Type) where
  h : Heap T F
  cur : Nat
  l : Nat
  r : Nat
  path : List Nat

/-- `cur = c`; reaching the null pointer is an error as soon as it is used, and it always is. -/
def deref (c : Option Nat) : M Nat :=
  match c with
  | none => .error .ub
  | some p => return p

/-- One round of the loop of `update_leaf` — lines 106-117. -/
def walkStep (P : Prm T F) (i : Nat) (s : Walk T F) : M (Option (Walk T F)) :=
  if s.r - s.l > 1 then do
    let h ← pushAt P s.h s.cur
    let m := (s.l + s.r) / 2
    let x ← load h (some s.cur)
    if i < m then
      let c ← deref x.c0
      return some ⟨h, c, s.l, m, s.cur :: s.path⟩
    else
      let c ← deref x.c1
      return some ⟨h, c, m, s.r, s.cur :: s.path⟩
  else return none

/-- The rest of `update_leaf` — lines 118-120. -/
def finish (P : Prm T F) (f : T → T) (s : Walk T F) : M (Heap T F) := do
  let x ← load s.h (some s.cur)
  let h ← setDat s.h s.cur (f x.dat)
  forEach s.path h (fun h p => update P h p)

/-- `apply(i, f)` — lines 99-121, 139-142, 247-251 (line 250 is modelled as if it passed `f` on, see DESIGN.md). -/
def applyAt (P : Prm T F) (h : Heap T F) (o : Obj) (i : Int) (f : T → T) : M (Heap T F × Obj) := do
  check (decide (0 ≤ i ∧ i < o.n))
  let (h, res) ← clone h o.root
  let s ← loop (walkStep P i.toNat) o.n ⟨h, res, 0, o.n, []⟩
  let h ← finish P f s
  return (h, ⟨o.n, some res⟩)

/-- `set(i, v)` — lines 143-145, 252-255. -/
def set (P : Prm T F) (h : Heap T F) (o : Obj) (i : Int) (v : T) : M (Heap T F × Obj) := applyAt P h o i fun _ => v

/-- `rec` of `max_right` — lines 150-164. -/
def maxRightRec (P : Prm T F) (h : Heap T F) (l : Nat) (pred : T → Bool) : Nat → Option Nat → Nat → Nat → T → F → M (Nat × T)
  | 0, _, _, _, _, _ => .error .diverge
  | k + 1, cur, tl, tr, sum, f => do
    let go : M (Nat × T) := do
      let tm := (tl + tr) / 2
      let x ← load h cur
      let g := P.composition f x.laz
      let (resL, sum) ← maxRightRec P h l pred k x.c0 tl tm sum g
      if resL ≠ tm then return (resL, sum)
      else maxRightRec P h l pred k x.c1 tm tr sum g
    if tr ≤ l then return (tr, sum)
    else if l ≤ tl then
      let x ← load h cur
      let nxt := P.op sum (P.mapping f x.dat)
      if pred nxt then return (tr, nxt)
      else if tr - tl = 1 then return (tl, sum)
      else go
    else go

/-- `max_right(l, pred)` — lines 147-167, 257-261. -/
def maxRight (P : Prm T F) (h : Heap T F) (o : Obj) (l : Int) (pred : T → Bool) : M Nat := do
  check (decide (0 ≤ l ∧ l ≤ o.n))
  check (pred P.e)
  let (r, _) ← maxRightRec P h l.toNat pred (o.n + 1) o.root 0 o.n P.e P.id
  return r

/-- `rec` of `min_left` — lines 171-185. -/
def minLeftRec (P : Prm T F) (h : Heap T F) (r : Nat) (pred : T → Bool) : Nat → Option Nat → Nat → Nat → T → F → M (Nat × T)
  | 0, _, _, _, _, _ => .error .diverge
  | k + 1, cur, tl, tr, sum, f => do
    let go : M (Nat × T) := do
      let tm := (tl + tr) / 2
      let x ← load h cur
      let g := P.composition f x.laz
      let (resR, sum) ← minLeftRec P h r pred k x.c1 tm tr sum g
      if resR ≠ tm then return (resR, sum)
      else minLeftRec P h r pred k x.c0 tl tm sum g
    if r ≤ tl then return (tl, sum)
    else if tr ≤ r then
      let x ← load h cur
      let nxt := P.op (P.mapping f x.dat) sum
      if pred nxt then return (tl, nxt)
      else if tr - tl = 1 then return (tr, sum)
      else go
    else go

/-- `min_left(r, pred)` — lines 168-188, 266-270. -/
def minLeft (P : Prm T F) (h : Heap T F) (o : Obj) (r : Int) (pred : T → Bool) : M Nat := do
  check (decide (0 ≤ r ∧ r ≤ o.n))
  check (pred P.e)
  let (l, _) ← minLeftRec P h r.toNat pred (o.n + 1) o.root 0 o.n P.e P.id
  return l

/-- `rec` of `dump` — lines 193-200. -/
def dumpRec (P : Prm T F) (h : Heap T F) : Nat → Option Nat → F → M (List T)
  | 0, _, _ => .error .diverge
  | k + 1, cur, f => do
    let x ← load h cur
    if x.c0 = none then return [P.mapping f x.dat]
    else
      let a ← dumpRec P h k x.c0 (P.composition x.laz f)
      let b ← dumpRec P h k x.c1 (P.composition x.laz f)
      return P.mapping f x.dat :: (a ++ b)

/-- `dump()` — lines 190-207, 276-282. -/
def dump (P : Prm T F) (h : Heap T F) (o : Obj) : M (List T) :=
  match o.root with
  | none => return []
  | some p => dumpRec P h (h.nodes.size + 1) (some p) P.id

/-- The calls that make a new tree; `v` is the number of an earlier one. -/
inductive Op (T F : Type)
  | dflt | ofVec (dat : Array T) | ofSize (n : Nat) | applyAll (v : Nat) (f : F) | apply (v : Nat) (l r : Int) (f : F) | applyAt (v : Nat) (i : Int) (f : T → T) | set (v : Nat) (i : Int) (x : T)

/-- One call on the pool and the trees made so far. -/
def step (P : Prm T F) (s : Heap T F × List Obj) (o : Op T F) : M (Heap T F × List Obj) := do
  let (h, t) ← (match o with
    | .dflt => return (s.1, dflt)
    | .ofVec dat => ofVec P true s.1 dat
    | .ofSize n => ofSize P true s.1 n
    | .applyAll v f => applyAll P s.1 (s.2.getD v PTree.dflt) f
    | .apply v l r f => apply P s.1 (s.2.getD v PTree.dflt) l r f
    | .applyAt v i f => applyAt P s.1 (s.2.getD v PTree.dflt) i f
    | .set v i x => set P s.1 (s.2.getD v PTree.dflt) i x : M (Heap T F × Obj))
  return (h, s.2 ++ [t])

/-- A history that starts with the pool `h`. -/
def run (P : Prm T F) (h : Heap T F) (ops : List (Op T F)) : M (Heap T F × List Obj) := ops.foldlM (step P) (h, [])

end PersistentLazySegmentTree

/-! ## `PersistentDualSegmentTree` and `PersistentCommutativeDualSegmentTree` -/

namespace PersistentDualSegmentTree
open Cxx PTree

variable {F : Type}

/-- `rec` of `build(n)` — persistent_dual_segment_tree.hpp:51-59, persistent_commutative_dual_segment_tree.hpp:31-39. -/
def buildRec (P : Prm Unit F) : Nat → Heap Unit F → Nat → Nat → M (Heap Unit F × Nat)
  | 0, _, _, _ => .error .diverge
  | k + 1, h, l, r => do
    let (h, res) ← alloc h
    let h ← setLaz h res P.id
    if r - l > 1 then
      let m := (l + r) / 2
      let (h, a) ← buildRec P k h l m
      let h ← setC0 h res (some a)
      let (h, b) ← buildRec P k h m r
      let h ← setC1 h res (some b)
      return (h, res)
    else return (h, res)

/-- The constructor from a length — persistent_dual_segment_tree.hpp:60, 98, persistent_commutative_dual_segment_tree.hpp:40, 78. -/
def ofSize (P : Prm Unit F) (h : Heap Unit F) (n : Nat) : M (Heap Unit F × Obj) := do
  let (h, r) ← buildRec P (n + 1) h 0 n
  return (h, ⟨n, some r⟩)

/-- `Node::apply_all` — persistent_dual_segment_tree.hpp:63-68, persistent_commutative_dual_segment_tree.hpp:43-48. -/
def applyAllN (P : Prm Unit F) (h : Heap Unit F) (node : Option Nat) (f : F) : M (Heap Unit F × Option Nat) :=
  match node with
  | none => return (h, none)
  | some p => do
    let (h, q) ← clone h (some p)
    let x ← load h (some q)
    let h ← setLaz h q (P.composition f x.laz)
    return (h, some q)

/-- `push<true>(node)` — persistent_dual_segment_tree.hpp:31-45. -/
def push (P : Prm Unit F) (h : Heap Unit F) (node : Option Nat) : M (Heap Unit F × Option Nat) := do
  let x ← load h node
  if x.c0 = none then return (h, node)
  else
    let (h, p) ← clone h node
    let x ← load h (some p)
    let (h, a) ← applyAllN P h x.c0 x.laz
    let h ← setC0 h p a
    let x ← load h (some p)
    let (h, b) ← applyAllN P h x.c1 x.laz
    let h ← setC1 h p b
    let h ← setLaz h p P.id
    return (h, some p)

/-- The pointer `res` is used at once. -/
def deref (c : Option Nat) : M Nat :=
  match c with
  | none => .error .ub
  | some p => return p

/-- `Node::apply` — persistent_dual_segment_tree.hpp:69-77 (`comm` false), persistent_commutative_dual_segment_tree.hpp:49-57 (`comm` true: line 52 copies the node instead of pushing). -/
def applyRec (P : Prm Unit F) (comm : Bool) (ql qr : Int) (f : F) : Nat → Heap Unit F → Option Nat → Nat → Nat → M (Heap Unit F × Option Nat)
  | 0, _, _, _, _ => .error .diverge
  | k + 1, h, node, tl, tr =>
    if (tr : Int) ≤ ql ∨ qr ≤ tl then return (h, node)
    else if ql ≤ tl ∧ (tr : Int) ≤ qr then applyAllN P h node f
    else do
      let (h, res) ← (if comm then do
          let (h, p) ← clone h node
          return (h, some p)
        else push P h node : M (Heap Unit F × Option Nat))
      let res ← deref res
      let tm := (tl + tr) / 2
      let x ← load h (some res)
      let (h, a) ← applyRec P comm ql qr f k h x.c0 tl tm
      let h ← setC0 h res a
      let x ← load h (some res)
      let (h, b) ← applyRec P comm ql qr f k h x.c1 tm tr
      let h ← setC1 h res b
      return (h, some res)

/-- `apply_all(f)` — persistent_dual_segment_tree.hpp:107-109, persistent_commutative_dual_segment_tree.hpp:87-89. -/
def applyAll (P : Prm Unit F) (h : Heap Unit F) (o : Obj) (f : F) : M (Heap Unit F × Obj) := do
  let (h, r) ← applyAllN P h o.root f
  return (h, ⟨o.n, r⟩)

/-- `apply(l, r, f)` — persistent_dual_segment_tree.hpp:110-112, persistent_commutative_dual_segment_tree.hpp:90-92. -/
def apply (P : Prm Unit F) (comm : Bool) (h : Heap Unit F) (o : Obj) (l r : Int) (f : F) : M (Heap Unit F × Obj) := do
  let (h, r) ← applyRec P comm l r f (o.n + 1) h o.root 0 o.n
  return (h, ⟨o.n, r⟩)

/-- One round of the loop of `get` — persistent_dual_segment_tree.hpp:82-92, persistent_commutative_dual_segment_tree.hpp:62-72. -/
def getStep (P : Prm Unit F) (h : Heap Unit F) (i : Nat) (s : Option Nat × Nat × Nat × F) : M (Option (Option Nat × Nat × Nat × F)) :=
  if s.2.2.1 - s.2.1 > 1 then do
    let x ← load h s.1
    let f := P.composition s.2.2.2 x.laz
    let m := (s.2.1 + s.2.2.1) / 2
    if i < m then return some (x.c0, s.2.1, m, f) else return some (x.c1, m, s.2.2.1, f)
  else return none

/-- `get(i)` — persistent_dual_segment_tree.hpp:79-94, 114-117, persistent_commutative_dual_segment_tree.hpp:59-74, 94-97. -/
def get (P : Prm Unit F) (h : Heap Unit F) (o : Obj) (i : Int) : M F := do
  check (decide (0 ≤ i ∧ i < o.n))
  let s ← loop (getStep P h i.toNat) o.n (o.root, 0, o.n, P.id)
  let x ← load h s.1
  return P.composition s.2.2.2 x.laz

/-- The calls that make a new tree; `v` is the number of an earlier one. -/
inductive Op (F : Type)
  | dflt | ofSize (n : Nat) | applyAll (v : Nat) (f : F) | apply (v : Nat) (l r : Int) (f : F)

/-- One call on the pool and the trees made so far. -/
def step (P : Prm Unit F) (comm : Bool) (s : Heap Unit F × List Obj) (o : Op F) : M (Heap Unit F × List Obj) := do
  let (h, t) ← (match o with
    | .dflt => return (s.1, dflt)
    | .ofSize n => ofSize P s.1 n
    | .applyAll v f => applyAll P s.1 (s.2.getD v PTree.dflt) f
    | .apply v l r f => apply P comm s.1 (s.2.getD v PTree.dflt) l r f : M (Heap Unit F × Obj))
  return (h, s.2 ++ [t])

/-- A history that starts with the pool `h`. -/
def run (P : Prm Unit F) (comm : Bool) (h : Heap Unit F) (ops : List (Op F)) : M (Heap Unit F × List Obj) := ops.foldlM (step P comm) (h, [])

end PersistentDualSegmentTree
