import Verif.Cxx

/-!
# Model of `library/datastructure/persistent_array.hpp`

The nodes live in a static `ObjectPool` (library/util/object_pool.hpp, `auto_extend` false). Nothing is ever freed, so the pool hands out its nodes in order: the model keeps the nodes handed out so far, a pointer is an index, and asking for more than `cap` nodes is undefined behaviour (`*it++` past the end).
Indices are `Nat`. The `int` arithmetic of `build` and `dump` (`p << lg_ary`, `nid += p`) is not bounded in the model; it does not overflow while `n << (2 * lg_ary)` fits an `int`.
-/

namespace PersistentArray
open Cxx

variable {T : Type}

/-- `Node` — persistent_array.hpp:15-21; `none` is the null pointer. -/
structure Nd (T : Type) where
  ch : Array (Option Nat)
  val : T

/-- The pool: nodes handed out, capacity — object_pool.hpp:16-31. -/
structure Heap (T : Type) where
  nodes : Array (Nd T)
  cap : Nat

/-- `init_pool(capacity)` — persistent_array.hpp:75-77. -/
def initPool (cap : Nat) : Heap T := ⟨#[], cap⟩

/-- `*p`. -/
def load (h : Heap T) (p : Option Nat) : M (Nd T) :=
  match p with
  | none => .error .ub
  | some q => rd h.nodes q

/-- `*p = x`. -/
def store (h : Heap T) (p : Nat) (x : Nd T) : M (Heap T) := do
  let a ← wr h.nodes p x
  return { h with nodes := a }

/-- `&(*pool.alloc() = x)` — lines 24, 27, object_pool.hpp:28-31. -/
def allocWith (h : Heap T) (x : Nd T) : M (Heap T × Nat) :=
  if h.nodes.size < h.cap then return ({ h with nodes := h.nodes.push x }, h.nodes.size) else .error .ub

/-- `clone(node)` — lines 23-25. -/
def cloneNode (h : Heap T) (p : Option Nat) : M (Heap T × Nat) := do
  let x ← load h p
  allocWith h x

/-- `new_node(val)` — lines 26-28. -/
def newNode (lg : Nat) (h : Heap T) (v : T) : M (Heap T × Nat) := allocWith h ⟨Array.replicate (1 <<< lg) none, v⟩

/-- One round of `for (; id; --id >>= lg_ary) node = node->_ch[id & mask]` — line 30. -/
def walkStep (lg : Nat) (h : Heap T) (s : Option Nat × Nat) : M (Option (Option Nat × Nat)) :=
  if s.2 = 0 then return none
  else do
    let x ← load h s.1
    let c ← rd x.ch (s.2 &&& (1 <<< lg - 1))
    return some (c, (s.2 - 1) >>> lg)

/-- The loop of `get(node, id)` — line 30: the node holding element `id`. -/
def walk (lg : Nat) (h : Heap T) (p : Option Nat) (id : Nat) : M (Option Nat) := do
  let s ← loop (walkStep lg h) (id + 1) (p, id)
  return s.1

/-- `get(node, id)` — lines 29-32, 86-88. -/
def get (lg : Nat) (h : Heap T) (p : Option Nat) (id : Nat) : M T := do
  let q ← walk lg h p id
  let x ← load h q
  return x.val

/-- One round of `for (; id; --id >>= lg_ary) cur = cur->_ch[id & mask] = clone(cur->_ch[id & mask])` — line 35. -/
def setStep (lg : Nat) (s : Heap T × Nat × Nat) : M (Option (Heap T × Nat × Nat)) :=
  if s.2.2 = 0 then return none
  else do
    let x ← rd s.1.nodes s.2.1
    let c ← rd x.ch (s.2.2 &&& (1 <<< lg - 1))
    let (h, c') ← cloneNode s.1 c
    let x ← rd h.nodes s.2.1
    let ch ← wr x.ch (s.2.2 &&& (1 <<< lg - 1)) (some c')
    let h ← store h s.2.1 { x with ch := ch }
    return some (h, c', (s.2.2 - 1) >>> lg)

/-- Lines 35-36 of `set`, started at the cloned root `cur`. -/
def setFrom (lg : Nat) (fuel : Nat) (h : Heap T) (cur id : Nat) (v : T) : M (Heap T) := do
  let s ← loop (setStep lg) fuel (h, cur, id)
  let x ← rd s.1.nodes s.2.1
  store s.1 s.2.1 { x with val := v }

/-- `set(node, id, val)` — lines 33-38, 89-91. -/
def set (lg : Nat) (h : Heap T) (p : Option Nat) (id : Nat) (v : T) : M (Heap T × Option Nat) := do
  let (h, res) ← cloneNode h p
  let h ← setFrom lg (id + 1) h res id v
  return (h, some res)

/-- `mut_set(node, id, val)` — lines 39-41, 92-94. -/
def mutSet (lg : Nat) (h : Heap T) (p : Option Nat) (id : Nat) (v : T) : M (Heap T × T) := do
  match ← walk lg h p id with
  | none => .error .ub
  | some q =>
    let x ← rd h.nodes q
    let h ← store h q { x with val := v }
    return (h, x.val)

/-- `cur->_ch[d] = new_node(init[nid])` — lines 48, 51. -/
def addChild (lg : Nat) (init : Array T) (h : Heap T) (cur d nid : Nat) : M (Heap T × Nat) := do
  let v ← rd init nid
  let (h, c) ← newNode lg h v
  let x ← rd h.nodes cur
  let ch ← wr x.ch d (some c)
  let h ← store h cur { x with ch := ch }
  return (h, c)

/-- One round of the loop over `d` — lines 47-50; the state is the pool, `d` and `nid`. -/
def buildStep (lg : Nat) (init : Array T) (rec : Heap T → Nat → Nat → M (Heap T)) (cur p : Nat) (s : Heap T × Nat × Nat) :
    M (Option (Heap T × Nat × Nat)) :=
  if s.2.1 < 1 <<< lg then
    if s.2.2 < init.size then do
      let (h, c) ← addChild lg init s.1 cur s.2.1 s.2.2
      let h ← rec h c s.2.2
      return some (h, s.2.1 + 1, s.2.2 + p)
    else return none
  else return none

/-- The last child — line 51, reached if the loop ran to its end. -/
def buildLast (lg : Nat) (init : Array T) (rec : Heap T → Nat → Nat → M (Heap T)) (cur : Nat) (s : Heap T × Nat × Nat) : M (Heap T) :=
  if s.2.1 < 1 <<< lg then return s.1
  else if s.2.2 < init.size then do
    let (h, c) ← addChild lg init s.1 cur 0 s.2.2
    rec h c s.2.2
  else return s.1

/-- `dfs(cur, id, p)` of `build` — lines 45-52. -/
def buildDfs (lg : Nat) (init : Array T) : Nat → Heap T → Nat → Nat → Nat → M (Heap T)
  | 0, _, _, _, _ => .error .diverge
  | fuel + 1, h, cur, id, p => do
    let s ← loop (buildStep lg init (fun h c nid => buildDfs lg init fuel h c nid (p <<< lg)) cur p) (1 <<< lg) (h, 1, id + p)
    buildLast lg init (fun h c nid => buildDfs lg init fuel h c nid (p <<< lg)) cur s

/-- `build(init)` — lines 42-56, 81. -/
def build (lg : Nat) (h : Heap T) (init : Array T) : M (Heap T × Option Nat) :=
  if init.size = 0 then return (h, none)
  else do
    let v ← rd init 0
    let (h, r) ← newNode lg h v
    let h ← buildDfs lg init (init.size + 1) h r 0 1
    return (h, some r)

/-- `clone()` — lines 95-98. -/
def clone (h : Heap T) (p : Option Nat) : M (Heap T × Option Nat) :=
  if p.isNone then return (h, p)
  else do
    let (h, q) ← cloneNode h p
    return (h, some q)

/-- `res.resize(id + 1)` if `res` is shorter — line 61. -/
def resizeTo (dflt : T) (res : Array T) (id : Nat) : Array T :=
  if res.size ≤ id then res ++ Array.replicate (id + 1 - res.size) dflt else res

/-- One round of the loop over `d` in `dump` — lines 64-67. -/
def dumpStep (lg : Nat) (ch : Array (Option Nat)) (rec : Array T → Option Nat → Nat → M (Array T)) (p : Nat) (s : Array T × Nat × Nat) :
    M (Option (Array T × Nat × Nat)) :=
  if s.2.1 < 1 <<< lg then do
    let c ← rd ch s.2.1
    if c.isSome then do
      let res ← rec s.1 c s.2.2
      return some (res, s.2.1 + 1, s.2.2 + p)
    else return none
  else return none

/-- The last child — line 68. -/
def dumpLast (lg : Nat) (ch : Array (Option Nat)) (rec : Array T → Option Nat → Nat → M (Array T)) (s : Array T × Nat × Nat) : M (Array T) :=
  if s.2.1 < 1 <<< lg then return s.1
  else do
    let c ← rd ch 0
    if c.isSome then rec s.1 c s.2.2 else return s.1

/-- `dfs(cur, id, p)` of `dump` — lines 60-69; `root` is the captured variable `node`, whose value line 62 writes. -/
def dumpDfs (lg : Nat) (dflt : T) (h : Heap T) (root : Option Nat) : Nat → Array T → Option Nat → Nat → Nat → M (Array T)
  | 0, _, _, _, _ => .error .diverge
  | fuel + 1, res, cur, id, p => do
    let r ← load h root
    let res ← wr (resizeTo dflt res id) id r.val
    let x ← load h cur
    let s ← loop (dumpStep lg x.ch (fun res c nid => dumpDfs lg dflt h root fuel res c nid (p <<< lg)) p) (1 <<< lg) (res, 1, id + p)
    dumpLast lg x.ch (fun res c nid => dumpDfs lg dflt h root fuel res c nid (p <<< lg)) s

/-- `dump(node)` — lines 57-72, 99-101. -/
def dump (lg : Nat) (dflt : T) (h : Heap T) (p : Option Nat) : M (Array T) :=
  if p.isNone then return #[]
  else dumpDfs lg dflt h p (h.nodes.size + 1) #[] p 0 1

end PersistentArray
