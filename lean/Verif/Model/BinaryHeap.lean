import Verif.Cxx

/-!
# Model of `library/datastructure/heap/binary_heap.hpp`

`lt` is `BinaryHeap::compare` (:121-127): the comparator itself for `MinBinaryHeap`, the reversed comparator for
`MaxBinaryHeap`.  A moved-from slot keeps its old value in the model; it is never read before being overwritten.
-/

namespace BinaryHeap
open Cxx

variable {T : Type} (lt : T → T → Bool)

/-- `compare` — binary_heap.hpp:121-127. -/
def compare (isMin : Bool) (comp : T → T → Bool) (x y : T) : Bool := if isMin then comp x y else comp y x

/-- Loop body of `heapify_up` — binary_heap.hpp:99-103; state (`_dat`, `cur`). -/
def upStep (root : Nat) (val : T) (s : Array T × Nat) : M (Option (Array T × Nat)) :=
  if s.2 ≠ root then do
    let par := (s.2 - 1) / 2
    let p ← rd s.1 par
    if !lt val p then return none
    else do
      let a ← wr s.1 s.2 p
      return some (a, par)
  else return none

/-- `heapify_up(leaf, root = 0)` — binary_heap.hpp:96-105; only ever called with `root = 0`. -/
def heapifyUp (a : Array T) (leaf : Nat) : M (Array T) := do
  let val ← rd a leaf
  let s ← loop (upStep lt 0 val) leaf (a, leaf)
  wr s.1 s.2 val

/-- `ch += ch + 1 < n and compare(_dat[ch + 1], _dat[ch])` — binary_heap.hpp:111-112. -/
def pickChild (a : Array T) (cur : Nat) : M Nat :=
  let ch := 2 * cur + 1
  if ch + 1 < a.size then do
    let x ← rd a (ch + 1)
    let y ← rd a ch
    if lt x y then return ch + 1 else return ch
  else return ch

/-- Loop body of `heapify_down` — binary_heap.hpp:110-116. -/
def downStep (val : T) (s : Array T × Nat) : M (Option (Array T × Nat)) :=
  if s.2 < s.1.size / 2 then do
    let ch ← pickChild lt s.1 s.2
    let c ← rd s.1 ch
    if !lt c val then return none
    else do
      let a ← wr s.1 s.2 c
      return some (a, ch)
  else return none

/-- `heapify_down(root)` — binary_heap.hpp:106-119. -/
def heapifyDown (a : Array T) (root : Nat) : M (Array T) := do
  let val ← rd a root
  let s ← loop (downStep lt val) a.size (a, root)
  wr s.1 s.2 val

/-- `construct_heap()` — binary_heap.hpp:77-80. -/
def constructHeap (a : Array T) : M (Array T) := forDown (a.size / 2) 0 a fun i a => heapifyDown lt a i

/-- `push` (and `emplace`) — binary_heap.hpp:49-56. -/
def push (a : Array T) (v : T) : M (Array T) := heapifyUp lt (a.push v) a.size

/-- `top` — binary_heap.hpp:58-61. -/
def top (a : Array T) : M T := do
  check (decide (a.size ≠ 0))
  rd a 0

/-- `pop` — binary_heap.hpp:63-71: swap front and back, drop the back, sift the front down. -/
def pop (a : Array T) : M (Array T × T) := do
  check (decide (a.size ≠ 0))
  let x ← rd a 0
  let y ← rd a (a.size - 1)
  let a ← wr a 0 y
  let a ← wr a (a.size - 1) x
  let res ← rd a (a.size - 1)
  let a ← heapifyDown lt a.pop 0
  return (a, res)

/-- Calls. -/
inductive Op (T : Type) where
  | push (v : T) | top | pop | size | empty | clear

/-- Answers. -/
inductive Out (T : Type) where
  | unit | val (v : T) | size (n : Nat) | bool (b : Bool)
  deriving DecidableEq

/-- One call — `empty`, `size`, `clear`: binary_heap.hpp:43-46. -/
def step (a : Array T) : Op T → M (Array T × Out T)
  | .push v => do let a ← push lt a v; return (a, .unit)
  | .top => do let v ← top a; return (a, .val v)
  | .pop => do let r ← pop lt a; return (r.1, .val r.2)
  | .size => return (a, .size a.size)
  | .empty => return (a, .bool (a.size == 0))
  | .clear => return (#[], .unit)

end BinaryHeap
