import Verif.Cxx

/-!
# Model of `library/datastructure/heap/interval_heap.hpp`

Even indices form a min-heap, odd indices a max-heap; `lt` is the comparator.
-/

namespace IntervalHeap
open Cxx

variable {T : Type} (lt : T → T → Bool)

/-- `std::swap(_dat[i], _dat[j])`. -/
def swap (a : Array T) (i j : Nat) : M (Array T) := do
  let x ← rd a i
  let y ← rd a j
  let a ← wr a i y
  wr a j x

/-- `min_heap_parent` — interval_heap.hpp:138 (only called with `idx >= 2`). -/
def minParent (idx : Nat) : Nat := (idx - 2) / 4 * 2
/-- `max_heap_parent` — interval_heap.hpp:139. -/
def maxParent (idx : Nat) : Nat := minParent idx + 1

/-- Loop body of `fix_min_heap_up` — interval_heap.hpp:99-102. -/
def minUpStep (s : Array T × Nat) : M (Option (Array T × Nat)) :=
  if 2 ≤ s.2 then do
    let par := minParent s.2
    let x ← rd s.1 s.2
    let p ← rd s.1 par
    if lt x p then do
      let a ← swap s.1 s.2 par
      return some (a, par)
    else return none
  else return none

/-- `fix_min_heap_up` — interval_heap.hpp:98-103. -/
def fixMinUp (a : Array T) (idx : Nat) : M (Array T) := do
  let s ← loop (minUpStep lt) idx (a, idx)
  return s.1

/-- Loop body of `fix_max_heap_up` — interval_heap.hpp:105-108. -/
def maxUpStep (s : Array T × Nat) : M (Option (Array T × Nat)) :=
  if 2 ≤ s.2 then do
    let par := maxParent s.2
    let p ← rd s.1 par
    let x ← rd s.1 s.2
    if lt p x then do
      let a ← swap s.1 s.2 par
      return some (a, par)
    else return none
  else return none

/-- `fix_max_heap_up` — interval_heap.hpp:104-109. -/
def fixMaxUp (a : Array T) (idx : Nat) : M (Array T) := do
  let s ← loop (maxUpStep lt) idx (a, idx)
  return s.1

/-- `if (_comp(_dat[r], _dat[l])) std::swap(_dat[l], _dat[r])` — interval_heap.hpp:92. -/
def order2 (a : Array T) (l r : Nat) : M (Array T) := do
  let y ← rd a r
  let x ← rd a l
  if lt y x then swap a l r else return a

/-- `fix_up` — interval_heap.hpp:90-97. -/
def fixUp (a : Array T) (idx : Nat) : M (Array T) :=
  let l := idx / 2 * 2
  let r := l + 1
  if r < a.size then do
    let a ← order2 lt a l r
    let a ← fixMinUp lt a l
    fixMaxUp lt a r
  else do
    let a ← fixMinUp lt a l
    fixMaxUp lt a l

/-- `rch < siz and _comp(_dat[rch], _dat[lch]) ? rch : lch` — interval_heap.hpp:118 (`lt`), :132 (`lt` reversed). -/
def pick (lt : T → T → Bool) (a : Array T) (lch rch : Nat) : M Nat :=
  if rch < a.size then do
    let x ← rd a rch
    let y ← rd a lch
    if lt x y then return rch else return lch
  else return lch

/-- Loop body of `fix_min_heap_down` — interval_heap.hpp:112-121; the flag says that the loop was left by `fix_up(idx); break;`. -/
def minDownStep (s : Array T × Nat × Bool) : M (Option (Array T × Nat × Bool)) :=
  if s.2.2 then return none
  else
    let lch := (s.2.1 + 1) * 2
    let rch := (s.2.1 + 2) * 2
    if s.1.size ≤ lch then do
      let a ← fixUp lt s.1 s.2.1
      return some (a, s.2.1, true)
    else do
      let ch ← pick lt s.1 lch rch
      let c ← rd s.1 ch
      let x ← rd s.1 s.2.1
      if lt c x then do
        let a ← swap s.1 s.2.1 ch
        return some (a, ch, false)
      else return none

/-- `fix_min_heap_down` — interval_heap.hpp:110-122. -/
def fixMinDown (a : Array T) (idx : Nat) : M (Array T) := do
  let s ← loop (minDownStep lt) (a.size + 1) (a, idx, false)
  return s.1

/-- `lch -= lch >= siz` — interval_heap.hpp:127. -/
def clip (n ch : Nat) : Nat := if n ≤ ch then ch - 1 else ch

/-- Loop body of `fix_max_heap_down` — interval_heap.hpp:125-135; `max_heap_child_l idx = 2 idx + 1`, `max_heap_child_r idx = 2 idx + 3`
(:142-143). -/
def maxDownStep (s : Array T × Nat × Bool) : M (Option (Array T × Nat × Bool)) :=
  if s.2.2 then return none
  else
    let lch := clip s.1.size (2 * s.2.1 + 1)
    let rch := clip s.1.size (2 * s.2.1 + 3)
    if s.1.size ≤ lch then do
      let a ← fixUp lt s.1 s.2.1
      return some (a, s.2.1, true)
    else do
      let ch ← pick (fun x y => lt y x) s.1 lch rch
      let x ← rd s.1 s.2.1
      let c ← rd s.1 ch
      if lt x c then do
        let a ← swap s.1 s.2.1 ch
        return some (a, ch, false)
      else return none

/-- `fix_max_heap_down` — interval_heap.hpp:123-136. -/
def fixMaxDown (a : Array T) (idx : Nat) : M (Array T) := do
  let s ← loop (maxDownStep lt) (a.size + 1) (a, idx, false)
  return s.1

/-- `push` (and `emplace`) — interval_heap.hpp:26-33. -/
def push (a : Array T) (v : T) : M (Array T) := fixUp lt (a.push v) a.size

/-- `max_heap_top_index` — interval_heap.hpp:88. -/
def maxTop (a : Array T) : Nat := if 2 ≤ a.size then 1 else 0

/-- `max` — interval_heap.hpp:35-38. -/
def max (a : Array T) : M T := do
  check (decide (a.size ≠ 0))
  rd a (maxTop a)

/-- `min` — interval_heap.hpp:39-42. -/
def min (a : Array T) : M T := do
  check (decide (a.size ≠ 0))
  rd a 0

/-- `pop_max` — interval_heap.hpp:44-52. -/
def popMax (a : Array T) : M (Array T × T) := do
  check (decide (a.size ≠ 0))
  let idx := maxTop a
  let a ← swap a idx (a.size - 1)
  let res ← rd a (a.size - 1)
  let a ← fixMaxDown lt a.pop idx
  return (a, res)

/-- `pop_min` — interval_heap.hpp:53-61. -/
def popMin (a : Array T) : M (Array T × T) := do
  check (decide (a.size ≠ 0))
  let a ← swap a 0 (a.size - 1)
  let res ← rd a (a.size - 1)
  let a ← fixMinDown lt a.pop 0
  return (a, res)

/-- Calls. -/
inductive Op (T : Type) where
  | push (v : T) | max | min | popMax | popMin | size | empty

/-- Answers. -/
inductive Out (T : Type) where
  | unit | val (v : T) | size (n : Nat) | bool (b : Bool)
  deriving DecidableEq

/-- One call. -/
def step (a : Array T) : Op T → M (Array T × Out T)
  | .push v => do let a ← push lt a v; return (a, .unit)
  | .max => do let v ← max a; return (a, .val v)
  | .min => do let v ← min a; return (a, .val v)
  | .popMax => do let r ← popMax lt a; return (r.1, .val r.2)
  | .popMin => do let r ← popMin lt a; return (r.1, .val r.2)
  | .size => return (a, .size a.size)
  | .empty => return (a, .bool (a.size == 0))

end IntervalHeap
