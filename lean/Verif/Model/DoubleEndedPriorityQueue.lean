import Verif.Cxx
import Mathlib.Order.Defs.LinearOrder

/-!
# Model of `library/datastructure/double_ended_priority_queue.hpp`

`T` is linearly ordered and `_comp` is `<`.  The standard-library heap functions are modelled by their contract: the vectors
`_max_heap` / `_min_heap` are lists whose order does not matter, `front()` is the largest / smallest element and `pop_heap` followed by
`pop_back` removes it.  `std::nth_element` is a parameter `nth` (any function with the guarantees of the standard, `NthOk`),
`std::sort` is `List.mergeSort`.
-/

namespace Depq
open Cxx

variable {T : Type} [LinearOrder T]

/-- Largest element. -/
def maxOf : List T → Option T
  | [] => none
  | x :: xs => match maxOf xs with
    | none => some x
    | some y => some (if x < y then y else x)

/-- Smallest element. -/
def minOf : List T → Option T
  | [] => none
  | x :: xs => match minOf xs with
    | none => some x
    | some y => some (if y < x then y else x)

/-- `front()` of an empty vector is undefined. -/
def front (o : Option T) : M T := match o with
  | none => .error .ub
  | some x => .ok x

/-- Guarantees of `std::nth_element(begin, begin + k, end)`. -/
def NthOk (nth : List T → Nat → List T) : Prop :=
  ∀ l k, k < l.length → (nth l k).Perm l ∧ ∃ p, (nth l k)[k]? = some p ∧
    (∀ x ∈ (nth l k).take k, x ≤ p) ∧ (∀ x ∈ (nth l k).drop (k + 1), p ≤ x)

/-- Members — double_ended_priority_queue.hpp:90-91. -/
structure State (T : Type) where
  maxHeap : List T
  minHeap : List T
  pivot : T

/-- Constructors — double_ended_priority_queue.hpp:16-31; `p0` is the value-initialised pivot. -/
def init (xs : List T) (p0 : T) : State T := ⟨xs, [], p0⟩

/-- `size` — double_ended_priority_queue.hpp:34. -/
def size (s : State T) : Nat := s.minHeap.length + s.maxHeap.length

variable (nth : List T → Nat → List T)

/-- `push`, `emplace` — double_ended_priority_queue.hpp:36-46. -/
def push (s : State T) (v : T) : State T :=
  if s.minHeap = [] ∨ s.pivot < v then { s with maxHeap := v :: s.maxHeap } else { s with minHeap := v :: s.minHeap }

/-- `v[k]` on the vector. -/
def rdL (l : List T) (k : Nat) : M T := match l[k]? with
  | some x => .ok x
  | none => .error .ub

/-- `ensure_min_heap_nonempty` — double_ended_priority_queue.hpp:93-110. -/
def ensureMin (s : State T) : M (State T) := do
  let siz := size s
  check (decide (siz ≠ 0))
  if s.minHeap ≠ [] then return s
  else if siz = 1 then do
    let p ← front (minOf s.maxHeap)
    return ⟨s.minHeap, s.maxHeap, p⟩
  else do
    let mid := (siz + 1) / 2
    let l := nth s.maxHeap (mid - 1)
    let p ← rdL l (mid - 1)
    return ⟨l.drop mid, s.minHeap ++ l.take mid, p⟩

/-- `ensure_max_heap_nonempty` — double_ended_priority_queue.hpp:111-127. -/
def ensureMax (s : State T) : M (State T) := do
  let siz := size s
  check (decide (siz ≠ 0))
  if s.maxHeap ≠ [] then return s
  else if siz = 1 then return ⟨s.minHeap, s.maxHeap, s.pivot⟩
  else do
    let mid := siz / 2
    let l := nth s.minHeap (mid - 1)
    let p ← rdL l (mid - 1)
    return ⟨s.maxHeap ++ l.drop mid, l.take mid, p⟩

/-- `max`, `top` — double_ended_priority_queue.hpp:48-51,56. -/
def max (s : State T) : M T := do
  check (decide (size s ≠ 0))
  if s.maxHeap ≠ [] then front (maxOf s.maxHeap) else return s.pivot

/-- `min` — double_ended_priority_queue.hpp:52-55. -/
def min (s : State T) : M (State T × T) := do
  let s ← ensureMin nth s
  let x ← front (minOf s.minHeap)
  return (s, x)

/-- `pop_max`, `pop` — double_ended_priority_queue.hpp:58-64,72. -/
def popMax (s : State T) : M (State T × T) := do
  let s ← ensureMax nth s
  let x ← front (maxOf s.maxHeap)
  return ({ s with maxHeap := s.maxHeap.erase x }, x)

/-- `pop_min` — double_ended_priority_queue.hpp:65-71. -/
def popMin (s : State T) : M (State T × T) := do
  let s ← ensureMin nth s
  let x ← front (minOf s.minHeap)
  return ({ s with minHeap := s.minHeap.erase x }, x)

/-- `dump_sorted` — double_ended_priority_queue.hpp:74-81. -/
def dumpSorted (s : State T) : List T :=
  s.minHeap.mergeSort (fun x y => decide (x ≤ y)) ++ s.maxHeap.mergeSort (fun x y => decide (x ≤ y))

/-- Calls. -/
inductive Op (T : Type) where
  | push (v : T) | max | min | popMax | popMin | size | empty | dumpSorted

/-- Answers. -/
inductive Out (T : Type) where
  | unit | val (v : T) | size (n : Nat) | bool (b : Bool) | list (l : List T)
  deriving DecidableEq

/-- One call. -/
def step (s : State T) : Op T → M (State T × Out T)
  | .push v => return (push s v, .unit)
  | .max => do let v ← max s; return (s, .val v)
  | .min => do let r ← min nth s; return (r.1, .val r.2)
  | .popMax => do let r ← popMax nth s; return (r.1, .val r.2)
  | .popMin => do let r ← popMin nth s; return (r.1, .val r.2)
  | .size => return (s, .size (size s))
  | .empty => return (s, .bool (size s == 0))
  | .dumpSorted => return (s, .list (dumpSorted s))

end Depq
