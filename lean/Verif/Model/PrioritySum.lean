import Verif.Cxx
import Mathlib.Data.List.Sort
import Mathlib.Algebra.Group.Defs

/-!
# Model of `library/datastructure/util/priority_sum.hpp`

The value type is a linearly ordered commutative group (overflow is not modelled). The comparator is `<` of the type: `MaximumPrioritySum<T>` is the model for `T`,
`MinimumPrioritySum<T>` (line 87) the model for `T` with the reversed order. A `std::priority_queue` is a list with its top at the head and the other elements in order.
-/

namespace PrioritySum
open Cxx

variable {α : Type*} [LinearOrder α] [AddCommGroup α]

/-- The members — lines 52-57. -/
structure State (α : Type*) where
  k : Int
  sum : α
  head : List α
  delHead : List α
  tail : List α
  delTail : List α
deriving DecidableEq

/-- `push` of `_head_k` and `_del_head_k`. -/
def pushHead (x : α) (l : List α) : List α := l.orderedInsert (· ≥ ·) x

/-- `push` of `_tail` and `_del_tail`. -/
def pushTail (x : α) (l : List α) : List α := l.orderedInsert (· ≤ ·) x

/-- The constructor — lines 15, 16. -/
def init (k : Int) : State α := ⟨k, 0, [], [], [], []⟩

/-- `get_sum` — lines 18-20. -/
def getSum (s : State α) : α := s.sum

/-- `int(_head_k.size() - _del_head_k.size())` — lines 60, 70. -/
def headSize (s : State α) : Int := (s.head.length : Int) - s.delHead.length

/-- The first loop of `fix` — lines 60-69. -/
def fillStep (s : State α) : M (Option (State α)) :=
  if headSize s < s.k then
    match s.tail with
    | [] => return none
    | v :: tail =>
      if s.delTail.head? = some v then return some { s with tail := tail, delTail := s.delTail.tail }
      else return some { s with tail := tail, sum := s.sum + v, head := pushHead v s.head }
  else return none

/-- The second loop of `fix` — lines 70-79; `top` of an empty queue is undefined. -/
def drainStep (s : State α) : M (Option (State α)) :=
  if headSize s > s.k then
    match s.head with
    | [] => .error .ub
    | v :: head =>
      if s.delHead.head? = some v then return some { s with head := head, delHead := s.delHead.tail }
      else return some { s with head := head, sum := s.sum - v, tail := pushTail v s.tail }
  else return none

/-- `fix` — lines 59-80; the number of rounds is bounded by the sizes of the queues. -/
def fix (s : State α) : M (State α) := do
  let s ← loop fillStep s.tail.length s
  loop drainStep s.head.length s

/-- `insert` — lines 22-26. -/
def insert (s : State α) (v : α) : M (State α) :=
  fix { s with sum := s.sum + v, head := pushHead v s.head }

/-- `erase` — lines 28-39; `_rev_cmp(v, _head_k.top())` is `v > top`. -/
def erase (s : State α) (v : α) : M (State α) :=
  match s.head with
  | [] => fix { s with delTail := pushTail v s.delTail }
  | t :: head =>
    if v = t then fix { s with sum := s.sum - v, head := head }
    else if v > t then fix { s with sum := s.sum - v, delHead := pushHead v s.delHead }
    else fix { s with delTail := pushTail v s.delTail }

/-- `set_k` — line 42; `incr_k` and `decr_k` (lines 43, 44) call it with `k + 1` and `k - 1`. -/
def setK (s : State α) (k : Int) : M (State α) := fix { s with k := k }

/-- `size` — lines 46-48. -/
def size (s : State α) : Int := ((s.head.length : Int) + s.tail.length) - (s.delHead.length + s.delTail.length)

/-- One call. -/
inductive Op (α : Type*)
  | insert (v : α) | erase (v : α) | setK (k : Int)

/-- One call. -/
def step (s : State α) : Op α → M (State α)
  | .insert v => insert s v
  | .erase v => erase s v
  | .setK k => setK s k

/-- `PrioritySum(k)` followed by the calls. -/
def run (k : Int) (ops : List (Op α)) : M (State α) := ops.foldlM step (init k)

end PrioritySum
