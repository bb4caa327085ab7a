import Verif.Cxx

/-!
# Model of `library/datastructure/sliding_window_minimum.hpp`

`std::deque<int>` is a list, front first.
-/

namespace SlidingWindowMinimum
open Cxx

/-- Members — sliding_window_minimum.hpp:69-73. -/
structure State (T : Type) where
  a : Array T
  l : Nat
  r : Nat
  dq : List Nat

variable {T : Type} (cmp : T → T → Bool)

/-- Constructor — sliding_window_minimum.hpp:27-30; `gen(i)` for `i = 0, …, n - 1`. -/
def init (n : Nat) (gen : Nat → T) : State T := ⟨Array.ofFn fun i : Fin n => gen i, 0, 0, []⟩

/-- `while (not _dq.empty() and _cmp(_a[_dq.back()], v)) _dq.pop_back();` — sliding_window_minimum.hpp:34. -/
def popStep (a : Array T) (v : T) (dq : List Nat) : M (Option (List Nat)) :=
  match dq.getLast? with
  | none => return none
  | some b => do
    let x ← rd a b
    if cmp x v then return some dq.dropLast else return none

/-- `void proc_right()` — sliding_window_minimum.hpp:31-36. -/
def procRight (s : State T) : M (State T) := do
  check (decide (s.r < s.a.size))
  let v ← rd s.a s.r
  let dq ← loop (popStep cmp s.a v) s.dq.length s.dq
  return { s with dq := dq ++ [s.r], r := s.r + 1 }

/-- `void proc_right(int to_index)` — sliding_window_minimum.hpp:37-39. -/
def procRightTo (s : State T) (t : Nat) : M (State T) :=
  loop (fun s => if s.r < t then do let s ← procRight cmp s; return some s else return none) (t - s.r) s

/-- `void proc_left()` — sliding_window_minimum.hpp:40-44; `front()` of an empty deque is undefined. -/
def procLeft (s : State T) : M (State T) := do
  check (decide (s.l < s.r))
  match s.dq with
  | [] => .error .ub
  | b :: dq => if b = s.l then return { s with dq := dq, l := s.l + 1 } else return { s with l := s.l + 1 }

/-- `void proc_left(int to_index)` — sliding_window_minimum.hpp:45-47. -/
def procLeftTo (s : State T) (t : Nat) : M (State T) :=
  loop (fun s => if s.l < t then do let s ← procLeft s; return some s else return none) (t - s.l) s

/-- `void proc(int new_l, int new_r)` — sliding_window_minimum.hpp:48-50. -/
def proc (s : State T) (newL newR : Nat) : M (State T) := do
  let s ← procRightTo cmp s newR
  procLeftTo s newL

/-- `int arg_query() const` — sliding_window_minimum.hpp:51-54. -/
def argQuery (s : State T) : M Nat := do
  check (decide (s.l < s.r))
  match s.dq with
  | [] => .error .ub
  | b :: _ => return b

/-- `T query() const` — sliding_window_minimum.hpp:55-57. -/
def query (s : State T) : M T := do rd s.a (← argQuery s)

/-- The calls a user can make. -/
inductive Op where
  | procRight | procRightTo (t : Nat) | procLeft | procLeftTo (t : Nat) | proc (l r : Nat)
  | argQuery | query | getLeft | getRight | windowSize
  deriving DecidableEq

/-- Answers. -/
inductive Out (T : Type) where
  | unit | idx (i : Nat) | val (v : T)
  deriving DecidableEq

/-- One call — `get_left`, `get_right`, `get_window_size`: sliding_window_minimum.hpp:59-67. -/
def step (s : State T) : Op → M (State T × Out T)
  | .procRight => do let s ← procRight cmp s; return (s, .unit)
  | .procRightTo t => do let s ← procRightTo cmp s t; return (s, .unit)
  | .procLeft => do let s ← procLeft s; return (s, .unit)
  | .procLeftTo t => do let s ← procLeftTo s t; return (s, .unit)
  | .proc l r => do let s ← proc cmp s l r; return (s, .unit)
  | .argQuery => do let i ← argQuery s; return (s, .idx i)
  | .query => do let v ← query s; return (s, .val v)
  | .getLeft => return (s, .idx s.l)
  | .getRight => return (s, .idx s.r)
  | .windowSize => return (s, .idx (s.r - s.l))

end SlidingWindowMinimum
