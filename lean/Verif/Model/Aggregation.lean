import Verif.Cxx

/-!
# Model of `library/datastructure/queue_aggregation.hpp` and `library/datastructure/deque_aggregation.hpp`

The iterators are not modelled.  `std::move` out of an element that is erased or cleared before it is read again is modelled as a copy.
-/

namespace QueueAggregation
open Cxx

/-- Members — queue_aggregation.hpp:121. -/
structure State (T S : Type) where
  stL : Array (T × S)
  stR : Array (T × S)

/-- The template parameters `e`, `append`, `merge` — queue_aggregation.hpp:8. -/
structure Params (T S R : Type) where
  e : S
  append : S → T → S
  merge : S → S → R

variable {T S R : Type} (p : Params T S R)

/-- `sum_type prod(const std::vector<...>& st) const` — queue_aggregation.hpp:123-125. -/
def top (st : Array (T × S)) : S :=
  match st.back? with
  | none => p.e
  | some q => q.2

/-- `QueueAggregation() = default` — queue_aggregation.hpp:82. -/
def init : State T S := ⟨#[], #[]⟩

/-- `R prod() const` — queue_aggregation.hpp:90-92. -/
def prod (s : State T S) : R := p.merge (top p s.stL) (top p s.stR)

/-- `void push_back(const value_type&)` — queue_aggregation.hpp:93. -/
def pushBack (s : State T S) (v : T) : State T S := { s with stR := s.stR.push (v, p.append (top p s.stR) v) }

/-- The constructors from a range — queue_aggregation.hpp:83-88. -/
def ofList (vs : List T) : State T S := vs.foldl (pushBack p) init

/-- `void pop_front()` — queue_aggregation.hpp:94-103. -/
def popFront (s : State T S) : M (State T S) :=
  if s.stL.size ≠ 0 then return { s with stL := s.stL.pop }
  else do
    check (decide (s.stR.size ≠ 0))
    let stL ← forDown s.stR.size 1 s.stL fun i stL => do
      let q ← rd s.stR i
      return stL.push (q.1, p.append (top p stL) q.1)
    return ⟨stL, #[]⟩

/-- `front()` — queue_aggregation.hpp:104. -/
def front (s : State T S) : M T :=
  if s.stL.size ≠ 0 then do return (← rd s.stL (s.stL.size - 1)).1 else do return (← rd s.stR 0).1

/-- `back()` — queue_aggregation.hpp:105. -/
def back (s : State T S) : M T :=
  if s.stR.size ≠ 0 then do return (← rd s.stR (s.stR.size - 1)).1 else do return (← rd s.stL 0).1

/-- `operator[](int i)` — queue_aggregation.hpp:106-109; `~k = size_l - i - 1`. -/
def get (s : State T S) (i : Nat) : M T :=
  if i < s.stL.size then do return (← rd s.stL (s.stL.size - i - 1)).1 else do return (← rd s.stR (i - s.stL.size)).1

/-- `int size() const` — queue_aggregation.hpp:111. -/
def size (s : State T S) : Nat := s.stL.size + s.stR.size

/-- The calls a user can make. -/
inductive Op (T : Type) where
  | pushBack (v : T) | popFront | prod | front | back | get (i : Nat) | size | clear
  deriving DecidableEq

/-- Answers. -/
inductive Out (T R : Type) where
  | unit | val (v : T) | sum (r : R) | num (k : Nat)
  deriving DecidableEq

/-- One call — `clear`: queue_aggregation.hpp:112. -/
def step (s : State T S) : Op T → M (State T S × Out T R)
  | .pushBack v => return (pushBack p s v, .unit)
  | .popFront => do let s ← popFront p s; return (s, .unit)
  | .prod => return (s, .sum (prod p s))
  | .front => do let v ← front s; return (s, .val v)
  | .back => do let v ← back s; return (s, .val v)
  | .get i => do let v ← get s i; return (s, .val v)
  | .size => return (s, .num (size s))
  | .clear => return (init, .unit)

end QueueAggregation

namespace DequeAggregation
open Cxx

/-- Members — deque_aggregation.hpp:159. -/
structure State (T : Type) where
  stL : Array (T × T)
  stR : Array (T × T)

variable {T : Type} (op : T → T → T) (e : T)

/-- `value_type prod(const std::vector<...>& st) const` — deque_aggregation.hpp:161-163. -/
def top (st : Array (T × T)) : T :=
  match st.back? with
  | none => e
  | some q => q.2

/-- `DequeAggregation() = default` — deque_aggregation.hpp:107. -/
def init : State T := ⟨#[], #[]⟩

/-- `value_type prod() const` — deque_aggregation.hpp:115-117. -/
def prod (s : State T) : T := op (top e s.stL) (top e s.stR)

/-- `push_back` — deque_aggregation.hpp:118. -/
def pushBack (s : State T) (v : T) : State T := { s with stR := s.stR.push (v, op (top e s.stR) v) }

/-- `push_front` — deque_aggregation.hpp:119. -/
def pushFront (s : State T) (v : T) : State T := { s with stL := s.stL.push (v, op v (top e s.stL)) }

/-- `if (l == 0) return; a[0].second = a[0].first; for (i = 1; i < l; ++i) a[i].second = g(a[i].first, a[i - 1].second);`
— deque_aggregation.hpp:127-129, 138-140. -/
def resum (g : T → T → T) (a : Array (T × T)) (l : Nat) : M (Array (T × T)) :=
  if l = 0 then return a
  else do
    let q ← rd a 0
    let a ← wr a 0 (q.1, q.1)
    forUp 1 l a fun i a => do
      let q ← rd a i
      let q' ← rd a (i - 1)
      wr a i (q.1, g q.1 q'.2)

/-- `pop_back` — deque_aggregation.hpp:120-130. -/
def popBack (s : State T) : M (State T) :=
  if s.stR.size ≠ 0 then return { s with stR := s.stR.pop }
  else do
    let siz := s.stL.size
    let l := siz / 2
    let r := siz - l
    check (decide (r ≠ 0))
    let s ← forDown r 1 s fun i s => do
      let q ← rd s.stL i
      return pushBack op e s q.1
    let a ← resum (fun x acc => op x acc) (s.stL.extract r siz) l
    return { s with stL := a }

/-- `pop_front` — deque_aggregation.hpp:131-141. -/
def popFront (s : State T) : M (State T) :=
  if s.stL.size ≠ 0 then return { s with stL := s.stL.pop }
  else do
    let siz := s.stR.size
    let r := siz / 2
    let l := siz - r
    check (decide (l ≠ 0))
    let s ← forDown l 1 s fun i s => do
      let q ← rd s.stR i
      return pushFront op e s q.1
    let a ← resum (fun x acc => op acc x) (s.stR.extract l siz) r
    return { s with stR := a }

/-- `front()` — deque_aggregation.hpp:142. -/
def front (s : State T) : M T :=
  if s.stL.size ≠ 0 then do return (← rd s.stL (s.stL.size - 1)).1 else do return (← rd s.stR 0).1

/-- `back()` — deque_aggregation.hpp:143. -/
def back (s : State T) : M T :=
  if s.stR.size ≠ 0 then do return (← rd s.stR (s.stR.size - 1)).1 else do return (← rd s.stL 0).1

/-- `operator[](int i)` — deque_aggregation.hpp:144-147. -/
def get (s : State T) (i : Nat) : M T :=
  if i < s.stL.size then do return (← rd s.stL (s.stL.size - i - 1)).1 else do return (← rd s.stR (i - s.stL.size)).1

/-- `int size() const` — deque_aggregation.hpp:149. -/
def size (s : State T) : Nat := s.stL.size + s.stR.size

/-- The calls a user can make. -/
inductive Op (T : Type) where
  | pushBack (v : T) | pushFront (v : T) | popBack | popFront | prod | front | back | get (i : Nat) | size | clear
  deriving DecidableEq

/-- Answers. -/
inductive Out (T : Type) where
  | unit | val (v : T) | num (k : Nat)
  deriving DecidableEq

/-- One call — `clear`: deque_aggregation.hpp:150. -/
def step (s : State T) : Op T → M (State T × Out T)
  | .pushBack v => return (pushBack op e s v, .unit)
  | .pushFront v => return (pushFront op e s v, .unit)
  | .popBack => do let s ← popBack op e s; return (s, .unit)
  | .popFront => do let s ← popFront op e s; return (s, .unit)
  | .prod => return (s, .val (prod op e s))
  | .front => do let v ← front s; return (s, .val v)
  | .back => do let v ← back s; return (s, .val v)
  | .get i => do let v ← get s i; return (s, .val v)
  | .size => return (s, .num (size s))
  | .clear => return (init, .unit)

end DequeAggregation
