import Verif.Cxx

/-!
# Model of `library/datastructure/util/range_set.hpp`

`std::map<T, T>` is a list of (key, value) pairs sorted by key; `T` is the type of unbounded integers.  An iterator is modelled by
the split of the list in front of it.
-/

namespace RangeSet
open Cxx

/-- Members: the base class `std::map` and `_size` — range_set.hpp:9,114. -/
structure State where
  m : List (Int × Int)
  size : Int

/-- Default constructor — range_set.hpp:11. -/
def init : State := ⟨[], 0⟩

/-- `upper_bound(x)`: the elements before the iterator and those from the iterator on. -/
def upperBound (m : List (Int × Int)) (x : Int) : List (Int × Int) × List (Int × Int) :=
  (m.takeWhile fun p => decide (p.1 ≤ x), m.dropWhile fun p => decide (p.1 ≤ x))

/-- `(*this)[k] = v` of `std::map`. -/
def put : List (Int × Int) → Int → Int → List (Int × Int)
  | [], k, v => [(k, v)]
  | p :: m, k, v => if k < p.1 then (k, v) :: p :: m else if k = p.1 then (k, v) :: m else p :: put m k v

/-- `merge_adjacent_segment` as a number, used in `is_mergeable` — range_set.hpp:116-118. -/
def gap (merge : Bool) : Int := if merge then 1 else 0

/-- `is_mergeable(cur_r, next_l)` — range_set.hpp:116-118. -/
def mergeable (merge : Bool) (r l : Int) : Bool := decide (l ≤ r + gap merge)

/-- `contains` — range_set.hpp:21-24. -/
def contains (s : State) (x : Int) : Bool :=
  match (upperBound s.m x).1.getLast? with
  | none => false
  | some p => decide (x ≤ p.2)

/-- `find_range` — range_set.hpp:31-34; `none` is `end()`. -/
def findRange (s : State) (x : Int) : Option (Int × Int) :=
  match (upperBound s.m x).1.getLast? with
  | none => none
  | some p => if x ≤ p.2 then some p else none

/-- Loop of `insert` — range_set.hpp:56-60: the iterator's remaining list is consumed. Returns `r`, `inserted` and what is left. -/
def mergeLoop (merge : Bool) (r ins : Int) : List (Int × Int) → Int × Int × List (Int × Int)
  | [] => (r, ins, [])
  | p :: m => if mergeable merge r p.1 then mergeLoop merge (max r p.2) (ins - (p.2 - p.1 + 1)) m else (r, ins, p :: m)

/-- The second half of `insert`, after the iterator has been positioned: `a` precedes it, `b` starts with it — range_set.hpp:55-64. -/
def insertAt (merge : Bool) (s : State) (a b : List (Int × Int)) (l r : Int) : State × Int :=
  let q := mergeLoop merge r 0 b
  let ins := q.2.1 + (q.1 - l + 1)
  (⟨put (a ++ q.2.2) l q.1, s.size + ins⟩, ins)

/-- `insert(l, r)` — range_set.hpp:48-65. -/
def insert (merge : Bool) (s : State) (l r : Int) : State × Int :=
  if r < l then (s, 0)
  else
    let q := upperBound s.m l
    match q.1.getLast? with
    | none => insertAt merge s q.1 q.2 l r
    | some p => if mergeable merge p.2 l then insertAt merge s q.1.dropLast (p :: q.2) (min l p.1) r else insertAt merge s q.1 q.2 l r

/-- Loop of `erase` — range_set.hpp:82-86. Returns `tr`, `erased` and what is left. -/
def eraseLoop (r tr er : Int) : List (Int × Int) → Int × Int × List (Int × Int)
  | [] => (tr, er, [])
  | p :: m => if p.1 ≤ r then eraseLoop r p.2 (er + (p.2 - p.1 + 1)) m else (tr, er, p :: m)

/-- `if (tl < l) { (*this)[tl] = l - 1; erased -= l - tl; }` — range_set.hpp:87-90. -/
def keepLeft (m : List (Int × Int)) (tl l er : Int) : List (Int × Int) × Int :=
  if tl < l then (put m tl (l - 1), er - (l - tl)) else (m, er)

/-- `if (r < tr) { (*this)[r + 1] = tr; erased -= tr - r; }` — range_set.hpp:91-94. -/
def keepRight (m : List (Int × Int)) (r tr er : Int) : List (Int × Int) × Int :=
  if r < tr then (put m (r + 1) tr, er - (tr - r)) else (m, er)

/-- The second half of `erase` — range_set.hpp:81-96. -/
def eraseAt (s : State) (a b : List (Int × Int)) (tl l r : Int) : State × Int :=
  let q := eraseLoop r r 0 b
  let x := keepLeft (a ++ q.2.2) tl l q.2.1
  let y := keepRight x.1 r q.1 x.2
  (⟨y.1, s.size - y.2⟩, y.2)

/-- `erase(l, r)` — range_set.hpp:73-97. -/
def erase (s : State) (l r : Int) : State × Int :=
  if r < l then (s, 0)
  else
    let q := upperBound s.m l
    match q.1.getLast? with
    | none => eraseAt s q.1 q.2 l l r
    | some p => if l ≤ p.2 then eraseAt s q.1.dropLast (p :: q.2) p.1 l r else eraseAt s q.1 q.2 l l r

/-- `minimum_excluded` — range_set.hpp:100-104. -/
def minimumExcluded (s : State) (lower : Int) : Int := match findRange s lower with
  | none => lower
  | some p => p.2 + 1

/-- `maximum_excluded` — range_set.hpp:107-111. -/
def maximumExcluded (s : State) (upper : Int) : Int := match findRange s upper with
  | none => upper
  | some p => p.1 - 1

/-- Calls; `insert(x)` is `insert(x, x)` (:43-45), `erase(x)` is `erase(x, x)` (:68-70); `ranges` iterates over the map. -/
inductive Op where
  | insert (l r : Int) | erase (l r : Int) | contains (x : Int) | findRange (x : Int) | size | numberOfRanges | ranges
  | minimumExcluded (x : Int) | maximumExcluded (x : Int)
  deriving DecidableEq

/-- Answers. -/
inductive Out where
  | int (v : Int) | bool (b : Bool) | range (p : Option (Int × Int)) | list (m : List (Int × Int))
  deriving DecidableEq

/-- One call — `size`, `number_of_elements`, `number_of_ranges`: range_set.hpp:14-18. -/
def step (merge : Bool) (s : State) : Op → M (State × Out)
  | .insert l r => let q := insert merge s l r; return (q.1, .int q.2)
  | .erase l r => let q := erase s l r; return (q.1, .int q.2)
  | .contains x => return (s, .bool (contains s x))
  | .findRange x => return (s, .range (findRange s x))
  | .size => return (s, .int s.size)
  | .numberOfRanges => return (s, .int s.m.length)
  | .ranges => return (s, .list s.m)
  | .minimumExcluded x => return (s, .int (minimumExcluded s x))
  | .maximumExcluded x => return (s, .int (maximumExcluded s x))

end RangeSet
