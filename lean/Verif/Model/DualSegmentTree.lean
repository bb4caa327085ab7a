import Verif.Model.LazySegmentTree

/-!
# Model of `library/datastructure/segment_tree/commutative_dual_segment_tree.hpp` and `dual_segment_tree.hpp`

`mapping`, `composition`, `id` are the template parameters.
-/

namespace DualSegmentTree
open Cxx

/-- Members — commutative_dual_segment_tree.hpp:32-34. -/
structure State (T F : Type) where
  n : Nat
  m : Nat
  data : Array T
  lazy : Array F

/-- The template parameters — commutative_dual_segment_tree.hpp:8. -/
structure Params (T F : Type) where
  mapping : F → T → T
  composition : F → F → F
  id : F

variable {T F : Type} (p : Params T F)

/-- `CommutativeDualSegmentTree(std::vector<T>&&)` — commutative_dual_segment_tree.hpp:11. -/
def ofVector (a : Array T) : M (State T F) := do
  let m ← SegmentTree.ceilPow2 a.size
  return ⟨a.size, m, a, Array.replicate m p.id⟩

/-- `res = mapping(lazy[i], res)` while `i` — commutative_dual_segment_tree.hpp:18. -/
def getStep (s : State T F) (q : Nat × T) : M (Option (Nat × T)) :=
  if q.1 = 0 then return none else do
    let z ← rd s.lazy q.1
    return some (q.1 / 2, p.mapping z q.2)

/-- `T operator[](int i) const` (= `get`) — commutative_dual_segment_tree.hpp:15-23. -/
def get (s : State T F) (i : Nat) : M T := do
  check (decide (i < s.n))
  let v ← rd s.data i
  let (_, v) ← loop (getStep p s) (i + s.m) ((i + s.m) / 2, v)
  return v

/-- `void apply(int k, const F& f)` — commutative_dual_segment_tree.hpp:36-42. -/
def applyNode (s : State T F) (k : Nat) (f : F) : M (State T F) :=
  if k < s.m then do
    let z ← rd s.lazy k
    let lazy ← wr s.lazy k (p.composition f z)
    return { s with lazy := lazy }
  else if k - s.m < s.n then do
    let v ← rd s.data (k - s.m)
    let data ← wr s.data (k - s.m) (p.mapping f v)
    return { s with data := data }
  else return s

/-- `if (l & 1) apply(l++, f);` — commutative_dual_segment_tree.hpp:27. -/
def applyL (f : F) (s : State T F) (l : Nat) : M (Nat × State T F) :=
  if l % 2 = 1 then do let s ← applyNode p s l f; return (l + 1, s) else return (l, s)

/-- `if (r & 1) apply(--r, f);` — commutative_dual_segment_tree.hpp:28. -/
def applyR (f : F) (s : State T F) (r : Nat) : M (Nat × State T F) :=
  if r % 2 = 1 then do let s ← applyNode p s (r - 1) f; return (r - 1, s) else return (r, s)

/-- One evaluation of the loop of `apply` — commutative_dual_segment_tree.hpp:26-29. -/
def applyStep (f : F) (q : Nat × Nat × State T F) : M (Option (Nat × Nat × State T F)) :=
  let (l, r, s) := q
  if l < r then do
    let (l, s) ← applyL p f s l
    let (r, s) ← applyR p f s r
    return some (l / 2, r / 2, s)
  else return none

/-- `void CommutativeDualSegmentTree::apply(int l, int r, const F& f)` — commutative_dual_segment_tree.hpp:24-30. -/
def applyC (s : State T F) (l r : Nat) (f : F) : M (State T F) := do
  check (decide (r ≤ s.n))
  let (_, _, s) ← loop (applyStep p f) (r + s.m) (l + s.m, r + s.m, s)
  return s

/-- `void DualSegmentTree::push(int k)` — dual_segment_tree.hpp:16-19. -/
def push (s : State T F) (k : Nat) : M (State T F) := do
  let z ← rd s.lazy k
  let s ← applyNode p s (2 * k) z
  let z ← rd s.lazy k
  let s ← applyNode p s (2 * k + 1) z
  let lazy ← wr s.lazy k p.id
  return { s with lazy := lazy }

/-- `if (((l >> i) << i) != l) push(l >> i);` — dual_segment_tree.hpp:26. -/
def pushL (l i : Nat) (s : State T F) : M (State T F) :=
  if (l >>> i) <<< i ≠ l then push p s (l >>> i) else return s

/-- `if (((r >> i) << i) != r) push((r - 1) >> i);` — dual_segment_tree.hpp:27. -/
def pushR (r i : Nat) (s : State T F) : M (State T F) :=
  if (r >>> i) <<< i ≠ r then push p s ((r - 1) >>> i) else return s

/-- `void DualSegmentTree::push(int l, int r)` — dual_segment_tree.hpp:20-29. -/
def push2 (s : State T F) (l r : Nat) : M (State T F) := do
  let log ← Bits.ctz s.m
  let l := l + s.m
  let r := r + s.m
  forDown (log + 1) 1 s fun i s => do
    let s ← pushL p l i s
    pushR p r i s

/-- `void DualSegmentTree::apply(int l, int r, const F& f)` — dual_segment_tree.hpp:11-14. -/
def applyD (s : State T F) (l r : Nat) (f : F) : M (State T F) := do
  let s ← push2 p s l r
  applyC p s l r f

/-- The calls a user can make. -/
inductive Op (F : Type) where
  | get (i : Nat)
  | apply (l r : Nat) (f : F)

/-- Answers. -/
inductive Out (T : Type) where
  | unit
  | val (v : T)
  deriving DecidableEq

/-- One call on a `CommutativeDualSegmentTree`. -/
def stepC (s : State T F) : Op F → M (State T F × Out T)
  | .get i => do let v ← get p s i; return (s, .val v)
  | .apply l r f => do let s ← applyC p s l r f; return (s, .unit)

/-- One call on a `DualSegmentTree`. -/
def stepD (s : State T F) : Op F → M (State T F × Out T)
  | .get i => do let v ← get p s i; return (s, .val v)
  | .apply l r f => do let s ← applyD p s l r f; return (s, .unit)

end DualSegmentTree
