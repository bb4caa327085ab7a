import Verif.Cxx

/-!
# Model of `library/range_query/static range_count_distinct.hpp`

`atcoder::fenwick_tree<int>` is modelled by its documented contract: an array, `add` adds to one entry, `sum(l, r)` is the sum of the entries `l, …, r - 1`, and both assert
that their arguments are in range. The hash map is a function with default 0. `int` is unbounded.
-/

namespace RangeCountDistinct
open Cxx

/-- The data members — lines 63-65 (`_n` is the length of `_a`, `_q` that of `_qs`). -/
structure Obj where
  a : Array Int
  qs : Array (Nat × Nat)

/-- The constructor — line 16. -/
def init (a : List Int) : Obj := ⟨a.toArray, #[]⟩

/-- `add_query(l, r)` — lines 21-25. -/
def addQuery (o : Obj) (l r : Int) : M (Obj × Nat) := do
  check (decide (0 ≤ l ∧ l ≤ r ∧ r ≤ o.a.size))
  return ({ o with qs := o.qs.push (l.toNat, r.toNat) }, o.qs.size)

/-- One round of the loop of lines 32-34: the state is `last` and `prv`. -/
def prvStep (a : Array Int) (i : Nat) (s : (Int → Nat) × Array Nat) : M ((Int → Nat) × Array Nat) := do
  let x ← rd a i
  let prv ← wr s.2 i (s.1 x)
  return (fun y => if y = x then i + 1 else s.1 y, prv)

/-- `++index[r]` — lines 37-39. -/
def countStep (index : Array Nat) (q : Nat × Nat) : M (Array Nat) := do
  let c ← rd index q.2
  wr index q.2 (c + 1)

/-- `index[i] += index[i - 1]` — lines 40-42. -/
def prefixStep (i : Nat) (index : Array Nat) : M (Array Nat) := do
  let x ← rd index i
  let y ← rd index (i - 1)
  wr index i (x + y)

/-- `qs_ord[--index[_qs[qid].second]] = qid` — lines 45-47: the state is `index` and `qs_ord`. -/
def placeStep (qs : Array (Nat × Nat)) (qid : Nat) (s : Array Nat × Array Nat) : M (Array Nat × Array Nat) := do
  let q ← rd qs qid
  let c ← rd s.1 q.2
  let index ← wr s.1 q.2 (c - 1)
  let ord ← (if c = 0 then .error .ub else wr s.2 (c - 1) qid : M (Array Nat))
  return (index, ord)

/-- `ft.sum(l, r)` of the ACL. -/
def ftSum (ft : Array Int) (l r : Nat) : M Int := do
  check (decide (l ≤ r ∧ r ≤ ft.size))
  return ((ft.toList.drop l).take (r - l)).sum

/-- `ft.add(p, x)` of the ACL. -/
def ftAdd (ft : Array Int) (p : Nat) (x : Int) : M (Array Int) := do
  check (decide (p < ft.size))
  let v ← rd ft p
  wr ft p (v + x)

/-- The body of the inner loop — lines 53-55. -/
def answerStep (qs : Array (Nat × Nat)) (ord : Array Nat) (ft : Array Int) (r i : Nat) (ans : Array Int) : M (Array Int) := do
  let qid ← rd ord i
  let q ← rd qs qid
  check (decide (q.2 = r))
  let s ← ftSum ft 0 (q.1 + 1)
  wr ans qid (s - q.1)

/-- The body of the outer loop — lines 52-57: the state is `ft` and `ans`. -/
def sweepStep (o : Obj) (prv index ord : Array Nat) (r : Nat) (s : Array Int × Array Int) : M (Array Int × Array Int) := do
  let lo ← rd index r
  let hi ← rd index (r + 1)
  let ans ← forUp lo hi s.2 (answerStep o.qs ord s.1 r)
  if r < o.a.size then do
    let p ← rd prv r
    let ft ← ftAdd s.1 p 1
    return (ft, ans)
  else return (s.1, ans)

/-- `solve()` — lines 27-60. -/
def solve (o : Obj) : M (Array Int) := do
  let n := o.a.size
  let q := o.qs.size
  let s ← forUp 0 n ((fun _ => 0 : Int → Nat), Array.replicate n 0) (prvStep o.a)
  let prv := s.2
  let index ← forEach o.qs.toList (Array.replicate (n + 2) 0) countStep
  let index ← forUp 1 (n + 1) index prefixStep
  let index ← wr index (n + 1) q
  let s ← forUp 0 q (index, Array.replicate q 0) (placeStep o.qs)
  let s ← forUp 0 (n + 1) (Array.replicate (n + 1) 0, Array.replicate q 0) (sweepStep o prv s.1 s.2)
  return s.2

/-- A call of the public interface. -/
inductive Op
  | addQuery (l r : Int)
  | solve
deriving DecidableEq

/-- An answer. -/
inductive Out
  | id (i : Nat)
  | ans (a : List Int)
deriving DecidableEq

/-- The effect of a call. -/
def step (o : Obj) : Op → M (Obj × Out)
  | .addQuery l r => do
    let p ← addQuery o l r
    return (p.1, .id p.2)
  | .solve => do
    let a ← solve o
    return (o, .ans a.toList)

end RangeCountDistinct
