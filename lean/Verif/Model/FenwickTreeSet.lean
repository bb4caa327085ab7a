import Verif.Model.Fenwick

/-!
# Model of `library/datastructure/fenwick_tree/fenwick_tree_set.hpp`

Words are naturals below `2 ^ 64`; `int` is unbounded `Int`, indices derived from non-negative values are `Nat`.
-/

namespace Word
open Cxx

/-- Positions of the set bits of a 64-bit word, increasing. -/
def bits (x : Nat) : List Nat := (List.range 64).filter fun i => x.testBit i

/-- `__builtin_popcountll`. -/
def popcount (x : Nat) : Nat := (bits x).length

/-- `__builtin_ctzll(_pdep_u64(uint64_t(1) << k, x))` — fenwick_tree_set.hpp:269: position of the `k`-th set bit; if there is none,
`_pdep_u64` gives 0 and `__builtin_ctzll(0)` is undefined. -/
def kthSetbit (x k : Nat) : M Nat := match (bits x)[k]? with
  | some i => .ok i
  | none => .error .ub

/-- `63 - __builtin_clzll(x)` — fenwick_tree_set.hpp:266: position of the highest set bit, undefined for 0. -/
def topSetbit (x : Nat) : M Nat := match (bits x).getLast? with
  | some i => .ok i
  | none => .error .ub

/-- `__builtin_ctzll(x)`: position of the lowest set bit, undefined for 0. -/
def ctzll (x : Nat) : M Nat := match (bits x).head? with
  | some i => .ok i
  | none => .error .ub

/-- `uint64_t` left shift. -/
def shl (x k : Nat) : Nat := (x * 2 ^ k) % 2 ^ 64

/-- `uint64_t` right shift. -/
def shr (x k : Nat) : Nat := x / 2 ^ k

end Word

namespace FenwickTreeSet
open Cxx Word

/-- Members — fenwick_tree_set.hpp:241-243. -/
structure State where
  n : Nat
  wn : Nat
  lg : Nat
  siz : Int
  d : Array Int
  bs : Array Nat

/-- Constructor `fenwick_tree_set(n)` — fenwick_tree_set.hpp:32; `top_setbit` on the small number `_wn > 0` is its binary logarithm. -/
def init (n : Nat) : State :=
  let wn := max ((n + 63) / 64) 1
  ⟨n, wn, Nat.log2 wn, 0, Array.replicate (wn + 1) 0, Array.replicate wn 0⟩

/-- Loop body of the first loop of `construct_from_values` — fenwick_tree_set.hpp:247-254. -/
def addValue (s : State) (v : Nat) : M State := do
  check (decide (v < s.n))
  let b ← rd s.bs (v / 64)
  if b.testBit (v % 64) then return s
  else do
    let c ← rd s.d (v / 64 + 1)
    let d ← wr s.d (v / 64 + 1) (c + 1)
    let bs ← wr s.bs (v / 64) (b ||| 1 <<< (v % 64))
    return { s with siz := s.siz + 1, d := d, bs := bs }

/-- `construct_from_values` — fenwick_tree_set.hpp:246-259, on the fresh object. A negative value fails the assertion like one that is too
large. -/
def ofValues (n : Nat) (vs : List Nat) : M State := do
  let s ← forEach vs (init n) addValue
  let d ← forUp 1 (s.wn + 1) s.d (Fenwick.buildStep (· + ·) 0 s.wn)
  return { s with d := d }

/-- Constructor `fenwick_tree_set(n, true)` — fenwick_tree_set.hpp:33-37. -/
def full (n : Nat) : M State := ofValues n (List.range n)

/-- Constructor from a 0/1 sequence — fenwick_tree_set.hpp:46-50. -/
def ofSeq {α : Type} [DecidableEq α] (seq : List α) (one : α) : M State :=
  ofValues seq.length ((List.range seq.length).filter fun i => decide (seq[i]? = some one))

/-- `contains` — fenwick_tree_set.hpp:58-62. -/
def contains (s : State) (v : Int) : M Bool :=
  if 0 ≤ v ∧ v < s.n then do
    let b ← rd s.bs (v.toNat / 64)
    return b.testBit (v.toNat % 64)
  else return false

/-- `add<k>(v)` — fenwick_tree_set.hpp:271-276. -/
def add (s : State) (k : Int) (v : Int) : M State := do
  check (decide (0 ≤ v ∧ v < s.n))
  let d ← Fenwick.addLoop (· + ·) 0 s.wn k (v.toNat / 64 + 1) s.d
  return { s with siz := s.siz + k, d := d }

/-- `insert` — fenwick_tree_set.hpp:66-72. -/
def insert (s : State) (v : Int) : M (State × Bool) := do
  let c ← contains s v
  if c then return (s, false)
  else do
    let s ← add s 1 v
    let b ← rd s.bs (v.toNat / 64)
    let bs ← wr s.bs (v.toNat / 64) (b ||| 1 <<< (v.toNat % 64))
    return ({ s with bs := bs }, true)

/-- `erase` — fenwick_tree_set.hpp:76-82; `~x` on 64 bits is `x` xor all ones. -/
def erase (s : State) (v : Int) : M (State × Bool) := do
  let c ← contains s v
  if c then do
    let s ← add s (-1) v
    let b ← rd s.bs (v.toNat / 64)
    let bs ← wr s.bs (v.toNat / 64) (b &&& ((2 ^ 64 - 1) ^^^ (1 <<< (v.toNat % 64))))
    return ({ s with bs := bs }, true)
  else return (s, false)

/-- `count_lt` — fenwick_tree_set.hpp:86-93. -/
def countLt (s : State) (v : Int) : M Int :=
  if v ≤ 0 then return 0
  else if v ≥ s.n then return s.siz
  else do
    let b ← rd s.bs (v.toNat / 64)
    Fenwick.sumLoop (· + ·) 0 s.d (popcount (b &&& (1 <<< (v.toNat % 64) - 1)) : Int) (v.toNat / 64)

/-- `t <= _wn ? k - _d[t] : -1` — fenwick_tree_set.hpp:115,119. -/
def nextK (s : State) (t : Nat) (k : Int) : M Int :=
  if t ≤ s.wn then do
    let x ← rd s.d t
    return k - x
  else return -1

/-- Loop of `kth_element` — fenwick_tree_set.hpp:114-117; state `(t, k, p)`. -/
def kthStep (s : State) (q : Nat × Int × Nat) : M (Option (Nat × Int × Nat)) :=
  if q.2.2 = 0 then return none
  else do
    let nk ← nextK s q.1 q.2.1
    if nk ≥ 0 then return some (q.1 + q.2.2, nk, q.2.2 / 2) else return some (q.1 - q.2.2, q.2.1, q.2.2 / 2)

/-- `kth_element` — fenwick_tree_set.hpp:106-122. -/
def kthElement (s : State) (k : Int) : M Int :=
  if 0 ≤ k ∧ k < s.siz then do
    let q ← loop (kthStep s) (2 ^ s.lg) (2 ^ s.lg, k, 2 ^ s.lg / 2)
    let nk ← nextK s q.1 q.2.1
    let tk := if nk ≥ 0 then (q.1 + 1, nk) else (q.1, q.2.1)
    let t := tk.1 - 1
    let b ← rd s.bs t
    let u ← kthSetbit b tk.2.toNat
    return ((t <<< 6 ||| u : Nat) : Int)
  else return -1

/-- `max_leq` — fenwick_tree_set.hpp:129-142 (`SEARCH_WIDTH` is 1); an index of `_bs` that is negative is undefined. -/
def maxLeq (s : State) (v : Int) : M Int :=
  if v < 0 then return -1
  else
    let v := min v ((s.n : Int) - 1)
    if v < 0 then .error .ub
    else do
      let t := v.toNat / 64
      let lz := 63 - v.toNat % 64
      let b ← rd s.bs t
      let b := shr (shl b lz) lz
      if b ≠ 0 then do
        let u ← topSetbit b
        return ((t <<< 6 ||| u : Nat) : Int)
      else if t < 1 then return -1
      else do
        let b ← rd s.bs (t - 1)
        if b ≠ 0 then do
          let u ← topSetbit b
          return (((t - 1) <<< 6 ||| u : Nat) : Int)
        else do
          let c ← countLt s (v + 1)
          kthElement s (c - 1)

/-- `min_geq` — fenwick_tree_set.hpp:148-160. -/
def minGeq (s : State) (v : Int) : M Int :=
  if v ≥ s.n then return -1
  else do
    let v := max v 0
    let t := v.toNat / 64
    let u := v.toNat % 64
    let b ← rd s.bs t
    let b := shl (shr b u) u
    if b ≠ 0 then do
      let u ← ctzll b
      return ((t <<< 6 ||| u : Nat) : Int)
    else if t + 1 ≥ s.wn then return -1
    else do
      let b ← rd s.bs (t + 1)
      if b ≠ 0 then do
        let u ← ctzll b
        return (((t + 1) <<< 6 ||| u : Nat) : Int)
      else do
        let c ← countLt s v
        kthElement s c

/-- Calls. Iterators are indices: `*it` is `kth_element`, `lower_bound(v)` / `upper_bound(v)` have index `count_lt(v)` / `count_leq(v)`
(:202,229-239). -/
inductive Op where
  | insert (v : Int) | erase (v : Int) | contains (v : Int) | size
  | countLt (v : Int) | countLeq (v : Int) | countGt (v : Int) | countGeq (v : Int)
  | kth (k : Int) | maxLeq (v : Int) | maxLt (v : Int) | minGeq (v : Int) | minGt (v : Int) | find (v : Int)
  deriving DecidableEq

/-- Answers. -/
inductive Out where
  | int (v : Int) | bool (b : Bool)
  deriving DecidableEq

/-- `find` — fenwick_tree_set.hpp:237: the index of the iterator. -/
def find (s : State) (v : Int) : M Int := do
  let c ← contains s v
  if c then countLt s v else return s.siz

/-- One call — `count_leq`, `count_gt`, `count_geq`: :96,99,102; `max_lt`: :145; `min_gt`: :163. -/
def step (s : State) : Op → M (State × Out)
  | .insert v => do let r ← insert s v; return (r.1, .bool r.2)
  | .erase v => do let r ← erase s v; return (r.1, .bool r.2)
  | .contains v => do let b ← contains s v; return (s, .bool b)
  | .size => return (s, .int s.siz)
  | .countLt v => do let c ← countLt s v; return (s, .int c)
  | .countLeq v => do let c ← countLt s (v + 1); return (s, .int c)
  | .countGt v => do let c ← countLt s (v + 1); return (s, .int (s.siz - c))
  | .countGeq v => do let c ← countLt s v; return (s, .int (s.siz - c))
  | .kth k => do let x ← kthElement s k; return (s, .int x)
  | .maxLeq v => do let x ← maxLeq s v; return (s, .int x)
  | .maxLt v => do let x ← maxLeq s (v - 1); return (s, .int x)
  | .minGeq v => do let x ← minGeq s v; return (s, .int x)
  | .minGt v => do let x ← minGeq s (v + 1); return (s, .int x)
  | .find v => do let i ← find s v; return (s, .int i)

end FenwickTreeSet
