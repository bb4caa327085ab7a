import Verif.Cxx

/-!
# Model of `library/tree/level_ancestor.hpp`

All stored values are at most `n = g.size()`, an `int`, so natural numbers are used. The parent `-1` of the root is `none`. `std::upper_bound` on a sorted range is the first position with a greater element.
-/

namespace LevelAncestor
open Cxx

/-- The members written by the traversal — lines 35-38 and `time` of line 42. -/
structure St where
  time : Nat
  vis : Array Nat
  inv : Array Nat
  dep : Array Nat
  cnt : Array Nat

/-- Lines 44-47. -/
def enter (u : Nat) (s : St) : M St := do
  let vis ← wr s.vis u s.time
  let inv ← wr s.inv s.time u
  let d ← rd s.dep u
  let c ← rd s.cnt (d + 1)
  let cnt ← wr s.cnt (d + 1) (c + 1)
  return { s with time := s.time + 1, vis := vis, inv := inv, cnt := cnt }

/-- `_depth[v] = _depth[u] + 1` — line 49. -/
def setDep (u v : Nat) (s : St) : M St := do
  let d ← rd s.dep u
  let dep ← wr s.dep v (d + 1)
  return { s with dep := dep }

/-- Lines 48-51. -/
def kid (u : Nat) (p : Option Nat) (rec : Nat → Option Nat → St → M St) (s : St) (v : Nat) : M St :=
  if some v ≠ p then do
    let s ← setDep u v s
    rec v (some u) s
  else return s

/-- The lambda `dfs` — lines 43-52. -/
def dfs (g : Array (List Nat)) : Nat → Nat → Option Nat → St → M St
  | 0, _, _, _ => .error .diverge
  | fuel + 1, u, p, s => do
    let s ← enter u s
    let a ← rd g u
    forEach a s (kid u p (dfs g fuel))

/-- The object. -/
structure Obj where
  vis : Array Nat
  inv : Array Nat
  dep : Array Nat
  cnt : Array Nat
  bucket : Array Nat

/-- `_count[i + 1] += _count[i]` — line 55. -/
def prefStep (i : Nat) (cnt : Array Nat) : M (Array Nat) := do
  let a ← rd cnt (i + 1)
  let b ← rd cnt i
  wr cnt (i + 1) (a + b)

/-- `_bucket[index[_depth[v]]++] = _visit_time[v]` — line 57; state `(index, _bucket)`. -/
def fill (vis dep : Array Nat) (s : Array Nat × Array Nat) (v : Nat) : M (Array Nat × Array Nat) := do
  let d ← rd dep v
  let i ← rd s.1 d
  let index ← wr s.1 d (i + 1)
  let t ← rd vis v
  let bucket ← wr s.2 i t
  return (index, bucket)

/-- The constructor and `build` — lines 10-13, 41-58. -/
def make (g : Array (List Nat)) (root : Nat) : M Obj := do
  let n := g.size
  let z := Array.replicate n 0
  let s ← dfs g n root none ⟨0, z, z, z, Array.replicate (n + 1) 0⟩
  let cnt ← forUp 0 n s.cnt prefStep
  let r ← forEach s.inv.toList (cnt, z) (fill s.vis s.dep)
  return ⟨s.vis, s.inv, s.dep, cnt, r.2⟩

/-- Forming an invalid iterator is undefined. -/
def valid (b : Bool) : M Unit := if b then .ok () else .error .ub

/-- Lines 18-21, for `d = _depth[u] - k`. -/
def find (t : Obj) (u d : Nat) : M Int := do
  let l ← rd t.cnt d
  let r ← rd t.cnt (d + 1)
  let x ← rd t.vis u
  valid (decide (l ≤ r ∧ r ≤ t.bucket.size))
  let i := l + (t.bucket.extract l r).toList.findIdx fun y => decide (x < y)
  valid (decide (0 < i))
  let y ← rd t.bucket (i - 1)
  let v ← rd t.inv y
  return v

/-- `query` — lines 15-22. -/
def query (t : Obj) (u : Nat) (k : Int) : M Int := do
  let d ← rd t.dep u
  if k < 0 ∨ k > d then return -1 else find t u (d - k.toNat)

/-- `get_visit_time` — line 28. -/
def visitTime (t : Obj) (u : Nat) : M Nat := rd t.vis u

/-- `get_visit_time_inv`, `get_kth_visited` — lines 29-30. -/
def visitTimeInv (t : Obj) (k : Nat) : M Nat := rd t.inv k

/-- `get_depth` — line 31. -/
def depth (t : Obj) (u : Nat) : M Nat := rd t.dep u

end LevelAncestor
