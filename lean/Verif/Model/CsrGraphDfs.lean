import Verif.Model.CsrGraph

/-!
# Model of `Graph::dfs_tree` in `library/graph/csr_graph.hpp`

The iterators `pre_it` and `pst_it` are indices.  The weights of an unweighted graph are all equal (`get_weight` returns 1), as they are
for the weight type `Unit`.
-/

namespace CsrGraph
open Cxx
variable {W : Type} [DecidableEq W]

/-- The local variables of `dfs_tree` — csr_graph.hpp:243-249. -/
structure Dfs (W : Type) where
  tree : List (Nat × Nat × W)
  back : List (Nat × Nat × W)
  pre : Array Nat
  preN : Nat
  pst : Array Nat
  pstN : Nat
  eid : Array Int
  par : Array Int
  parW : Array (Option W)

/-- `if (eid[cur] == 0) *pre_it++ = cur;` — csr_graph.hpp:256. -/
def enter (cur : Nat) (k : Int) (s : Dfs W) : M (Dfs W) :=
  if k = 0 then do
    let pre ← wr s.pre s.preN cur
    return { s with pre := pre, preN := s.preN + 1 }
  else return s

/-- The test whether an arc to an open vertex is a back edge — csr_graph.hpp:270-272.  If both comparisons fail, `par_w[cur]` has a value, and
it is removed. -/
def backStep (cur : Nat) (e : Nat × W) (s : Dfs W) : M (Dfs W) := do
  let pc ← rd s.par cur
  let pw ← rd s.parW cur
  if pc ≠ e.1 ∨ pw ≠ some e.2 then return { s with back := s.back ++ [(cur, e.1, e.2)] }
  else do
    let parW ← wr s.parW cur none
    if pw = none then return { s with parW := parW, back := s.back ++ [(cur, e.1, e.2)] }
    else return { s with parW := parW }

/-- The arc `e` of `cur` — csr_graph.hpp:264-273; the result is the next vertex. -/
def arcStep (g : Graph W) (cur : Nat) (e : Nat × W) (s : Dfs W) : M (Int × Dfs W) := do
  let p ← rd s.par e.1
  if p = -2 then do
    let par ← wr s.par e.1 (cur : Int)
    let parW ← wr s.parW e.1 (some e.2)
    return ((e.1 : Int), { s with tree := s.tree ++ [(cur, e.1, e.2)], par := par, parW := parW })
  else do
    let k ← rd s.eid e.1
    let a ← rd g.adj e.1
    if k ≠ a.siz then do
      let s ← backStep cur e s
      return ((cur : Int), s)
    else return ((cur : Int), s)

/-- One evaluation of `while (cur >= 0)` — csr_graph.hpp:254-275. -/
def dfsStep (g : Graph W) (q : Int × Dfs W) : M (Option (Int × Dfs W)) :=
  if q.1 < 0 then return none
  else do
    let cur := q.1.toNat
    let s := q.2
    let k ← rd s.eid cur
    let eid ← wr s.eid cur (k + 1)
    let s := { s with eid := eid }
    let s ← enter cur (k + 1) s
    let a ← rd g.adj cur
    if k + 1 = a.siz then do
      let pst ← wr s.pst s.pstN cur
      let p ← rd s.par cur
      return some (p, { s with pst := pst, pstN := s.pstN + 1 })
    else do
      deref a
      let e ← rd g.edges (a.offset + (k + 1).toNat)
      let r ← arcStep g cur e s
      return some r

/-- The body of the loop over the roots — csr_graph.hpp:250-276. -/
def rootStep (g : Graph W) (start i : Nat) (s : Dfs W) : M (Dfs W) := do
  let cur := (start + i) % g.n
  let p ← rd s.par cur
  if p ≠ -2 then return s
  else do
    let par ← wr s.par cur (-1)
    let r ← loop (dfsStep g) (g.n + (g.adj.toList.map Adj.siz).sum) ((cur : Int), { s with par := par })
    return r.2

/-- `struct DFSTree` — csr_graph.hpp:236-240. -/
structure DfsTree (W : Type) where
  par : Array Int
  preOrd : Array Nat
  pstOrd : Array Nat
  tree : Graph W
  back : Graph W

/-- `dfs_tree(start)` — csr_graph.hpp:242-280.  The graphs returned are moved from local variables. -/
def dfsTree [Inhabited W] (g : Graph W) (start : Nat) : M (DfsTree W) := do
  let n := g.n
  let s ← forUp 0 n ⟨[], [], Array.replicate n 0, 0, Array.replicate n 0, 0, Array.replicate n (-1), Array.replicate n (-2),
    Array.replicate n none⟩ (rootStep g start)
  let tree ← create false n s.tree #[]
  let back ← create false n s.back #[]
  return ⟨s.par, s.pre, s.pst, moved tree, moved back⟩

end CsrGraph
