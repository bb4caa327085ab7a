import Verif.Cxx

/-!
# Model of `library/datastructure/union_find/merge_history_forest.hpp`

`atcoder::dsu` is not part of the repository and is modelled by its contract: a vector of component labels, every label being the leader of its
component; `merge` of two different components returns one of the two leaders as the new leader, and `pick` says which one. The parent
`-1` is `none`. The arrays have the sizes they have in the code; `adj[v]` is `_g[v]`.
-/

namespace MergeHistory
open Cxx

/-- The object — merge_history_forest.hpp:99-105, and the labels of the base class. -/
structure Obj where
  n : Nat
  lab : Array Nat
  g : Array (List Nat)
  parent : Array (Option Nat)
  root : Array Nat
  time : Nat
  created : Array Nat

/-- The constructor — merge_history_forest.hpp:15-17. -/
def new (n : Nat) : Obj := ⟨n, Array.range n, Array.replicate n [], Array.replicate n none, Array.range n, 0, Array.replicate n 0⟩

/-- `leader(u)` of the base class, with its assertion. -/
def leader (o : Obj) (u : Nat) : M Nat := do
  check (decide (u < o.n))
  rd o.lab u

/-- `base_type::merge(ru, rv)` for two different leaders: the new leader is `ru` or `rv`. -/
def unite (pick : Array Nat → Nat → Nat → Bool) (o : Obj) (ru rv : Nat) : Obj × Nat :=
  let r := if pick o.lab ru rv then ru else rv
  ({ o with lab := o.lab.map fun x => if x = ru ∨ x = rv then r else x }, r)

/-- `create_node()` — merge_history_forest.hpp:113-118. -/
def createNode (o : Obj) : Obj × Nat :=
  ({ o with g := o.g.push [], created := o.created.push o.time, parent := o.parent.push none }, o.g.size)

/-- `create_edge(new_root, old_root)` — merge_history_forest.hpp:119-122. -/
def createEdge (o : Obj) (newRoot oldRoot : Nat) : M Obj := do
  let l ← rd o.g newRoot
  let g ← wr o.g newRoot (l ++ [oldRoot])
  let p ← wr o.parent oldRoot (some newRoot)
  return { o with g := g, parent := p }

/-- The part of `merge` for two different components — merge_history_forest.hpp:41-43. -/
def join (pick : Array Nat → Nat → Nat → Bool) (o : Obj) (ru rv : Nat) : M Obj := do
  let c := createNode o
  let a ← rd c.1.root ru
  let o ← createEdge c.1 c.2 a
  let b ← rd o.root rv
  let o ← createEdge o c.2 b
  let m := unite pick o ru rv
  let root ← wr m.1.root m.2 c.2
  return { m.1 with root := root }

/-- `merge(u, v)` — merge_history_forest.hpp:37-44. -/
def merge (pick : Array Nat → Nat → Nat → Bool) (o : Obj) (u v : Nat) : M Obj := do
  let o := { o with time := o.time + 1 }
  let ru ← leader o u
  let rv ← leader o v
  if ru = rv then return o else join pick o ru rv

/-- `_g[r].push_back(c); vs.push_back(r);` for the merge of two leaders — merge_history_forest.hpp:53-55; `ru ^ rv ^ r` is the other leader. -/
def attach (pick : Array Nat → Nat → Nat → Bool) (o : Obj) (vs : List Nat) (ru rv : Nat) : M (Obj × List Nat) := do
  let m := unite pick o ru rv
  let l ← rd m.1.g m.2
  let g ← wr m.1.g m.2 (l ++ [ru ^^^ rv ^^^ m.2])
  return ({ m.1 with g := g }, vs ++ [m.2])

/-- The body of the first loop of `merge_simultaneously` — merge_history_forest.hpp:50-56. -/
def simStep (pick : Array Nat → Nat → Nat → Bool) (st : Obj × List Nat) (e : Nat × Nat) : M (Obj × List Nat) := do
  let ru ← leader st.1 e.1
  let rv ← leader st.1 e.2
  if ru = rv then return st else attach pick st.1 st.2 ru rv

/-- The end of `merge_dfs(u, new_root)` after the loop — merge_history_forest.hpp:109-110. -/
def dfsEnd (o : Obj) (u newRoot : Nat) : M Obj := do
  let a ← rd o.root u
  let o ← createEdge o newRoot a
  let g ← wr o.g u []
  return { o with g := g }

/-- `merge_dfs` — merge_history_forest.hpp:107-111, with a bound on the depth of the recursion; the list is what is left of the loop over the
children. -/
def mergeDfs (newRoot : Nat) : Nat → List Nat → Obj → M Obj
  | _, [], o => return o
  | 0, _ :: _, _ => .error .diverge
  | k + 1, v :: vs, o => do
    let l ← rd o.g v
    let o ← mergeDfs newRoot k l o
    let o ← dfsEnd o v newRoot
    mergeDfs newRoot (k + 1) vs o
termination_by k vs => (k, vs.length)

/-- The body of the second loop of `merge_simultaneously` for a leader — merge_history_forest.hpp:58-60. -/
def sweepNode (o : Obj) (s : Nat) : M Obj := do
  let c := createNode o
  let o ← mergeDfs c.2 (o.n + 1) [s] c.1
  let root ← wr o.root s c.2
  return { o with root := root }

/-- The body of the second loop of `merge_simultaneously` — merge_history_forest.hpp:57-61. -/
def sweepStep (o : Obj) (s : Nat) : M Obj := do
  let r ← leader o s
  if s = r then sweepNode o s else return o

/-- `merge_simultaneously(edges)` — merge_history_forest.hpp:47-62. -/
def mergeSimultaneously (pick : Array Nat → Nat → Nat → Bool) (o : Obj) (edges : List (Nat × Nat)) : M Obj := do
  let st ← forEach edges ({ o with time := o.time + 1 }, []) (simStep pick)
  forEach st.2 st.1 sweepStep

/-- The test of the loop of `group` — merge_history_forest.hpp:69. -/
def climbTo (o : Obj) (time : Nat) : Option Nat → M (Option Nat)
  | none => return none
  | some p => do
    let c ← rd o.created p
    return if c ≤ time then some p else none

/-- `while (...) root = _parent[root];` — merge_history_forest.hpp:69. -/
def climbStep (o : Obj) (time : Nat) (x : Nat) : M (Option Nat) := do
  let p ← rd o.parent x
  climbTo o time p

/-- The `dfs` of `group` — merge_history_forest.hpp:71-77, with a bound on the depth of the recursion; the list is what is left of the loop over
the children. -/
def leaves (o : Obj) : Nat → List Nat → List Nat → M (List Nat)
  | _, [], res => return res
  | 0, _ :: _, _ => .error .diverge
  | k + 1, v :: vs, res =>
    if v < o.n then leaves o (k + 1) vs (res ++ [v])
    else do
      let l ← rd o.g v
      let res ← leaves o k l res
      leaves o (k + 1) vs res
termination_by k vs => (k, vs.length)

/-- `group(i, time)` — merge_history_forest.hpp:67-80. -/
def group (o : Obj) (i time : Nat) : M (List Nat) := do
  let r ← loop (climbStep o time) o.g.size i
  leaves o (o.g.size + 1) [r] []

/-- The body of the loop of `groups` — merge_history_forest.hpp:85. -/
def groupsStep (o : Obj) (time : Nat) (i : Nat) (st : List (List Nat) × Array Bool) : M (List (List Nat) × Array Bool) := do
  let b ← rd st.2 i
  if b then return st
  else do
    let l ← group o i time
    let seen ← forEach l st.2 (fun s v => wr s v true)
    return (st.1 ++ [l], seen)

/-- `groups(time)` — merge_history_forest.hpp:81-87. -/
def groups (o : Obj) (time : Nat) : M (List (List Nat)) := do
  let st ← forUp 0 o.n ([], Array.replicate o.n false) (groupsStep o time)
  return st.1

/-- `same(u, v, time, get_lca)` — merge_history_forest.hpp:89-94; `lca` is `get_lca(u, v)`. -/
def same (o : Obj) (u v time lca : Nat) : M Bool := do
  let a ← leader o u
  let b ← leader o v
  if a ≠ b then return false
  else do
    let c ← rd o.created lca
    return decide (c ≤ time)

/-- `forest_root(i)` — merge_history_forest.hpp:24. -/
def forestRoot (o : Obj) (i : Nat) : M Nat := do
  let r ← leader o i
  rd o.root r

/-- `forest_parent(vid)` — merge_history_forest.hpp:25. -/
def forestParent (o : Obj) (x : Nat) : M (Option Nat) := rd o.parent x

/-- `created_time(vid)` — merge_history_forest.hpp:65. -/
def createdTime (o : Obj) (x : Nat) : M Nat := rd o.created x

end MergeHistory
