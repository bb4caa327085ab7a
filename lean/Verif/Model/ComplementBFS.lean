import Verif.Model.GraphAlgo

/-!
# Model of `library/graph/bfs_complement.hpp`

The graph is an array of adjacency lists. `std::partition` does not fix the order inside its two parts, so it is a parameter `part` returning both parts.
-/

namespace ComplementBFS
open Cxx

/-- `std::partition`: the elements satisfying the predicate, then the others. -/
abbrev Part := (Nat → Bool) → List Nat → List Nat × List Nat

/-- `add_edge(u, v)` — lines 22-25. -/
def addEdge (g : Array (List Nat)) (e : Nat × Nat) : M (Array (List Nat)) := do
  let a ← rd g e.1
  let g ← wr g e.1 (a ++ [e.2])
  let b ← rd g e.2
  wr g e.2 (b ++ [e.1])

/-- `ComplementBFS(n, edges)` — lines 15-19. -/
def make (n : Nat) (edges : List (Nat × Nat)) : M (Array (List Nat)) := forEach edges (Array.replicate n []) addEdge

/-- `is_src` and `s` — lines 28-34. -/
def others (n : Nat) (src : List Nat) : M (List Nat) := do
  let isSrc ← forEach src (Array.replicate n false) fun b v => wr b v true
  forUp 0 n [] fun i s => do
    let b ← rd isSrc i
    return if b then s else s ++ [i]

/-- `for (int v : g[u]) adj[v] = b;` — lines 44, 50, 76, 80. -/
def mark (b : Bool) (l : List Nat) (adj : Array Bool) : M (Array Bool) := forEach l adj fun adj v => wr adj v b

/-- `std::partition(s.begin(), s.end(), [&adj](int v) { return adj[v]; })` — lines 45, 77. -/
def partition (part : Part) (adj : Array Bool) (s : List Nat) : M (List Nat × List Nat) := do
  let _ ← forEach s () fun _ v => do
    let _ ← rd adj v
    return ()
  return part (fun v => at' false adj v) s

/-- The body of the loop of lines 46-49. -/
def pushStep (u : Nat) (t : Array Int × List Nat) (v : Nat) : M (Array Int × List Nat) := do
  let d ← rd t.1 u
  let dist ← wr t.1 v (d + 1)
  return (dist, t.2 ++ [v])

/-- `dist`, `dq`, `s`, `adj`. -/
structure St where
  dist : Array Int
  dq : List Nat
  s : List Nat
  adj : Array Bool

/-- The body of the loop of lines 41-51. -/
def step (part : Part) (g : Array (List Nat)) (st : St) : M (Option St) :=
  match st.dq with
  | [] => return none
  | u :: dq => do
    let a ← rd g u
    let adj ← mark true a st.adj
    let p ← partition part adj st.s
    let t ← forEach p.2.reverse (st.dist, dq) (pushStep u)
    let adj ← mark false a adj
    return some ⟨t.1, t.2, p.1, adj⟩

/-- `distance` — lines 27-53. -/
def distance (part : Part) (g : Array (List Nat)) (src : List Nat) : M (Array Int) := do
  let n := g.size
  let s ← others n src
  let dist ← forEach src (Array.replicate n (-1 : Int)) fun d v => wr d v 0
  let st ← loop (step part g) (src.length + n) ⟨dist, src, s, Array.replicate n false⟩
  return st.dist

/-- `vis`, `s`, `adj`, `dq`, `cmp`. -/
structure CSt where
  vis : Array Bool
  s : List Nat
  adj : Array Bool
  dq : List Nat
  cmp : List Nat

/-- The body of the loop of lines 71-81. -/
def compStep (part : Part) (g : Array (List Nat)) (st : CSt) : M (Option CSt) :=
  match st.dq with
  | [] => return none
  | u :: dq => do
    let vis ← wr st.vis u true
    let a ← rd g u
    let adj ← mark true a st.adj
    let p ← partition part adj st.s
    let adj ← mark false a adj
    return some ⟨vis, p.1, adj, dq ++ p.2, st.cmp ++ [u]⟩

/-- `s.erase(std::find(s.begin(), s.end(), i))` — line 68; erasing the end iterator is undefined. -/
def eraseFind (s : List Nat) (i : Nat) : M (List Nat) := if i ∈ s then return s.erase i else .error .ub

/-- `vis`, `s`, `adj`, `res`. -/
structure OSt where
  vis : Array Bool
  s : List Nat
  adj : Array Bool
  res : List (List Nat)

/-- Lines 68-82. -/
def component (part : Part) (g : Array (List Nat)) (i : Nat) (o : OSt) : M OSt := do
  let s ← eraseFind o.s i
  let r ← loop (compStep part g) g.size ⟨o.vis, s, o.adj, [i], []⟩
  return ⟨r.vis, r.s, r.adj, o.res ++ [r.cmp]⟩

/-- The body of the loop of lines 67-83. -/
def outer (part : Part) (g : Array (List Nat)) (i : Nat) (o : OSt) : M OSt := do
  let x ← rd o.vis i
  if x then return o else component part g i o

/-- `connected_components` — lines 58-84. -/
def components (part : Part) (g : Array (List Nat)) : M (List (List Nat)) := do
  let n := g.size
  let o ← forUp 0 n ⟨Array.replicate n false, List.range n, Array.replicate n false, []⟩ (outer part g)
  return o.res

end ComplementBFS
