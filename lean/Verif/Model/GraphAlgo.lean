import Verif.Model.Machine

/-!
# Models of `library/graph/{topological_sort,bfs,bfs01,dijkstra,bipartite_graph_recognition,single_source_shortest_path_dag,remove_multiedges}.hpp`

A `std::vector<std::vector<int>>` is an array of lists; vertices are natural numbers (an index that is out of range is undefined behaviour, whatever its
sign). A `std::deque` is a list. Numbers of vertices and edges are unbounded.
-/

namespace TopSort
open Cxx

/-- `++in[j]` — topological_sort.hpp:21. -/
def countStep (inn : Array Int) (j : Nat) : M (Array Int) := do
  let x ← rd inn j
  wr inn j (x + 1)

/-- `for (auto &adj : g) for (int j : adj) ++in[j];` — topological_sort.hpp:20-21. -/
def indeg (g : Array (List Nat)) : M (Array Int) :=
  forEach g.toList (Array.replicate g.size (0 : Int)) fun inn adj => forEach adj inn countStep

/-- `if (in[i] == 0) dq.push_back(i);` — topological_sort.hpp:24. -/
def initStep (inn : Array Int) (i : Nat) (dq : List Nat) : M (List Nat) := do
  let x ← rd inn i
  return if x = 0 then dq ++ [i] else dq

/-- `if (--in[v] == 0) dq.push_back(v);` — topological_sort.hpp:31; state `(in, dq)`. -/
def decStep (s : Array Int × List Nat) (v : Nat) : M (Array Int × List Nat) := do
  let x ← rd s.1 v
  let inn ← wr s.1 v (x - 1)
  return (inn, if x - 1 = 0 then s.2 ++ [v] else s.2)

/-- `while (dq.size()) …` — topological_sort.hpp:27-33; state `(dq, in, ord)`. -/
def step (g : Array (List Nat)) (s : List Nat × Array Int × List Nat) : M (Option (List Nat × Array Int × List Nat)) :=
  match s.1 with
  | [] => return none
  | u :: dq => do
    let adj ← rd g u
    let t ← forEach adj (s.2.1, dq) decStep
    return some (t.2, t.1, s.2.2 ++ [u])

/-- `topological_sort(g)`, `sorted()` — topological_sort.hpp:10-34. -/
def sorted (g : Array (List Nat)) : M (List Nat) := do
  let inn ← indeg g
  let dq ← forUp 0 g.size [] (initStep inn)
  let r ← loop (step g) g.size (dq, inn, [])
  return r.2.2

/-- `is_dag()` — topological_sort.hpp:13. -/
def isDag (g : Array (List Nat)) : M Bool := do
  let ord ← sorted g
  return decide (ord.length = g.size)

end TopSort

namespace BFS
open Cxx

/-- `add_edge(u, v)` — bfs.hpp:22-25. -/
def addEdge (g : Array (List Nat)) (e : Nat × Nat) : M (Array (List Nat)) := do
  let a ← rd g e.1
  let g ← wr g e.1 (a ++ [e.2])
  let b ← rd g e.2
  wr g e.2 (b ++ [e.1])

/-- `BFS(n, edges)` — bfs.hpp:17-19. -/
def make (n : Nat) (edges : List (Nat × Nat)) : M (Array (List Nat)) := forEach edges (Array.replicate n []) addEdge

/-- `if (dist[v] == unreachable) { dist[v] = dist[u] + 1; dq.push_back(v); }` — bfs.hpp:35-38; state `(dist, dq)`. -/
def visit (u : Nat) (s : Array Int × List Nat) (v : Nat) : M (Array Int × List Nat) := do
  let x ← rd s.1 v
  if x = -1 then do
    let d ← rd s.1 u
    let dist ← wr s.1 v (d + 1)
    return (dist, s.2 ++ [v])
  else return s

/-- `while (dq.size()) …` — bfs.hpp:32-39; state `(dist, dq)`. -/
def step (g : Array (List Nat)) (s : Array Int × List Nat) : M (Option (Array Int × List Nat)) :=
  match s.2 with
  | [] => return none
  | u :: dq => do
    let adj ← rd g u
    let t ← forEach adj (s.1, dq) (visit u)
    return some t

/-- `distance(src)` — bfs.hpp:27-41. -/
def distance (g : Array (List Nat)) (src : List Nat) : M (Array Int) := do
  let dist ← forEach src (Array.replicate g.size (-1 : Int)) fun d v => wr d v 0
  let r ← loop (step g) (src.length + g.size) (dist, src)
  return r.1

/-- `if (not std::exchange(vis[v], true)) dq.push_back(v);` — bfs.hpp:58-60; state `(vis, dq)`. -/
def mark (s : Array Bool × List Nat) (v : Nat) : M (Array Bool × List Nat) := do
  let x ← rd s.1 v
  let vis ← wr s.1 v true
  return (vis, if x then s.2 else s.2 ++ [v])

/-- `while (dq.size()) …` — bfs.hpp:54-61; state `((vis, dq), cmp)`. -/
def compStep (g : Array (List Nat)) (s : (Array Bool × List Nat) × List Nat) : M (Option ((Array Bool × List Nat) × List Nat)) :=
  match s.1.2 with
  | [] => return none
  | u :: dq => do
    let adj ← rd g u
    let t ← forEach adj (s.1.1, dq) mark
    return some (t, s.2 ++ [u])

/-- The component of an unvisited vertex — bfs.hpp:52-61; state `(vis, res)`. -/
def component (g : Array (List Nat)) (i : Nat) (s : Array Bool × List (List Nat)) : M (Array Bool × List (List Nat)) := do
  let vis ← wr s.1 i true
  let r ← loop (compStep g) g.size ((vis, [i]), [])
  return (r.1.1, s.2 ++ [r.2])

/-- Body of the loop over the vertices — bfs.hpp:51. -/
def outer (g : Array (List Nat)) (i : Nat) (s : Array Bool × List (List Nat)) : M (Array Bool × List (List Nat)) := do
  let x ← rd s.1 i
  if x then return s else component g i s

/-- `connected_components()` — bfs.hpp:46-64. -/
def components (g : Array (List Nat)) : M (List (List Nat)) := do
  let r ← forUp 0 g.size (Array.replicate g.size false, []) (outer g)
  return r.2

end BFS

namespace BFS01
open Cxx

/-- `INF` — bfs01.hpp:44. -/
def INF : Int := 2 ^ 31 - 1

/-- The callback — bfs01.hpp:29-40; state `(dist, dq)`. An edge is `(v, cost)`. -/
def visit (u : Nat) (s : Array Int × List Nat) (e : Nat × Bool) : M (Array Int × List Nat) := do
  let old ← rd s.1 e.1
  let du ← rd s.1 u
  let new ← i32 (du + (if e.2 then 1 else 0))
  if new < old then do
    let dist ← wr s.1 e.1 new
    return (dist, if e.2 then s.2 ++ [e.1] else e.1 :: s.2)
  else return s

/-- `while (dq.size()) …` — bfs01.hpp:27-41. -/
def step (g : Array (List (Nat × Bool))) (s : Array Int × List Nat) : M (Option (Array Int × List Nat)) :=
  match s.2 with
  | [] => return none
  | u :: dq => do
    let adj ← rd g u
    let t ← forEach adj (s.1, dq) (visit u)
    return some t

/-- `BFS01(n, src_list, g)` — bfs01.hpp:21-42, 58-61; `g` calls the callback on the edges of a vertex in turn. -/
def distance (g : Array (List (Nat × Bool))) (src : List Nat) : M (Array Int) := do
  let dist ← forEach src (Array.replicate g.size INF) fun d v => wr d v 0
  let r ← loop (step g) (src.length + g.size * INF.toNat) (dist, src)
  return r.1

end BFS01

namespace Dijkstra
open Cxx

/-- `UNREACHABLE` for `long long` — dijkstra.hpp:44. -/
def top : Int := 2 ^ 63 - 1

/-- The order of `std::pair`. -/
def lt (a b : Int × Nat) : Bool := decide (a.1 < b.1) || (decide (a.1 = b.1) && decide (a.2 < b.2))

/-- `pq.emplace(…)`. The priority queue is the list of its elements in increasing order; only this order is observable through `top`/`pop`. -/
def insert (e : Int × Nat) : List (Int × Nat) → List (Int × Nat)
  | [] => [e]
  | a :: l => if lt a e then a :: insert e l else e :: a :: l

/-- State: `_dist`, `_par`, `pq`. -/
structure State where
  dist : Array Int
  par : Array Nat
  pq : List (Int × Nat)

/-- The callback: `if (new_cost < _dist[v]) pq.emplace(_dist[v] = new_cost, v), _par[v] = u;` — dijkstra.hpp:23, called with `du + c` — dijkstra.hpp:32. -/
def relax (u : Nat) (du : Int) (s : State) (e : Nat × Int) : M State := do
  let new ← i64 (du + e.2)
  let old ← rd s.dist e.1
  if new < old then do
    let dist ← wr s.dist e.1 new
    let par ← wr s.par e.1 u
    return ⟨dist, par, insert (new, e.1) s.pq⟩
  else return s

/-- `if (du == _dist[u]) transition(u, du, g(u));` — dijkstra.hpp:28. -/
def visit (g : Array (List (Nat × Int))) (du : Int) (u : Nat) (s : State) : M State := do
  let d ← rd s.dist u
  if du = d then do
    let adj ← rd g u
    forEach adj s (relax u du)
  else return s

/-- `while (pq.size()) …` — dijkstra.hpp:26-29. -/
def step (g : Array (List (Nat × Int))) (s : State) : M (Option State) :=
  match s.pq with
  | [] => return none
  | (du, u) :: pq => do
    let t ← visit g du u { s with pq := pq }
    return some t

/-- `dijkstra(g, src)` — dijkstra.hpp:14-32. -/
def run (g : Array (List (Nat × Int))) (src : Nat) : M State := do
  let dist ← wr (Array.replicate g.size top) src 0
  loop (step g) (1 + (g.toList.map List.length).sum) ⟨dist, Array.replicate g.size 0, [(0, src)]⟩

/-- `while (t != _src) path.push_back(t = _par[t]);` — dijkstra.hpp:36; the reversed path is built. -/
def pathStep (s : State) (src : Nat) (path : List Nat) : M (Option (List Nat)) :=
  match path with
  | [] => .error .ub
  | t :: _ =>
    if t = src then return none
    else do
      let p ← rd s.par t
      return some (p :: path)

/-- `path_to(t)` — dijkstra.hpp:33-39. -/
def pathTo (s : State) (src t : Nat) : M (List Nat) := do
  let d ← rd s.dist t
  check (decide (d ≠ top))
  loop (pathStep s src) s.dist.size [t]

end Dijkstra

namespace Bipartite
open Cxx

/-- `while (uncolored == col0 or uncolored == col1) ++uncolored;` — bipartite_graph_recognition.hpp:12. -/
def freshStep (col0 col1 : BitVec 32) (c : BitVec 32) : M (Option (BitVec 32)) :=
  if c = col0 ∨ c = col1 then return some (c + 1) else return none

/-- Result of looking at a neighbour: the state `(color, dq)`, or `none` for `return std::nullopt`. -/
def look (unc col0 col1 : BitVec 32) (u v : Nat) (s : Array (BitVec 32) × List Nat) : M (Option (Array (BitVec 32) × List Nat)) := do
  let cv ← rd s.1 v
  let cu ← rd s.1 u
  if cv = unc then do
    let color ← wr s.1 v (cu ^^^ col0 ^^^ col1)
    return some (color, s.2 ++ [v])
  else if cv = cu then return none
  else return some s

/-- `for (int v : g[u]) …` — bipartite_graph_recognition.hpp:21-28. -/
def lookStep (unc col0 col1 : BitVec 32) (u : Nat) (s : Option (Array (BitVec 32) × List Nat)) (v : Nat) : M (Option (Array (BitVec 32) × List Nat)) :=
  match s with
  | none => return none
  | some s => look unc col0 col1 u v s

/-- `while (dq.size()) …` — bipartite_graph_recognition.hpp:18-29; `none` after `return std::nullopt`. -/
def bfsStep (g : Array (List Nat)) (unc col0 col1 : BitVec 32) (s : Option (Array (BitVec 32) × List Nat)) :
    M (Option (Option (Array (BitVec 32) × List Nat))) :=
  match s with
  | none => return none
  | some (_, []) => return none
  | some (color, u :: dq) => do
    let adj ← rd g u
    let t ← forEach adj (some (color, dq)) (lookStep unc col0 col1 u)
    return some t

/-- A new component — bipartite_graph_recognition.hpp:16-29. -/
def component (g : Array (List Nat)) (unc col0 col1 : BitVec 32) (i : Nat) (color : Array (BitVec 32)) : M (Option (Array (BitVec 32))) := do
  let color ← wr color i col0
  let r ← loop (bfsStep g unc col0 col1) (g.size + 1) (some (color, [i]))
  return r.map (·.1)

/-- Body of the loop over the vertices — bipartite_graph_recognition.hpp:14-30. -/
def outer (g : Array (List Nat)) (unc col0 col1 : BitVec 32) (i : Nat) (s : Option (Array (BitVec 32))) : M (Option (Array (BitVec 32))) :=
  match s with
  | none => return none
  | some color => do
    let c ← rd color i
    if c ≠ unc then return some color else component g unc col0 col1 i color

/-- `bipartite_coloring(g, col0, col1)` — bipartite_graph_recognition.hpp:9-32. -/
def coloring (g : Array (List Nat)) (col0 col1 : BitVec 32) : M (Option (Array (BitVec 32))) := do
  let unc ← loop (freshStep col0 col1) 2 2
  forUp 0 g.size (some (Array.replicate g.size unc)) (outer g unc col0 col1)

end Bipartite

namespace SSSPDag
open Cxx

/-- `std::numeric_limits<long long>::max()` — single_source_shortest_path_dag.hpp:14. -/
def inf : Int := 2 ^ 63 - 1

/-- State of the loops: `res`, `in`, `dq`. -/
structure State where
  res : Array Int
  inn : Array Int
  dq : List Nat

/-- `if (res[u] != inf) res[v] = std::min(res[v], res[u] + g.get_weight(e));` — single_source_shortest_path_dag.hpp:34-36. -/
def relax (u : Nat) (res : Array Int) (e : Nat × Int) : M (Array Int) := do
  let d ← rd res u
  if d ≠ inf then do
    let x ← rd res e.1
    let y ← i64 (d + e.2)
    wr res e.1 (min x y)
  else return res

/-- Body of the loop over the edges — single_source_shortest_path_dag.hpp:32-40. -/
def edgeStep (u : Nat) (s : State) (e : Nat × Int) : M State := do
  let res ← relax u s.res e
  let t ← TopSort.decStep (s.inn, s.dq) e.1
  return ⟨res, t.1, t.2⟩

/-- Body of the main loop — single_source_shortest_path_dag.hpp:28-41. -/
def step (g : Array (List (Nat × Int))) (s : State) : M State :=
  match s.dq with
  | [] => .error .assertion
  | u :: dq => do
    let adj ← rd g u
    forEach adj { s with dq := dq } (edgeStep u)

/-- `single_source_shortest_path_dag(g, s)` — single_source_shortest_path_dag.hpp:11-43, for weights of type `long long`. -/
def run (g : Array (List (Nat × Int))) (src : Nat) : M (Array Int) := do
  let res ← wr (Array.replicate g.size inf) src 0
  let inn ← TopSort.indeg (g.map fun adj => adj.map (·.1))
  let x ← rd inn src
  check (decide (x = 0))
  let dq ← forUp 0 g.size [] (TopSort.initStep inn)
  let r ← forUp 0 g.size ⟨res, inn, dq⟩ fun _ s => step g s
  return r.res

end SSSPDag

namespace RemoveMultiedges
open Cxx

/-- The `remove_if` predicate at work: keep `v` and clear its flag iff the flag is set — remove_multiedges.hpp:14; state `(exists, kept)`. -/
def keepStep (s : Array Bool × List Nat) (v : Nat) : M (Array Bool × List Nat) := do
  let x ← rd s.1 v
  let ex ← wr s.1 v false
  return (ex, if x then s.2 ++ [v] else s.2)

/-- One adjacency list — remove_multiedges.hpp:13-14; state `(exists, result)`. -/
def listStep (s : Array Bool × List (List Nat)) (vs : List Nat) : M (Array Bool × List (List Nat)) := do
  let ex ← forEach vs s.1 fun ex v => wr ex v true
  let t ← forEach vs (ex, []) keepStep
  return (t.1, s.2 ++ [t.2])

/-- `remove_multiedges(g)` — remove_multiedges.hpp:10-16. -/
def run (g : Array (List Nat)) : M (Array (List Nat)) := do
  let r ← forEach g.toList (Array.replicate g.size false, []) listStep
  return r.2.toArray

end RemoveMultiedges
