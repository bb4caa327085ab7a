import Verif.Cxx

/-!
# Model of `library/graph/csr_graph.hpp` (construction, adjacency lists, `reversed`, `shrink_to_fit`)

An edge is a pair of the target and a weight; the unweighted graph has the weight type `Unit`.  Vertices are natural numbers: a
negative vertex would be an index out of range as well.

Simplifications: the numbers of edges fit `int`.  The pointer `_g` of an adjacency list is modelled by the flag `own`: it is true if the
pointer refers to the graph which the list belongs to, and false if it refers to a destroyed graph.  Iterators into an adjacency list
are given by their distance from `begin()`, and the ranges to be inserted do not alias the edges of the graph.
-/

namespace CsrGraph
open Cxx

/-- `struct AdjacentList` — csr_graph.hpp:42-141; the members are at lines 131-134. -/
structure Adj where
  own : Bool
  cap : Int
  offset : Nat
  siz : Nat

/-- `struct Graph` — csr_graph.hpp:23, 283-285. -/
structure Graph (W : Type) where
  n : Nat
  adj : Array Adj
  edges : Array (Nat × W)

variable {W : Type}

/-- `++_adj[u]._siz` — csr_graph.hpp:153, 156. -/
def incSiz (adj : Array Adj) (u : Nat) : M (Array Adj) := do
  let a ← rd adj u
  wr adj u { a with siz := a.siz + 1 }

/-- The body of the loop that counts — csr_graph.hpp:151-158. -/
def countEdge (undirected : Bool) (adj : Array Adj) (e : Nat × Nat × W) : M (Array Adj) := do
  let adj ← incSiz adj e.1
  if undirected then incSiz adj e.2.1 else return adj

/-- The body of the loop that lays out the lists — csr_graph.hpp:161-166. -/
def layout (cap : Array Int) (i : Nat) (st : Array Adj × Nat) : M (Array Adj × Nat) := do
  let a ← rd st.1 i
  let c ← rd cap i
  let adj ← wr st.1 i ⟨true, min (a.siz : Int) c, st.2, a.siz⟩
  return (adj, st.2 + a.siz)

/-- `*ptr[u]++ = x` — csr_graph.hpp:175, 176, 178, 179. -/
def put (st : Array Nat × Array (Nat × W)) (u : Nat) (x : Nat × W) : M (Array Nat × Array (Nat × W)) := do
  let p ← rd st.1 u
  let edges ← wr st.2 p x
  let ptr ← wr st.1 u (p + 1)
  return (ptr, edges)

/-- The body of the loop that stores the edges — csr_graph.hpp:170-181. -/
def putEdge (undirected : Bool) (st : Array Nat × Array (Nat × W)) (e : Nat × Nat × W) : M (Array Nat × Array (Nat × W)) := do
  let st ← put st e.1 (e.2.1, e.2.2)
  if undirected then put st e.2.1 (e.1, e.2.2) else return st

/-- `Graph(n, edges, GraphTag, cap)`, `create_directed_graph` and `create_undirected_graph` — csr_graph.hpp:147-190. -/
def create [Inhabited W] (undirected : Bool) (n : Nat) (es : List (Nat × Nat × W)) (cap : Array Int) : M (Graph W) := do
  let adj ← forEach es (Array.replicate n ⟨false, 0, 0, 0⟩) (countEdge undirected)
  let cap := if cap.size = 0 then Array.replicate n (2 ^ 31 - 1) else cap
  let (adj, num) ← forUp 0 n (adj, 0) (layout cap)
  let ptr ← forUp 0 n (Array.replicate n 0) fun i ptr => do
    let a ← rd adj i
    wr ptr i a.offset
  let (_, edges) ← forEach es (ptr, Array.replicate num (0, default)) (putEdge undirected)
  return ⟨n, adj, edges⟩

/-- `make_edges` — csr_graph.hpp:287-298. -/
def makeEdges (g : Array (List (Nat × W))) : M (List (Nat × Nat × W)) :=
  forUp 0 g.size [] fun i es => do
    let l ← rd g i
    return es ++ l.map fun e => (i, e.1, e.2)

/-- `Graph(const std::vector<std::vector<edge_type>>&)` — csr_graph.hpp:183. -/
def ofLists [Inhabited W] (g : Array (List (Nat × W))) : M (Graph W) := do
  let es ← makeEdges g
  create false g.size es #[]

/-- `operator[](int i)` — csr_graph.hpp:192-199. -/
def access (g : Graph W) (i : Nat) : M (Graph W × Adj) := do
  let a ← rd g.adj i
  let adj ← wr g.adj i { a with own := true }
  return ({ g with adj := adj }, { a with own := true })

/-- Dereferencing `_g` — csr_graph.hpp:62-72. -/
def deref (a : Adj) : M Unit := if a.own then .ok () else .error .ub

/-- The elements visited by a loop over `begin()`, `end()` — csr_graph.hpp:65-68. -/
def elems (edges : Array (Nat × W)) (a : Adj) : M (List (Nat × W)) :=
  forUp 0 a.siz [] fun j l => do
    let x ← rd edges (a.offset + j)
    return l ++ [x]

/-- The elements visited by a loop over `rbegin()`, `rend()` — csr_graph.hpp:69-72. -/
def relems (edges : Array (Nat × W)) (a : Adj) : M (List (Nat × W)) :=
  forUp 0 a.siz [] fun j l => do
    let x ← rd edges (edges.size - 1 - (edges.size - (a.offset + a.siz) + j))
    return l ++ [x]

/-- `std::move(first, last, dst)` for `cnt` elements from `src`. -/
def moveFwd (edges : Array (Nat × W)) (src dst cnt : Nat) : M (Array (Nat × W)) :=
  forUp 0 cnt edges fun j edges => do
    let x ← rd edges (src + j)
    wr edges (dst + j) x

/-- `std::move_backward` of `cnt` elements from `src` by `num` places; the end of the destination must not lie in the source. -/
def moveBwd (edges : Array (Nat × W)) (src num cnt : Nat) : M (Array (Nat × W)) :=
  if num = 0 ∧ 0 < cnt then .error .ub else
  forDown cnt 0 edges fun j edges => do
    let x ← rd edges (src + j)
    wr edges (src + num + j) x

/-- Writing the list `xs` from the position `p` on: `std::copy` and `std::fill`. -/
def copyTo (edges : Array (Nat × W)) (p : Nat) (xs : Array (Nat × W)) : M (Array (Nat × W)) :=
  forUp 0 xs.size edges fun j edges => do
    let x ← rd xs j
    wr edges (p + j) x

/-- `shift_back(begin() + k, num)` — csr_graph.hpp:136-140. -/
def shiftBack (edges : Array (Nat × W)) (a : Adj) (k num : Nat) : M (Array (Nat × W) × Adj) := do
  let a' := { a with siz := a.siz + num }
  check (decide ((a'.siz : Int) ≤ a'.cap))
  let edges ← moveBwd edges (a.offset + k) num (a.siz - k)
  return (edges, a')

/-- `erase(first, last)` — csr_graph.hpp:77-84; also `erase(pos)` (74-76). -/
def erase (edges : Array (Nat × W)) (a : Adj) (first last : Nat) : M (Array (Nat × W) × Adj) := do
  check (decide (first ≤ last))
  let num := last - first
  if num = 0 then return (edges, a)
  else do
    check (decide (first + num ≤ a.siz))
    let edges ← moveFwd edges (a.offset + first + num) (a.offset + first) (a.siz - (first + num))
    return (edges, { a with siz := a.siz - num })

/-- `pop_back()` — csr_graph.hpp:85-88. -/
def popBack (edges : Array (Nat × W)) (a : Adj) : M (Array (Nat × W) × Adj) := do
  check (decide (a.siz ≠ 0))
  return (edges, { a with siz := a.siz - 1 })

/-- `push_back(x)` and `emplace_back` — csr_graph.hpp:96-106, 92. -/
def pushBack (edges : Array (Nat × W)) (a : Adj) (x : Nat × W) : M (Array (Nat × W) × Adj) := do
  let a := { a with siz := a.siz + 1 }
  check (decide ((a.siz : Int) ≤ a.cap))
  let edges ← wr edges (a.offset + a.siz - 1) x
  return (edges, a)

/-- `insert(pos, num, x)` — csr_graph.hpp:111-115. -/
def insertN (edges : Array (Nat × W)) (a : Adj) (k num : Nat) (x : Nat × W) : M (Array (Nat × W) × Adj) := do
  check (decide (k ≤ a.siz))
  let (edges, a) ← shiftBack edges a k num
  let edges ← copyTo edges (a.offset + k) (Array.replicate num x)
  return (edges, a)

/-- `insert(pos, first, last)` and `insert(pos, il)` — csr_graph.hpp:116-123. -/
def insertRange (edges : Array (Nat × W)) (a : Adj) (k : Nat) (xs : Array (Nat × W)) : M (Array (Nat × W) × Adj) := do
  check (decide (k ≤ a.siz))
  let (edges, a) ← shiftBack edges a k xs.size
  let edges ← copyTo edges (a.offset + k) xs
  return (edges, a)

/-- `emplace(pos, x)` and `insert(pos, x)` — csr_graph.hpp:108-110, 124-129. -/
def emplace (edges : Array (Nat × W)) (a : Adj) (k : Nat) (x : Nat × W) : M (Array (Nat × W) × Adj) := do
  check (decide (k ≤ a.siz))
  let (edges, a) ← shiftBack edges a k 1
  let edges ← wr edges (a.offset + k + 1 - 1) x
  return (edges, a)

/-- The body of the loop of `shrink_to_fit` — csr_graph.hpp:211-216; the state is the lists, the new edges and the iterator. -/
def shrinkStep (edges : Array (Nat × W)) (i : Nat) (st : Array Adj × Array (Nat × W) × Nat) :
    M (Array Adj × Array (Nat × W) × Nat) := do
  let a ← rd st.1 i
  deref a
  let l ← elems edges a
  let ne ← copyTo st.2.1 st.2.2 l.toArray
  let adj ← wr st.1 i { a with offset := st.2.2, cap := a.siz }
  return (adj, ne, st.2.2 + a.siz)

/-- `shrink_to_fit()` — csr_graph.hpp:205-218. -/
def shrinkToFit [Inhabited W] (g : Graph W) : M (Graph W) := do
  let num := (g.adj.toList.map Adj.siz).sum
  let (adj, ne, _) ← forUp 0 g.n (g.adj, Array.replicate num (0, default), 0) (shrinkStep g.edges)
  return ⟨g.n, adj, ne⟩

/-- The graph copied or moved into another object, the source being destroyed afterwards: the pointers `_g` are copied with the lists. -/
def moved (g : Graph W) : Graph W := { g with adj := g.adj.map fun a => { a with own := false } }

/-- The body of the loop of `reversed` — csr_graph.hpp:227-232. -/
def revStep (i : Nat) (st : Graph W × List (Nat × Nat × W)) : M (Graph W × List (Nat × Nat × W)) := do
  let (g, a) ← access st.1 i
  let l ← elems g.edges a
  return (g, st.2 ++ l.map fun e => (e.1, i, e.2))

/-- `reversed(cap)` — csr_graph.hpp:225-234.  The graph itself is changed in its mutable pointers only. -/
def reversed [Inhabited W] (g : Graph W) (cap : Array Int) : M (Graph W × Graph W) := do
  let (g, es) ← forUp 0 g.n (g, []) revStep
  let r ← create false g.n es cap
  return (g, r)

/-- The calls on the adjacency list `g[i]`, and those on the graph. -/
inductive Op (W : Type) where
  | size (i : Nat)
  | capacity (i : Nat)
  | list (i : Nat)
  | rlist (i : Nat)
  | get (i j : Nat)
  | at (i j : Nat)
  | set (i j : Nat) (x : Nat × W)
  | front (i : Nat)
  | back (i : Nat)
  | erase (i first last : Nat)
  | popBack (i : Nat)
  | clear (i : Nat)
  | pushBack (i : Nat) (x : Nat × W)
  | insertN (i k num : Nat) (x : Nat × W)
  | insertRange (i k : Nat) (xs : Array (Nat × W))
  | emplace (i k : Nat) (x : Nat × W)
  | shrinkToFit
  | moved

/-- Results of the calls. -/
inductive Out (W : Type) where
  | unit
  | num (x : Int)
  | edge (x : Nat × W)
  | list (l : List (Nat × W))

/-- `g[i].f()` where `f` does not change the list — csr_graph.hpp:192-199. -/
def query (g : Graph W) (i : Nat) (f : Array (Nat × W) → Adj → M (Out W)) : M (Graph W × Out W) := do
  let (g, a) ← access g i
  let o ← f g.edges a
  return (g, o)

/-- `g[i].f()` where `f` changes the list — csr_graph.hpp:192-195. -/
def modify (g : Graph W) (i : Nat) (f : Array (Nat × W) → Adj → M (Array (Nat × W) × Adj)) : M (Graph W × Out W) := do
  let (g, a) ← access g i
  let (edges, a) ← f g.edges a
  let adj ← wr g.adj i a
  return (⟨g.n, adj, edges⟩, .unit)

/-- One call — `size`, `capacity` 53-55; iterators 65-72; `operator[]`, `at` 57-60; `front`, `back` 91-94; `clear` 89; the others above. -/
def step [Inhabited W] (g : Graph W) : Op W → M (Graph W × Out W)
  | .size i => query g i fun _ a => return .num a.siz
  | .capacity i => query g i fun _ a => return .num a.cap
  | .list i => query g i fun edges a => do return .list (← elems edges a)
  | .rlist i => query g i fun edges a => do return .list (← relems edges a)
  | .get i j => query g i fun edges a => do return .edge (← rd edges (a.offset + j))
  | .at i j => query g i fun edges a => do
      check (decide (j < a.siz))
      return .edge (← rd edges (a.offset + j))
  | .set i j x => modify g i fun edges a => do return (← wr edges (a.offset + j) x, a)
  | .front i => query g i fun edges a => do return .edge (← rd edges a.offset)
  | .back i => query g i fun edges a =>
      if a.offset + a.siz = 0 then .error .ub else do return .edge (← rd edges (a.offset + a.siz - 1))
  | .erase i first last => modify g i fun edges a => erase edges a first last
  | .popBack i => modify g i popBack
  | .clear i => modify g i fun edges a => return (edges, { a with siz := 0 })
  | .pushBack i x => modify g i fun edges a => pushBack edges a x
  | .insertN i k num x => modify g i fun edges a => insertN edges a k num x
  | .insertRange i k xs => modify g i fun edges a => insertRange edges a k xs
  | .emplace i k x => modify g i fun edges a => emplace edges a k x
  | .shrinkToFit => do return (← shrinkToFit g, .unit)
  | .moved => return (moved g, .unit)

end CsrGraph
