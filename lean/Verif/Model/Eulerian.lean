import Verif.Cxx

/-!
# Model of `library/graph/directed_eulerian_graph.hpp` and `library/graph/undirected_eulerian_graph.hpp`

Vertices are natural numbers below `n`; the value `-1` of an `int` is `none`. The depth-first search is the same in both classes except for the lines that mark an edge
as used, so it takes these lines as a parameter `mark`.
-/

namespace Eulerian
open Cxx

/-- The flags `used`. -/
abbrev Used := Array (Array Bool)

/-- The state of the depth-first search: `used`, `iter` and `res`. -/
structure St where
  used : Used
  iter : Array Nat
  res : Array Nat

/-- `used[u][i] = true`. -/
def setUsed (u i : Nat) (used : Used) : M Used := do
  let row ← rd used u
  let row ← wr row i true
  wr used u row

/-- `used[u][i]`. -/
def getUsed (u i : Nat) (used : Used) : M Bool := do
  let row ← rd used u
  rd row i

/-- `++iter[u]`. -/
def advance (u : Nat) (t : St) : M St := do
  let i ← rd t.iter u
  let it ← wr t.iter u (i + 1)
  return { t with iter := it }

/-- `dfs(u)` — directed_eulerian_graph.hpp:34-42, undirected_eulerian_graph.hpp:39-49, from the state in which the loop is at `i = iter[u]`; the next round of the
loop is a recursive call. The first argument bounds the depth. -/
def dfs (g : Array (Array Nat)) (mark : Nat → Nat → Used → M Used) : Nat → Nat → St → M St
  | 0, _, _ => .error .diverge
  | k + 1, u, t => do
    let i ← rd t.iter u
    let row ← rd g u
    if i < row.size then do
      let b ← getUsed u i t.used
      if b then do
        let t ← advance u t
        dfs g mark k u t
      else do
        let v ← rd row i
        let used ← mark u i t.used
        let t ← dfs g mark k v { t with used := used }
        let t ← advance u t
        dfs g mark k u t
    else return { t with res := t.res.push u }

/-- The number of entries of all lists. -/
def total (g : Array (Array Nat)) : Nat := g.foldl (fun s r => s + r.size) 0

/-- `used`, `iter` and `res` before the search, and the search — directed_eulerian_graph.hpp:21, 25, 32-43, undirected_eulerian_graph.hpp:25, 29, 37-50. -/
def search (g : Array (Array Nat)) (mark : Nat → Nat → Used → M Used) (start : Nat) : M St :=
  dfs g mark (2 * total g + 1) start ⟨(g.toList.map fun r => Array.replicate r.size false).toArray, Array.replicate g.size 0, #[]⟩

/-- `std::adjacent_find` with a predicate: the position of the first of the two neighbours. -/
def adjacent (p : Nat → Nat → Bool) : List Nat → Option Nat
  | a :: b :: l => if p a b then some 0 else (adjacent p (b :: l)).map (· + 1)
  | _ => none

/-- `std::rotate(res.begin(), std::adjacent_find(...) + 1, res.end())` — directed_eulerian_graph.hpp:76, undirected_eulerian_graph.hpp:73. If nothing is found the
iterator passes the end. -/
def rotate (p : Nat → Nat → Bool) (res : List Nat) : M (List Nat) :=
  match adjacent p res with
  | none => .error .ub
  | some i => return res.drop (i + 1) ++ res.take (i + 1)

/-- `g[u].pop_back()`. -/
def popRow (g : Array (Array Nat)) (u : Nat) : M (Array (Array Nat)) := do
  let row ← rd g u
  wr g u row.pop

/-- `g[u].push_back(x)`. -/
def pushRow (g : Array (Array Nat)) (u x : Nat) : M (Array (Array Nat)) := do
  let row ← rd g u
  wr g u (row.push x)

/-! ### The directed class -/

/-- directed_eulerian_graph.hpp:84-86. -/
structure DObj where
  n : Nat
  g : Array (Array Nat)
  inDeg : Array Nat
  deriving DecidableEq

/-- The constructor — directed_eulerian_graph.hpp:12. -/
def DObj.new (n : Nat) : DObj := ⟨n, Array.replicate n #[], Array.replicate n 0⟩

/-- `add_edge(u, v)` — directed_eulerian_graph.hpp:14-17. -/
def DObj.addEdge (o : DObj) (u v : Nat) : M DObj := do
  let g ← pushRow o.g u v
  let d ← rd o.inDeg v
  let inDeg ← wr o.inDeg v (d + 1)
  return { o with g := g, inDeg := inDeg }

/-- The first loop — directed_eulerian_graph.hpp:22-27; the early return is a flag. The state is the flag and `edge_num`. -/
def DObj.check (o : DObj) : M (Bool × Nat) := forUp 0 o.n (true, 0) fun i s => do
  let row ← rd o.g i
  let d ← rd o.inDeg i
  return (s.1 && decide (d = row.size), s.2 + row.size)

/-- The choice of the start — directed_eulerian_graph.hpp:28-31. -/
def DObj.start (o : DObj) (start : Option Nat) : M Nat := match start with
  | some s => return s
  | none => forUp 0 o.n 0 fun i s => do
    let d ← rd o.inDeg i
    if d ≠ 0 then return i else return s

/-- `eulerian_circuit(start)` — directed_eulerian_graph.hpp:19-47. -/
def DObj.circuit (o : DObj) (start : Option Nat) : M (Option (List Nat)) := do
  let c ← o.check
  if c.1 then do
    let s ← o.start start
    let t ← search o.g setUsed s
    if t.res.size ≠ c.2 + 1 then return none else return some t.res.toList.reverse
  else return none

/-- The body of the loop that looks for the end points — directed_eulerian_graph.hpp:51-58; the state is `(s, t, invalid)`. -/
def dEndStep (out inn : Nat) (i : Nat) (e : Option Nat × Option Nat × Option Nat) : Option Nat × Option Nat × Option Nat :=
  if out = inn + 1 then (match e.1 with
    | none => (some i, e.2.1, e.2.2)
    | some _ => (e.1, e.2.1, some i))
  else if out + 1 = inn then (match e.2.1 with
    | none => (e.1, some i, e.2.2)
    | some _ => (e.1, e.2.1, some i))
  else if out ≠ inn then (e.1, e.2.1, some i)
  else e

/-- The loop — directed_eulerian_graph.hpp:49-59. -/
def DObj.ends (o : DObj) : M (Option Nat × Option Nat × Option Nat) := forUp 0 o.n (none, none, none) fun i e => do
  let row ← rd o.g i
  let d ← rd o.inDeg i
  return dEndStep row.size d i e

/-- `eulerian_trail` after the circuit of the graph with the edge `(t, s)` has been found — directed_eulerian_graph.hpp:67-77. -/
def DObj.finish (o : DObj) (s t : Nat) (res : List Nat) : M (DObj × Option (List Nat)) := do
  let res := res.dropLast
  let g ← popRow o.g t
  let d ← rd o.inDeg s
  let inDeg ← wr o.inDeg s (d - 1)
  let o : DObj := { o with g := g, inDeg := inDeg }
  match res.getLast? with
  | none => .error .ub
  | some b =>
    if b = t then return (o, some res)
    else do
      let r ← rotate (fun u v => decide (u = t ∧ v = s)) res
      return (o, some r)

/-- Lines 64-77 — directed_eulerian_graph.hpp:64-77. -/
def DObj.openTrail (o : DObj) (s t : Nat) : M (DObj × Option (List Nat)) := do
  let o ← o.addEdge t s
  let r ← o.circuit (some s)
  match r with
  | none => return (o, none)
  | some res => o.finish s t res

/-- `eulerian_trail(different_endpoints)` — directed_eulerian_graph.hpp:48-78; the result is the object afterwards and the value returned. -/
def DObj.trail (o : DObj) (different : Bool) : M (DObj × Option (List Nat)) := do
  let e ← o.ends
  match e with
  | (none, none, none) =>
    if different then return (o, none)
    else do
      let r ← o.circuit none
      return (o, r)
  | (some s, some t, none) => o.openTrail s t
  | _ => return (o, none)

/-! ### The undirected class -/

/-- undirected_eulerian_graph.hpp:84-86. -/
structure UObj where
  n : Nat
  g : Array (Array Nat)
  inv : Array (Array Nat)
  deriving DecidableEq

/-- The constructor — undirected_eulerian_graph.hpp:12. -/
def UObj.new (n : Nat) : UObj := ⟨n, Array.replicate n #[], Array.replicate n #[]⟩

/-- `add_edge(u, v)` — undirected_eulerian_graph.hpp:14-21. -/
def UObj.addEdge (o : UObj) (u v : Nat) : M UObj := do
  let ru ← rd o.g u
  let su := ru.size
  let g ← pushRow o.g u v
  let rv ← rd g v
  let sv := rv.size
  let g ← pushRow g v u
  let inv ← pushRow o.inv u sv
  let inv ← pushRow inv v su
  return { o with g := g, inv := inv }

/-- The lines that mark an edge — undirected_eulerian_graph.hpp:42-45. -/
def UObj.mark (o : UObj) (u i : Nat) (used : Used) : M Used := do
  let row ← rd o.g u
  let v ← rd row i
  let used ← setUsed u i used
  let irow ← rd o.inv u
  let j ← rd irow i
  let b ← getUsed v j used
  Cxx.check (!b)
  setUsed v j used

/-- The first loop — undirected_eulerian_graph.hpp:26-31; the early return is a flag. The state is the flag and `edge_num`. -/
def UObj.check (o : UObj) : M (Bool × Nat) := forUp 0 o.n (true, 0) fun i s => do
  let row ← rd o.g i
  return (s.1 && decide (row.size % 2 = 0), s.2 + row.size)

/-- The choice of the start — undirected_eulerian_graph.hpp:32-35. -/
def UObj.start (o : UObj) (start : Option Nat) : M Nat := match start with
  | some s => return s
  | none => forUp 0 o.n 0 fun i s => do
    let row ← rd o.g i
    if row.size ≠ 0 then return i else return s

/-- `eulerian_circuit(start)` — undirected_eulerian_graph.hpp:23-53. -/
def UObj.circuit (o : UObj) (start : Option Nat) : M (Option (List Nat)) := do
  let c ← o.check
  if c.1 then do
    let s ← o.start start
    let t ← search o.g o.mark s
    if t.res.size ≠ c.2 / 2 + 1 then return none else return some t.res.toList
  else return none

/-- The body of the loop that looks for the end points — undirected_eulerian_graph.hpp:56; the state is `(s, t, invalid)`. -/
def uEndStep (deg : Nat) (i : Nat) (e : Option Nat × Option Nat × Option Nat) : Option Nat × Option Nat × Option Nat :=
  if deg % 2 = 1 then (match e.1 with
    | none => (some i, e.2.1, e.2.2)
    | some _ => (match e.2.1 with
      | none => (e.1, some i, e.2.2)
      | some _ => (e.1, e.2.1, some i)))
  else e

/-- The loop — undirected_eulerian_graph.hpp:55-56. -/
def UObj.ends (o : UObj) : M (Option Nat × Option Nat × Option Nat) := forUp 0 o.n (none, none, none) fun i e => do
  let row ← rd o.g i
  return uEndStep row.size i e

/-- `eulerian_trail` after the circuit of the graph with the edge `(s, t)` has been found — undirected_eulerian_graph.hpp:64-74. -/
def UObj.finish (o : UObj) (s t : Nat) (res : List Nat) : M (UObj × Option (List Nat)) := do
  let res := res.dropLast
  let g ← popRow o.g s
  let inv ← popRow o.inv s
  let g ← popRow g t
  let inv ← popRow inv t
  let o : UObj := { o with g := g, inv := inv }
  match res.getLast? with
  | none => .error .ub
  | some b =>
    if b = t then return (o, some res)
    else do
      let r ← rotate (fun u v => decide ((u = s ∧ v = t) ∨ (u = t ∧ v = s))) res
      return (o, some r)

/-- Lines 61-74 — undirected_eulerian_graph.hpp:61-74. -/
def UObj.openTrail (o : UObj) (s t : Nat) : M (UObj × Option (List Nat)) := do
  let o ← o.addEdge s t
  let r ← o.circuit (some s)
  match r with
  | none => return (o, none)
  | some res => o.finish s t res

/-- `eulerian_trail(different_endpoints)` — undirected_eulerian_graph.hpp:54-75; the result is the object afterwards and the value returned. -/
def UObj.trail (o : UObj) (different : Bool) : M (UObj × Option (List Nat)) := do
  let e ← o.ends
  match e with
  | (none, none, none) =>
    if different then return (o, none)
    else do
      let r ← o.circuit none
      return (o, r)
  | (some s, some t, none) => o.openTrail s t
  | _ => return (o, none)

end Eulerian
