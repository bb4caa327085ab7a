import Verif.Cxx

/-!
# Model of `get_cycle_directed` in `library/graph/cycle_detection.hpp`

The graph is given by its adjacency lists `g[u]`; an edge is a pair of its target and its weight (`W = Unit` for `Graph<void>`). Iterators into `stk` are indices, `stk.end()` is `n`.
`get_cycle_undirected` is not modelled: line 24 declares a parameter without a default argument behind one with a default argument, which is ill-formed.
-/

namespace CycleDetection
open Cxx

variable {W : Type} [Inhabited W]

/-- The captured variables — lines 56-62. -/
structure St (W : Type) where
  res : List (Nat × W)
  stk : Array (Nat × W)
  ptr : Nat
  pos : Array Nat
  vis : Array Bool

/-- The loop over the edges of a vertex — lines 65-77; `rec` is the recursive call. The first component tells whether the function has returned `true`. -/
def scan (n : Nat) (rec : Nat → St W → M (Bool × St W)) : List (Nat × W) → St W → M (Bool × St W)
  | [], s => return (false, s)
  | e :: es, s => do
    let b ← rd s.vis e.1
    if !b then do
      let vis ← wr s.vis e.1 true
      let stk ← wr s.stk s.ptr e
      let r ← rec e.1 { s with vis := vis, stk := stk, ptr := s.ptr + 1 }
      if r.1 then return r else scan n rec es { r.2 with ptr := r.2.ptr - 1 }
    else do
      let p ← rd s.pos e.1
      if p ≠ n then do
        let stk ← wr s.stk s.ptr e
        return (true, { s with stk := stk, ptr := s.ptr + 1, res := (stk.toList.drop p).take (s.ptr + 1 - p) })
      else scan n rec es s

/-- The lambda `dfs` — lines 63-80. -/
def dfs (g : Array (List (Nat × W))) : Nat → Nat → St W → M (Bool × St W)
  | 0, _, _ => .error .diverge
  | f + 1, u, s => do
    let pos ← wr s.pos u s.ptr
    let es ← rd g u
    let r ← scan g.size (dfs g f) es { s with pos := pos }
    if r.1 then return r
    else do
      let pos ← wr r.2.pos u g.size
      return (false, { r.2 with pos := pos })

/-- The loop over the vertices — lines 81-84. -/
def outer (g : Array (List (Nat × W))) : List Nat → St W → M (Option (List (Nat × W)))
  | [], _ => return none
  | i :: is, s => do
    let b ← rd s.vis i
    if !b then do
      let vis ← wr s.vis i true
      let r ← dfs g g.size i { s with vis := vis }
      if r.1 then return some r.2.res else outer g is r.2
    else outer g is s

/-- `get_cycle_directed(g)` — lines 52-85. -/
def getCycleDirected (g : Array (List (Nat × W))) : M (Option (List (Nat × W))) :=
  let n := g.size
  outer g (List.range n) ⟨[], Array.replicate n default, 0, Array.replicate n n, Array.replicate n false⟩

end CycleDetection
