import Verif.Cxx

/-!
# The iterative depth first search of `tree/find_centroid.hpp` and `tree/tree_isomorphism_classification.hpp`

Both headers walk a tree with a cursor `cur`, an edge counter `eid` per vertex and a parent array `par`, and do some work (`fin`) when a vertex has no edge left. `-1` is `none`.
-/

namespace IterDFS
open Cxx

/-- The local variables, `st` being those used by `fin` only. -/
structure DS (σ : Type) where
  cur : Option Nat
  eid : Array Nat
  par : Array (Option Nat)
  st : σ

variable {σ : Type}

/-- The branch taken when all edges of `cur` are used — `find_centroid.hpp` lines 17-24, `tree_isomorphism_classification.hpp` lines 111-116. -/
def finish (fin : Nat → Option Nat → σ → M σ) (cur : Nat) (s : DS σ) : M (DS σ) := do
  let p ← rd s.par cur
  let st ← fin cur p s.st
  return { s with cur := p, st := st }

/-- `par[nxt] = cur; cur = nxt`, unless `nxt` is the parent `p` — `find_centroid.hpp` lines 27-29, `tree_isomorphism_classification.hpp` lines 117-120. -/
def go (cur nxt : Nat) (p : Option Nat) (s : DS σ) : M (DS σ) :=
  if some nxt = p then return s else do
    let par ← wr s.par nxt (some cur)
    return { s with cur := some nxt, par := par }

/-- The other branch; `a` is `g[cur]` and `e` is `eid[cur]` — `find_centroid.hpp` lines 26-29, `tree_isomorphism_classification.hpp` lines 117-120. -/
def descend (cur : Nat) (a : List Nat) (e : Nat) (s : DS σ) : M (DS σ) := do
  let eid ← wr s.eid cur (e + 1)
  let nxt ← rd a.toArray e
  let p ← rd s.par cur
  go cur nxt p { s with eid := eid }

/-- Loop body with the vertex `cur` — `find_centroid.hpp` lines 16-30, `tree_isomorphism_classification.hpp` lines 110-120. -/
def body (g : Array (List Nat)) (fin : Nat → Option Nat → σ → M σ) (cur : Nat) (s : DS σ) : M (DS σ) := do
  let e ← rd s.eid cur
  let a ← rd g cur
  if e = a.length then finish fin cur s else descend cur a e s

/-- `for (int cur = ...; cur >= 0;)` — `find_centroid.hpp` line 15, `tree_isomorphism_classification.hpp` line 109. -/
def step (g : Array (List Nat)) (fin : Nat → Option Nat → σ → M σ) (s : DS σ) : M (Option (DS σ)) :=
  match s.cur with
  | none => return none
  | some cur => do
    let s ← body g fin cur s
    return some s

/-- The walk from `root`; every vertex takes one step per edge and one more. -/
def walk (g : Array (List Nat)) (fin : Nat → Option Nat → σ → M σ) (root : Nat) (st : σ) : M σ := do
  let s ← loop (step g fin) ((List.range g.size).map fun x => (g[x]?.getD []).length + 1).sum
    ⟨some root, Array.replicate g.size 0, Array.replicate g.size none, st⟩
  return s.st

end IterDFS
