import Verif.Model.HLD

/-!
# Model of `library/tree/auxiliary_tree.hpp`

The stack `st` is a list with the back of the vector first. `std::sort` is the parameter `srt`.
-/

namespace AuxTree
open Cxx

/-- The members `_hld`, `_aux`, `_upd` — lines 65-68. -/
structure Obj where
  hld : HLD.St
  aux : Array (List Nat)
  upd : List Nat

/-- The constructor — line 10. -/
def make (t : HLD.St) : Obj := ⟨t, Array.replicate t.visit.size [], []⟩

/-- `_aux[u].push_back(v)` — lines 35, 36, 44, 45, 47, 48, 56, 57. -/
def push (aux : Array (List Nat)) (u v : Nat) : M (Array (List Nat)) := do
  let a ← rd aux u
  wr aux u (a ++ [v])

/-- `_aux[u].push_back(v); _aux[v].push_back(u);` — lines 35-36, 44-45, 47-48, 56-57. -/
def link (aux : Array (List Nat)) (u v : Nat) : M (Array (List Nat)) := do
  let aux ← push aux u v
  push aux v u

/-- `st.back()` followed by `st.pop_back()` — lines 31-32, 37-38. -/
def pop : List Nat → M (Nat × List Nat)
  | [] => .error .ub
  | u :: st => return (u, st)

/-- The state of the loop over `st`: `_aux`, `st`, `last`. -/
structure Climb where
  aux : Array (List Nat)
  st : List Nat
  last : Nat

/-- The loop body for a non-empty stack with back `u` — lines 33-39. -/
def climbAt (t : HLD.St) (w : Nat) (aux : Array (List Nat)) (st : List Nat) (last u : Nat) : M (Option Climb) := do
  let dw ← rd t.dep w
  let du ← rd t.dep u
  if dw < du then do
    let aux ← link aux u last
    return some ⟨aux, st, u⟩
  else return none

/-- One iteration of the loop — lines 33-39. -/
def climb (t : HLD.St) (w : Nat) (c : Climb) : M (Option Climb) :=
  match c.st with
  | [] => return none
  | u :: st => climbAt t w c.aux st c.last u

/-- The state of the main loop: `_aux`, `_upd`, `vs`, `st`. -/
structure Run where
  aux : Array (List Nat)
  upd : List Nat
  vs : Array Nat
  st : List Nat

/-- Lines 41-49. -/
def attach (w : Nat) (upd : List Nat) (vs : Array Nat) (c : Climb) : M Run :=
  if c.st.head? = some w then do
    let aux ← link c.aux w c.last
    return ⟨aux, upd, vs, c.st⟩
  else do
    let aux ← link c.aux w c.last
    return ⟨aux, upd, vs.push w, w :: c.st⟩

/-- Lines 29-50. -/
def branch (t : HLD.St) (w x : Nat) (s : Run) : M Run :=
  if w ≠ x then do
    let (last, st) ← pop s.st
    let c ← loop (climb t w) s.st.length ⟨s.aux, st, last⟩
    attach w (s.upd ++ [w]) s.vs c
  else return s

/-- Loop body — lines 26-53. -/
def body (t : HLD.St) (i : Nat) (s : Run) : M Run := do
  let x ← rd s.vs i
  let y ← rd s.vs (i + 1)
  let w ← HLD.lca t x y
  let s ← branch t w x s
  let y ← rd s.vs (i + 1)
  return ⟨s.aux, s.upd, s.vs, y :: s.st⟩

/-- `_aux[v].clear()` — line 18. -/
def clear (aux : Array (List Nat)) (v : Nat) : M (Array (List Nat)) := wr aux v []

/-- Loop body — lines 55-58. -/
def joinStep (st : Array Nat) (i : Nat) (aux : Array (List Nat)) : M (Array (List Nat)) := do
  let u ← rd st i
  let v ← rd st (i + 1)
  link aux u v

/-- `build` — lines 16-59. -/
def build (srt : List Nat → List Nat) (o : Obj) (l : List Nat) : M Obj := do
  let aux ← forEach o.upd o.aux clear
  let vs := (srt l).toArray
  let x ← rd vs 0
  let s ← forUp 0 (vs.size - 1) ⟨aux, vs.toList, vs, [x]⟩ (body o.hld)
  let aux ← forUp 0 (s.st.length - 1) s.aux (joinStep s.st.reverse.toArray)
  return ⟨o.hld, aux, s.upd⟩

end AuxTree
