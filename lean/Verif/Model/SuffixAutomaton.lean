import Verif.Cxx

/-!
# Model of `library/string/suffix_automaton.hpp`

Fewer than 2^30 symbols, so that no `int` overflows. A `std::map` is a list of pairs with different keys; the order in which it is traversed is that of the list. An index -1 of a link or of the invalid state is `none`.
-/

namespace SuffixAutomaton
open Cxx

variable {α : Type} [DecidableEq α]

/-- `Node` — suffix_automaton.hpp:22-27. -/
structure Node (α : Type) where
  nxt : List (α × Nat)
  link : Option Nat
  len : Nat
  cloned : Bool
  index : Int

/-- Members — suffix_automaton.hpp:29-30. -/
structure State (α : Type) where
  nodes : Array (Node α)
  last : Nat

/-- `m[c] = x` for a `std::map`. -/
def put (c : α) (x : Nat) : List (α × Nat) → List (α × Nat)
  | [] => [(c, x)]
  | p :: m => if p.1 = c then (c, x) :: m else p :: put c x m

/-- `m[c]` for a `std::map`. A missing key, for which 0 would be inserted, is an error of the model; it does not occur. -/
def get (m : List (α × Nat)) (c : α) : M Nat :=
  match m.lookup c with
  | some x => return x
  | none => .error .assertion

/-- `SuffixAutomatonBase()` — suffix_automaton.hpp:32-35. -/
def init : State α := ⟨#[⟨[], none, 0, false, -1⟩], 0⟩

/-- One evaluation of the first loop of `append` — suffix_automaton.hpp:45. -/
def walk1 (c : α) (new : Nat) (x : Array (Node α) × Option Nat) : M (Option (Array (Node α) × Option Nat)) :=
  match x.2 with
  | none => return none
  | some p => do
    let node ← rd x.1 p
    match node.nxt.lookup c with
    | some _ => return none
    | none => do
      let nodes ← wr x.1 p { node with nxt := put c new node.nxt }
      return some (nodes, node.link)

/-- One evaluation of the second loop of `append` — suffix_automaton.hpp:52. -/
def walk2 (c : α) (q clone : Nat) (x : Array (Node α) × Option Nat) : M (Option (Array (Node α) × Option Nat)) :=
  match x.2 with
  | none => return none
  | some p => do
    let node ← rd x.1 p
    let y ← get node.nxt c
    if y = q then do
      let nodes ← wr x.1 p { node with nxt := put c clone node.nxt }
      return some (nodes, node.link)
    else return none

/-- `nodes[i].link = l`. -/
def setLink (nodes : Array (Node α)) (i l : Nat) : M (Array (Node α)) := do
  let x ← rd nodes i
  wr nodes i { x with link := some l }

/-- `append(c)` — suffix_automaton.hpp:40-56. -/
def append (s : State α) (c : α) : M (State α) := do
  let new := s.nodes.size
  let ln ← rd s.nodes s.last
  let idx := ln.index + 1
  let nodes := s.nodes.push ⟨[], none, ln.len + 1, false, idx⟩
  let (nodes, p) ← loop (walk1 c new) (ln.len + 2) (nodes, some s.last)
  match p with
  | none => do
    let nodes ← setLink nodes new 0
    return ⟨nodes, new⟩
  | some p => do
    let pn ← rd nodes p
    let q ← get pn.nxt c
    let qn ← rd nodes q
    if pn.len + 1 = qn.len then do
      let nodes ← setLink nodes new q
      return ⟨nodes, new⟩
    else do
      let clone := nodes.size
      let nodes := nodes.push ⟨qn.nxt, qn.link, pn.len + 1, true, idx⟩
      let (nodes, _) ← loop (walk2 c q clone) (ln.len + 2) (nodes, some p)
      let nodes ← setLink nodes q clone
      let nodes ← setLink nodes new clone
      return ⟨nodes, new⟩

/-- `SuffixAutomatonBase(s)` — suffix_automaton.hpp:36-38. -/
def build (xs : List α) : M (State α) := forEach xs init append

/-- The loop of `transition` from the state `cur` — suffix_automaton.hpp:64-69. -/
def transFrom (nodes : Array (Node α)) : Nat → List α → M (Option Nat)
  | cur, [] => return some cur
  | cur, c :: t => do
    let node ← rd nodes cur
    match node.nxt.lookup c with
    | none => return none
    | some v => transFrom nodes v t

/-- `transition(t)` — suffix_automaton.hpp:62-70. -/
def transition (s : State α) (t : List α) : M (Option Nat) := transFrom s.nodes 0 t

/-- `accept(t)` — suffix_automaton.hpp:72-74. -/
def accept (s : State α) (t : List α) : M Bool := do return (← transition s t).isSome

end SuffixAutomaton
