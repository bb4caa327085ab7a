import Verif.Model.SuffixAutomaton

/-!
# Model of `library/string/suffix_automaton.hpp`, continued: the classes that answer queries
-/

namespace SuffixAutomaton
open Cxx

variable {α : Type} [DecidableEq α]

/-- The in-degrees — suffix_automaton.hpp:207-211. -/
def inDegrees (nodes : Array (Node α)) : M (Array Int) :=
  forUp 0 nodes.size (Array.replicate nodes.size (0 : Int)) fun i deg => do
    let x ← rd nodes i
    forEach x.nxt deg fun deg p => do wr deg p.2 ((← rd deg p.2) + 1)

/-- One edge of the node at the front of the queue — suffix_automaton.hpp:222. -/
def relax (x : Array Int × List Nat) (p : α × Nat) : M (Array Int × List Nat) := do
  let deg ← wr x.1 p.2 ((← rd x.1 p.2) - 1)
  if (← rd deg p.2) = 0 then return (deg, x.2 ++ [p.2]) else return (deg, x.2)

/-- One round of the loop over the queue — suffix_automaton.hpp:217-224. -/
def topoStep (nodes : Array (Node α)) (x : Array Int × List Nat × List Nat) : M (Option (Array Int × List Nat × List Nat)) :=
  match x.2.1 with
  | [] => return none
  | u :: dq => do
    let node ← rd nodes u
    let (deg, dq) ← forEach node.nxt (x.1, dq) relax
    return some (deg, dq, x.2.2 ++ [u])

/-- `topological_order(reversed)` — suffix_automaton.hpp:206-229. -/
def topologicalOrder (s : State α) (reversed : Bool) : M (List Nat) := do
  let n := s.nodes.size
  let deg ← inDegrees s.nodes
  let dq ← forUp 0 n [] fun i dq => do
    if (← rd deg i) = 0 then return dq ++ [i] else return dq
  let (_, _, res) ← loop (topoStep s.nodes) (n + 1) (deg, dq, [])
  let res := if reversed then res.reverse else res
  check (decide (res.length = n))
  return res

/-- One node in the constructor of `SubstringCounter` — suffix_automaton.hpp:81-83. -/
def countStep (nodes : Array (Node α)) (dp : Array Nat) (u : Nat) : M (Array Nat) := do
  let x ← rd nodes u
  let dp ← wr dp u ((← rd dp u) + if x.cloned then 0 else 1)
  match x.link with
  | none => return dp
  | some p => do wr dp p ((← rd dp p) + (← rd dp u))

/-- `SubstringCounter(sa)` — suffix_automaton.hpp:78-85. -/
def counter (s : State α) : M (Array Nat) := do
  forEach (← topologicalOrder s true) (Array.replicate s.nodes.size 0) (countStep s.nodes)

/-- `SubstringCounter::count(t)` — suffix_automaton.hpp:86-89. -/
def count (s : State α) (dp : Array Nat) (t : List α) : M Nat := do
  match ← transition s t with
  | none => return 0
  | some u => rd dp u

/-- `SuffixLinkTree(sa)` — suffix_automaton.hpp:103-106. A link -1 is an index out of range. -/
def linkTree (s : State α) : M (Array (List Nat)) :=
  forUp 1 s.nodes.size (Array.replicate s.nodes.size []) fun i g => do
    let x ← rd s.nodes i
    match x.link with
    | none => .error .ub
    | some p => do wr g p ((← rd g p) ++ [i])

/-- `dfs` of `enumerate_all_occurrence` — suffix_automaton.hpp:134-137. The first argument bounds the depth. -/
def dfs (nodes : Array (Node α)) (g : Array (List Nat)) (l : Nat) : Nat → Nat → List Int → M (List Int)
  | 0, _, _ => .error .diverge
  | fuel + 1, u, res => do
    let x ← rd nodes u
    let res := if x.cloned then res else res ++ [(x.len : Int) - l]
    forEach (← rd g u) res fun res v => dfs nodes g l fuel v res

/-- `OccurrenceEnumerator::enumerate_all_occurrence(pattern)` — suffix_automaton.hpp:128-140. -/
def enumerate (s : State α) (g : Array (List Nat)) (t : List α) : M (List Int) := do
  match ← transition s t with
  | none => return []
  | some u => dfs s.nodes g t.length (s.nodes.size + 1) u []

/-- One node in the constructor of `FirstOccurenceSearcher` — suffix_automaton.hpp:158-160. -/
def firstStep (nodes : Array (Node α)) (dp : Array Int) (u : Nat) : M (Array Int) := do
  let x ← rd nodes u
  let dp ← (if x.cloned then return dp else wr dp u (x.len : Int) : M (Array Int))
  match x.link with
  | none => return dp
  | some p => do
    let y ← rd nodes p
    if y.cloned then wr dp p (min (← rd dp p) (← rd dp u)) else return dp

/-- `FirstOccurenceSearcher(sa)` — suffix_automaton.hpp:154-162. -/
def firstTable (s : State α) : M (Array Int) := do
  forEach (← topologicalOrder s true) (Array.replicate s.nodes.size (2147483647 : Int)) (firstStep s.nodes)

/-- `FirstOccurenceSearcher::first_occurrence(t)` — suffix_automaton.hpp:165-169. -/
def firstOccurrence (s : State α) (dp : Array Int) (t : List α) : M Int := do
  match ← transition s t with
  | none => return -1
  | some u => return (← rd dp u) - t.length

/-- The inner loop of `longest_common_substring` — suffix_automaton.hpp:187-190. -/
def lcsBack (nodes : Array (Node α)) (c : α) (x : Nat × Nat) : M (Option (Nat × Nat)) := do
  let v ← rd nodes x.1
  match v.link with
  | none => return none
  | some p =>
    match v.nxt.lookup c with
    | some _ => return none
    | none => do
      let y ← rd nodes p
      return some (p, y.len)

/-- The variables of `longest_common_substring` — suffix_automaton.hpp:184-185. -/
structure Lcs where
  v : Nat
  l : Nat
  maxLen : Nat
  sEnd : Int
  tEnd : Int

/-- The step along a transition, if there is one — suffix_automaton.hpp:191-195. -/
def lcsNext (m : List (α × Nat)) (c : α) (v l : Nat) : Nat × Nat :=
  match m.lookup c with
  | some u => (u, l + 1)
  | none => (v, l)

/-- One symbol in `longest_common_substring` — suffix_automaton.hpp:186-201. -/
def lcsStep (nodes : Array (Node α)) (t : Array α) (i : Nat) (x : Lcs) : M Lcs := do
  let c ← rd t i
  let (v, l) ← loop (lcsBack nodes c) nodes.size (x.v, x.l)
  let node ← rd nodes v
  let (v, l) := lcsNext node.nxt c v l
  if l > x.maxLen then do
    let node ← rd nodes v
    return ⟨v, l, l, node.index, i⟩
  else return ⟨v, l, x.maxLen, x.sEnd, x.tEnd⟩

/-- `longest_common_substring(t)` — suffix_automaton.hpp:182-204. -/
def longestCommonSubstring (s : State α) (t : Array α) : M (Int × Int × Int) := do
  if t.size = 0 then return (0, 0, 0)
  let x ← forUp 0 t.size ⟨0, 0, 0, 0, 0⟩ (lcsStep s.nodes t)
  if x.maxLen = 0 then return (0, 0, 0)
  return (x.sEnd - x.maxLen + 1, x.tEnd - x.maxLen + 1, x.maxLen)

end SuffixAutomaton
