import Verif.Cxx

/-!
# Model of `library/string/palindromic_tree.hpp`: `PalindromicTree` (children in a `std::map<T, int>`)

Fewer than 2^31 - 2 values, so that no `int` overflows. `PalindromicTreeVec` and `PalindromicTreeArr`, which differ in the container of the children, are not modelled.
-/

namespace PalindromicTree
open Cxx

variable {α : Type} [DecidableEq α]

/-- `PalindromicTreeNode` — palindromic_tree.hpp:21-30. The map is a list of pairs with different keys. -/
structure Node (α : Type) where
  ch : List (α × Nat)
  link : Nat
  len : Int
  mult : Nat
  first : Int

/-- Members — palindromic_tree.hpp:187-189. -/
structure State (α : Type) where
  active : Nat
  seq : Array α
  nodes : Array (Node α)

/-- `PalindromicTreeBase()` — palindromic_tree.hpp:39-51, 191-197. `emplace_back()` value-initialises the node, so that the multiplicity is 0. -/
def init : State α := ⟨0, #[], #[⟨[], 0, -1, 0, 1⟩, ⟨[], 0, 0, 0, 0⟩]⟩

/-- One evaluation of the loop of `_find_next_longest_suffix_palindrome` — palindromic_tree.hpp:201-204. -/
def findStep (seq : Array α) (nodes : Array (Node α)) (cur : Nat) : M (Option Nat) := do
  let node ← rd nodes cur
  let opp : Int := (seq.size : Int) - node.len - 2
  if opp ≥ 0 then
    let x ← rd seq opp.toNat
    let y ← rd seq (seq.size - 1)
    if x = y then return none else return some node.link
  else return some node.link

/-- `_find_next_longest_suffix_palindrome` — palindromic_tree.hpp:199-205. -/
def find (seq : Array α) (nodes : Array (Node α)) (cur : Nat) : M Nat := loop (findStep seq nodes) nodes.size cur

/-- The suffix link of a new node — palindromic_tree.hpp:100-104: `_children[val]` of a map inserts 0 for a missing key. -/
def linkOf (seq : Array α) (nodes : Array (Node α)) (len : Int) (parLink : Nat) (val : α) : M (Nat × Array (Node α)) := do
  if len = 1 then return (1, nodes)
  let q ← find seq nodes parLink
  let qn ← rd nodes q
  match qn.ch.lookup val with
  | some l => return (l, nodes)
  | none => do
    let nodes ← wr nodes q { qn with ch := (val, 0) :: qn.ch }
    return (0, nodes)

/-- `int add(const value_type&)` — palindromic_tree.hpp:57-106, with `is_map`. -/
def add (s : State α) (val : α) : M (State α × Nat) := do
  let seq := s.seq.push val
  let par ← find seq s.nodes s.active
  let pn ← rd s.nodes par
  match pn.ch.lookup val with
  | some j => do
    let x ← rd s.nodes j
    let nodes ← wr s.nodes j { x with mult := x.mult + 1 }
    return (⟨j, seq, nodes⟩, j)
  | none => do
    let j := s.nodes.size
    let nodes ← wr s.nodes par { pn with ch := (val, j) :: pn.ch }
    let nodes := nodes.push ⟨[], 0, pn.len + 2, 1, seq.size - (pn.len + 2)⟩
    let (l, nodes) ← linkOf seq nodes (pn.len + 2) pn.link val
    let x ← rd nodes j
    let nodes ← wr nodes j { x with link := l }
    return (⟨j, seq, nodes⟩, j)

/-- `add_all(seq)` — palindromic_tree.hpp:107-110; the results of `add` are collected. -/
def addAll (s : State α) (xs : List α) : M (State α × List Nat) :=
  forEach xs (s, []) fun (s, outs) x => do
    let (s, j) ← add s x
    return (s, outs ++ [j])

/-- `node_num()` — palindromic_tree.hpp:112-114. -/
def nodeNum (s : State α) : Nat := s.nodes.size

/-- `first_occurence(index)` — palindromic_tree.hpp:120-122. -/
def firstOccurence (s : State α) (i : Nat) : M Int := do return (← rd s.nodes i).first

/-- `length(index)` — palindromic_tree.hpp:123-125. -/
def length (s : State α) (i : Nat) : M Int := do return (← rd s.nodes i).len

/-- `suffix_link(index)` — palindromic_tree.hpp:126-128. -/
def suffixLink (s : State α) (i : Nat) : M Nat := do return (← rd s.nodes i).link

/-- `node_multiplicity(index)` — palindromic_tree.hpp:129-131. -/
def nodeMultiplicity (s : State α) (i : Nat) : M Nat := do return (← rd s.nodes i).mult

/-- `children(index)` — palindromic_tree.hpp:132-134. -/
def children (s : State α) (i : Nat) : M (List (α × Nat)) := do return (← rd s.nodes i).ch

/-- `parents()` — palindromic_tree.hpp:135-148. -/
def parents (s : State α) : M (Array Int) :=
  forUp 0 s.nodes.size (Array.replicate s.nodes.size (-1 : Int)) fun i res => do
    let x ← rd s.nodes i
    forEach x.ch res fun res p => wr res p.2 (i : Int)

/-- `get_palindrome(index)` — palindromic_tree.hpp:150-154. -/
def getPalindrome (s : State α) (i : Nat) : M (List α) := do
  if i = 0 then return []
  let l ← firstOccurence s i
  let r := l + (← length s i)
  if 0 ≤ l ∧ l ≤ r ∧ r ≤ s.seq.size then return (s.seq.toList.take r.toNat).drop l.toNat else .error .ub

/-- `frequency_table()` — palindromic_tree.hpp:156-164. -/
def frequencyTable (s : State α) : M (Array Nat) :=
  forDown s.nodes.size 1 (Array.replicate s.nodes.size 0) fun i res => do
    let x ← rd s.nodes i
    let res ← wr res i ((← rd res i) + x.mult)
    wr res x.link ((← rd res x.link) + (← rd res i))

/-- `clear()` — palindromic_tree.hpp:166-175, with `erase_root = false`. -/
def clear (s : State α) : M (State α) :=
  if 2 ≤ s.nodes.size then return ⟨0, #[], s.nodes.extract 0 2⟩ else .error .ub

end PalindromicTree
