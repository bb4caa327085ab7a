import Verif.Model.FindCentroids
import Mathlib.Data.List.Sort

/-!
# Model of `library/tree/tree_isomorphism_classification.hpp` with `IDHandlerNaive`, and of `library/string/trie_map.hpp`

Simplifications: identifiers and node numbers are unbounded (`int` in the code; 2^31 different subtrees would be needed for a difference); `std::map` is an association list; `std::sort` of `int`s, whose result is unique, is insertion sort. `IDHandlerZobrist` (random hashing) and `classify_rerooting` are not modelled.
-/

namespace TreeIso
open Cxx

/-- `TrieNode`: a `std::map<int, int>` and an `id` — `trie_map.hpp` lines 10-23, `tree_isomorphism_classification.hpp` lines 25-27. -/
structure Node where
  next : List (Nat × Nat)
  id : Option Nat
deriving DecidableEq

/-- `IDHandlerNaive` — `tree_isomorphism_classification.hpp` lines 28-30. -/
structure Handler where
  mp1 : Array (Option Nat)
  nodes : Array Node
  nextId : Nat
deriving DecidableEq

/-- The default constructors — `tree_isomorphism_classification.hpp` lines 28-30 and 36, `trie_map.hpp` line 37. -/
def Handler.fresh : Handler := ⟨#[], #[⟨[], none⟩], 0⟩

/-- `try_emplace`, `emplace_back` and the step to the child — `trie_map.hpp` lines 47-49. -/
def addStep (s : Array Node × Nat) (c : Nat) : M (Array Node × Nat) := do
  let nd ← rd s.1 s.2
  match nd.next.lookup c with
  | some j => return (s.1, j)
  | none => do
    let a ← wr s.1 s.2 { nd with next := (c, s.1.size) :: nd.next }
    return (a.push ⟨[], none⟩, s.1.size)

/-- `MapTrie::add` from the root: the nodes and the number of the node reached — `trie_map.hpp` lines 44-52. -/
def trieAdd (nodes : Array Node) (key : List Nat) : M (Array Node × Nat) := forEach key (nodes, 0) addStep

/-- `ensure_mp1` — line 33. -/
def ensure (a : Array (Option Nat)) (id : Nat) : Array (Option Nat) := if id ≥ a.size then a ++ Array.replicate (id + 1 - a.size) none else a

/-- Line 42. -/
def pick1 (h : Handler) (ch : Nat) (o : Option Nat) : M (Handler × Nat) :=
  match o with
  | some i => return (h, i)
  | none => do
    let a ← wr h.mp1 ch (some h.nextId)
    return ({ h with mp1 := a, nextId := h.nextId + 1 }, h.nextId)

/-- Line 46. -/
def pick (h : Handler) (j : Nat) (nd : Node) : M (Handler × Nat) :=
  match nd.id with
  | some i => return (h, i)
  | none => do
    let a ← wr h.nodes j { nd with id := some h.nextId }
    return ({ h with nodes := a, nextId := h.nextId + 1 }, h.nextId)

/-- Lines 40-42. -/
def getId1 (h : Handler) (key : List Nat) : M (Handler × Nat) := do
  let ch ← rd key.toArray 0
  let h := { h with mp1 := ensure h.mp1 ch }
  let o ← rd h.mp1 ch
  pick1 h ch o

/-- Lines 44-46. -/
def getId2 (h : Handler) (key : List Nat) : M (Handler × Nat) := do
  let s ← trieAdd h.nodes (key.insertionSort (· ≤ ·))
  let h := { h with nodes := s.1 }
  let nd ← rd h.nodes s.2
  pick h s.2 nd

/-- `get_id` — lines 38-48. -/
def getId (h : Handler) (key : List Nat) : M (Handler × Nat) := if key.length = 1 then getId1 h key else getId2 h key

/-- `add_child` — lines 49-51. -/
def addChild (key : List Nat) (id : Nat) : List Nat := key ++ [id]

/-- `rem_child` — lines 52-56. -/
def remChild (key : List Nat) (id : Nat) : M (List Nat) := do
  check (decide (id ∈ key))
  return key.erase id

/-- One round of line 112, with `p = par[cur]`. -/
def collectStep (ids : Array Nat) (p : Option Nat) (key : List Nat) (v : Nat) : M (List Nat) :=
  if some v = p then return key else do
    let i ← rd ids v
    return addChild key i

/-- Lines 111-114. -/
def collect (g : Array (List Nat)) (ids : Array Nat) (cur : Nat) (p : Option Nat) : M (List Nat) := do
  let a ← rd g cur
  forEach a [] (collectStep ids p)

/-- The part of `classify_subtrees` that runs when a vertex is left — lines 111-115. -/
def fin (g : Array (List Nat)) (cur : Nat) (p : Option Nat) (s : Handler × Array Nat) : M (Handler × Array Nat) := do
  let key ← collect g s.2 cur p
  let (h, i) ← getId s.1 key
  let ids ← wr s.2 cur i
  return (h, ids)

/-- `classify_subtrees` — lines 106-123. -/
def classifySubtrees (h : Handler) (g : Array (List Nat)) (root : Nat) : M (Handler × Array Nat) :=
  IterDFS.walk g (fin g) root (h, Array.replicate g.size 0)

/-- `classify(g, root)` — lines 126-128. -/
def classify (h : Handler) (g : Array (List Nat)) (root : Nat) : M (Handler × Nat) := do
  let (h, ids) ← classifySubtrees h g root
  let i ← rd ids root
  return (h, i)

/-- `reroot`, returning the new value of `id_new_par` (the other results are not used by `is_isomorphic`) — lines 166-171. -/
def reroot (h : Handler) (oldKey newKey : List Nat) (idNew : Nat) : M (Handler × Nat) := do
  let oldKey ← remChild oldKey idNew
  let (h, idOld) ← getId h oldKey
  let newKey := addChild newKey idOld
  getId h newKey

/-- The blocks of lines 186-197 and 200-211: the identifier of the tree rooted at the second centroid. -/
def second (h : Handler) (g : Array (List Nat)) (ids : Array Nat) (c0 c1 : Nat) : M (Handler × Nat) := do
  let idNew ← rd ids c1
  let oldKey ← collect g ids c0 none
  let newKey ← collect g ids c1 (some c0)
  reroot h oldKey newKey idNew

/-- Lines 184-198 and 199-212: `-1` (`-2`) is replaced if there are two centroids. -/
def secondIf (h : Handler) (g : Array (List Nat)) (ids : Array Nat) (cs : List Nat) (c0 : Nat) (d : Int) : M (Handler × Int) :=
  if cs.length = 2 then do
    let c1 ← rd cs.toArray 1
    let (h, i) ← second h g ids c0 c1
    return (h, (i : Int))
  else return (h, d)

/-- Line 215. -/
def cmp3 (h : Handler) (cs1 cs2 : List Nat) (id11 id21 : Int) : M (Handler × Option (Nat × Nat)) :=
  if id11 = id21 then do
    let a ← rd cs1.toArray 1
    let b ← rd cs2.toArray 1
    return (h, some (a, b))
  else return (h, none)

/-- Lines 214-216. -/
def cmp2 (h : Handler) (cs1 cs2 : List Nat) (ids20 : Array Nat) (a0 : Nat) (id11 id21 : Int) : M (Handler × Option (Nat × Nat)) := do
  let b1 ← rd cs2.toArray 1
  let x ← rd ids20 b1
  if (x : Int) = id21 then return (h, some (a0, b1)) else cmp3 h cs1 cs2 id11 id21

/-- Lines 213-216. -/
def cmp1 (h : Handler) (cs1 cs2 : List Nat) (ids20 : Array Nat) (a0 b0 : Nat) (id11 id21 : Int) : M (Handler × Option (Nat × Nat)) := do
  let x ← rd ids20 b0
  if id11 = (x : Int) then do
    let a1 ← rd cs1.toArray 1
    return (h, some (a1, b0))
  else cmp2 h cs1 cs2 ids20 a0 id11 id21

/-- Lines 184-216. -/
def isoRest (h : Handler) (g1 g2 : Array (List Nat)) (cs1 cs2 : List Nat) (ids10 ids20 : Array Nat) (a0 b0 : Nat) : M (Handler × Option (Nat × Nat)) := do
  let (h, id11) ← secondIf h g1 ids10 cs1 a0 (-1)
  let (h, id21) ← secondIf h g2 ids20 cs2 b0 (-2)
  cmp1 h cs1 cs2 ids20 a0 b0 id11 id21

/-- `is_isomorphic` — lines 174-217. -/
def isIsomorphic (h : Handler) (g1 g2 : Array (List Nat)) : M (Handler × Option (Nat × Nat)) := do
  let cs1 ← FindCentroids.findCentroids g1
  let cs2 ← FindCentroids.findCentroids g2
  let a0 ← rd cs1.toArray 0
  let b0 ← rd cs2.toArray 0
  let (h, ids10) ← classifySubtrees h g1 a0
  let (h, ids20) ← classifySubtrees h g2 b0
  let x ← rd ids10 a0
  let y ← rd ids20 b0
  if x = y then return (h, some (a0, b0)) else isoRest h g1 g2 cs1 cs2 ids10 ids20 a0 b0

/-- `is_isomorphic_rooted`; the calls of `==` may be evaluated in either order, the left one first here — lines 219-221. -/
def isIsomorphicRooted (h : Handler) (g1 : Array (List Nat)) (r1 : Nat) (g2 : Array (List Nat)) (r2 : Nat) : M (Handler × Bool) := do
  let (h, i) ← classify h g1 r1
  let (h, j) ← classify h g2 r2
  return (h, decide (i = j))

end TreeIso
