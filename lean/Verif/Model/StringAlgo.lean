import Verif.Model.Machine

/-!
# Models of `library/string/{morris_pratt,manacher,trie_array,trie_map,aho_corasick,aho_corasick_array}.hpp`

Lengths and node numbers are unbounded.
-/

namespace MorrisPratt
open Cxx
variable {α : Type} [DecidableEq α]

/-- `while (j >= 0 and *(start + i) != *(start + j)) j = mp[j];` — morris_pratt.hpp:16 (and 55); `get j` reads the pattern. -/
def fallStep (get : Nat → M α) (c : α) (mp : Array Int) (j : Int) : M (Option Int) :=
  if j ≥ 0 then do
    let y ← get j.toNat
    if y ≠ c then do
      let k ← rd mp j.toNat
      return some k
    else return none
  else return none

/-- Loop body of `morris_pratt` — morris_pratt.hpp:15-18; state `(j, mp)`. -/
def tableStep (s : Array α) (i : Nat) (q : Int × Array Int) : M (Int × Array Int) := do
  let c ← rd s i
  let j ← loop (fallStep (rd s) c q.2) s.size q.1
  let mp ← wr q.2 (i + 1) (j + 1)
  return (j + 1, mp)

/-- `morris_pratt(start, last)` — morris_pratt.hpp:9-20. -/
def table (s : Array α) : M (Array Int) := do
  let mp ← wr (Array.replicate (s.size + 1) (0 : Int)) 0 (-1)
  let q ← forUp 0 s.size (-1, mp) (tableStep s)
  return q.2

/-- `if (…) res.push_back(p);` — morris_pratt.hpp:30; `n % 0` is undefined. -/
def addPeriod (acc : Bool) (n p : Int) (res : Array Int) : M (Array Int) :=
  if acc then return res.push p
  else if p = 0 then .error .ub
  else if n.tmod p = 0 then return res.push p else return res

/-- `for (int r = n; r; r = mp[r])` — morris_pratt.hpp:29-31; state `(r, res)`. A negative index is undefined. -/
def periodStep (mp : Array Int) (acc : Bool) (n : Nat) (q : Int × Array Int) : M (Option (Int × Array Int)) :=
  if q.1 = 0 then return none
  else if q.1 < 0 then .error .ub
  else do
    let k ← rd mp q.1.toNat
    let res ← addPeriod acc n (n - k) q.2
    return some (k, res)

/-- `all_periods(start, last, accept_fragment)` — morris_pratt.hpp:24-33. -/
def allPeriods (s : Array α) (acc : Bool) : M (Array Int) := do
  let mp ← table s
  let q ← loop (periodStep mp acc (mp.size - 1)) mp.size (((mp.size - 1 : Nat) : Int), #[])
  return q.2

/-- `min_period` — morris_pratt.hpp:35-45: the first `p` characters. -/
def minPeriod (s : Array α) (acc : Bool) : M (Array α) := do
  let ps ← allPeriods s acc
  let p ← rd ps 0
  forUp 0 p.toNat #[] fun i r => do
    let c ← rd s i
    return r.push c

/-- `s[j]` of the pattern container: `term = some z` is `std::string`, where `s[s.size()]` is the terminating zero; `term = none` is `std::vector`. -/
def patAt (term : Option α) (s : Array α) (j : Nat) : M α :=
  if j = s.size then
    match term with
    | some z => .ok z
    | none => .error .ub
  else rd s j

/-- `if (++j == n) res.push_back(i - n + 1);` — morris_pratt.hpp:56. -/
def report (n : Nat) (i : Nat) (j : Int) (res : Array Int) : Array Int := if j = n then res.push ((i : Int) - n + 1) else res

/-- Loop body of the matcher — morris_pratt.hpp:54-57; state `(j, res)`. -/
def matchStep (term : Option α) (s : Array α) (mp : Array Int) (t : Array α) (i : Nat) (q : Int × Array Int) : M (Int × Array Int) := do
  let c ← rd t i
  let j ← loop (fallStep (patAt term s) c mp) (s.size + 1) q.1
  return (j + 1, report s.size i (j + 1) q.2)

/-- `MatcherMP(s)(t)` — morris_pratt.hpp:50-59. -/
def matchAll (term : Option α) (s t : Array α) : M (Array Int) := do
  let mp ← table s
  let q ← forUp 0 t.size (0, #[]) (matchStep term s mp t)
  return q.2

end MorrisPratt

namespace Manacher
open Cxx
variable {α : Type} [DecidableEq α]

/-- `std::vector v{ dummy }; for (val : container) v.push_back(val), v.push_back(dummy);` — manacher.hpp:11-12. -/
def interleave (s : Array α) (d : α) : Array α := s.foldl (fun v x => (v.push x).push d) #[d]

/-- `while (i - j >= 0 and i + j < siz and v[i - j] == v[i + j]) ++j;` — manacher.hpp:26. -/
def extendStep (v : Array α) (i : Nat) (j : Nat) : M (Option Nat) :=
  if j ≤ i ∧ i + j < v.size then do
    let x ← rd v (i - j)
    let y ← rd v (i + j)
    if x = y then return some (j + 1) else return none
  else return none

/-- `while (i - k >= 0 and k + _r[i - k] < j) _r[i + k] = _r[i - k], ++k;` — manacher.hpp:29; state `(k, _r)`. -/
def copyStep (i j : Nat) (q : Nat × Array Int) : M (Option (Nat × Array Int)) :=
  if q.1 ≤ i then do
    let x ← rd q.2 (i - q.1)
    if (q.1 : Int) + x < j then do
      let r ← wr q.2 (i + q.1) x
      return some (q.1 + 1, r)
    else return none
  else return none

/-- Loop body of `build` — manacher.hpp:25-31; state `(i, j, _r)`; `j - k` is never negative, which the proof shows (a negative value would be undefined
behaviour here). -/
def buildStep (v : Array α) (s : Nat × Nat × Array Int) : M (Option (Nat × Nat × Array Int)) :=
  if s.1 < v.size then do
    let j ← loop (extendStep v s.1) v.size s.2.1
    let r ← wr s.2.2 s.1 (j : Int)
    let q ← loop (copyStep s.1 j) v.size (1, r)
    if q.1 ≤ j then return some (s.1 + q.1, j - q.1, q.2) else .error .ub
  else return none

/-- `for (int& r : _r) --r;` — manacher.hpp:32. -/
def decStep (i : Nat) (r : Array Int) : M (Array Int) := do
  let x ← rd r i
  wr r i (x - 1)

/-- Constructor — manacher.hpp:10-14, 24-33. -/
def make (s : Array α) (d : α) : M (Array Int) := do
  let t ← loop (buildStep (interleave s d)) (interleave s d).size (0, 0, Array.replicate (2 * s.size + 1) 0)
  forUp 0 t.2.2.size t.2.2 decStep

/-- `operator[]` — manacher.hpp:16. -/
def get (r : Array Int) (i : Nat) : M Int := rd r i

/-- `odd_length` — manacher.hpp:17. -/
def oddLength (r : Array Int) (i : Nat) : M Int := rd r (2 * i + 1)

/-- `even_length` — manacher.hpp:18. -/
def evenLength (r : Array Int) (i : Nat) : M Int := rd r (2 * i)

end Manacher

namespace ArrayTrie
open Cxx
variable {P : Type}

/-- A node: the array of children (`none = -1`) and the data of the user's node type — trie_array.hpp:9-18. -/
structure Node (P : Type) where
  next : Array Int
  val : P

/-- A new node — trie_array.hpp:17. -/
def Node.fresh (σ : Nat) (d : P) : Node P := ⟨Array.replicate σ (-1), d⟩

/-- `c -= offset` and the use of the result as an index of a `std::array` of size `σ`. -/
def index (σ : Nat) (offset c : Int) : M Nat := if 0 ≤ c - offset ∧ c - offset < σ then .ok (c - offset).toNat else .error .ub

/-- A child number used as an index of `nodes`. -/
def nodeIndex (x : Int) : M Nat := if x < 0 then .error .ub else .ok x.toNat

/-- Constructor — trie_array.hpp:45-47. -/
def make (σ : Nat) (d : P) : Array (Node P) := #[Node.fresh σ d]

/-- `nodes[cur][c] = nodes.size(); nodes.emplace_back();` — trie_array.hpp:59-64. -/
def grow (σ : Nat) (d : P) (nodes : Array (Node P)) (cur i : Nat) : M (Array (Node P)) := do
  let v ← rd nodes cur
  let a ← wr v.next i (nodes.size : Int)
  let nodes ← wr nodes cur { v with next := a }
  return nodes.push (Node.fresh σ d)

/-- `if (nodes[cur][c] == none) …` — trie_array.hpp:58-65. -/
def ensure (σ : Nat) (d : P) (nodes : Array (Node P)) (cur i : Nat) : M (Array (Node P)) := do
  let v ← rd nodes cur
  let x ← rd v.next i
  if x = -1 then grow σ d nodes cur i else return nodes

/-- Loop body of `add` — trie_array.hpp:56-67; state `(nodes, cur)`. -/
def addStep (σ : Nat) (offset : Int) (d : P) (s : Array (Node P) × Nat) (c : Int) : M (Array (Node P) × Nat) := do
  let i ← index σ offset c
  let nodes ← ensure σ d s.1 s.2 i
  let v ← rd nodes s.2
  let x ← rd v.next i
  let cur ← nodeIndex x
  return (nodes, cur)

/-- `add(s, start)` — trie_array.hpp:53-69; the reference that is returned is the node number. -/
def add (σ : Nat) (offset : Int) (d : P) (nodes : Array (Node P)) (w : List Int) (start : Nat) : M (Array (Node P) × Nat) :=
  forEach w (nodes, start) (addStep σ offset d)

/-- `trie[i][c]` — trie_array.hpp:71-76 and `std::array`. -/
def child (nodes : Array (Node P)) (i c : Nat) : M Int := do
  let v ← rd nodes i
  rd v.next c

/-- Writing the user data of a node, `trie[i].field = …`. -/
def setVal (nodes : Array (Node P)) (i : Nat) (f : P → P) : M (Array (Node P)) := do
  let v ← rd nodes i
  wr nodes i { v with val := f v.val }

/-- Reading the user data of a node, `trie[i].field`. -/
def getVal (nodes : Array (Node P)) (i : Nat) : M P := do
  let v ← rd nodes i
  return v.val

end ArrayTrie

namespace MapTrie
open Cxx
variable {κ P : Type} [DecidableEq κ]

/-- A node: the map to the children and the data of the user's node type — trie_map.hpp:9-23. The map is an association list; its order does not matter
here. -/
structure Node (κ P : Type) where
  next : List (κ × Int)
  val : P

/-- `int operator[](c) const` — trie_map.hpp:16-19. -/
def getConst (v : Node κ P) (c : κ) : Int := (v.next.lookup c).getD (-1)

/-- `int& operator[](c)` (not `const`) — trie_map.hpp:20-22: it inserts `none` for a missing key. The new node and the value read. -/
def getRef (v : Node κ P) (c : κ) : Node κ P × Int :=
  match v.next.lookup c with
  | some x => (v, x)
  | none => ({ v with next := v.next ++ [(c, -1)] }, -1)

/-- Constructor — trie_map.hpp:37. -/
def make (d : P) : Array (Node κ P) := #[⟨[], d⟩]

/-- A child number used as an index of `nodes`. -/
def nodeIndex (x : Int) : M Nat := if x < 0 then .error .ub else .ok x.toNat

/-- Body when the key is missing: insert `nodes.size()`, append a node — trie_map.hpp:47-49. -/
def grow (d : P) (nodes : Array (Node κ P)) (cur : Nat) (c : κ) : M (Array (Node κ P) × Nat) := do
  let v ← rd nodes cur
  let ns ← wr nodes cur { v with next := v.next ++ [(c, (nodes.size : Int))] }
  return (ns.push ⟨[], d⟩, nodes.size)

/-- Loop body of `add` — trie_map.hpp:46-50; state `(nodes, cur)`. The number is converted to an index by the next use (or by the final `nodes[cur]`). -/
def addStep (d : P) (s : Array (Node κ P) × Nat) (c : κ) : M (Array (Node κ P) × Nat) := do
  let v ← rd s.1 s.2
  match v.next.lookup c with
  | some x => do
    let cur ← nodeIndex x
    return (s.1, cur)
  | none => grow d s.1 s.2 c

/-- `add(s, start)` — trie_map.hpp:43-52. -/
def add (d : P) (nodes : Array (Node κ P)) (w : List κ) (start : Nat) : M (Array (Node κ P) × Nat) :=
  forEach w (nodes, start) (addStep d)

/-- `std::as_const(trie)[i][c]`. -/
def child (nodes : Array (Node κ P)) (i : Nat) (c : κ) : M Int := do
  let v ← rd nodes i
  return getConst v c

/-- Writing the user data of a node, `trie[i].field = …`. -/
def setVal (nodes : Array (Node κ P)) (i : Nat) (f : P → P) : M (Array (Node κ P)) := do
  let v ← rd nodes i
  wr nodes i { v with val := f v.val }

/-- Reading the user data of a node, `trie[i].field`. -/
def getVal (nodes : Array (Node κ P)) (i : Nat) : M P := do
  let v ← rd nodes i
  return v.val

end MapTrie

namespace AhoCorasick
open Cxx
variable {κ : Type} [DecidableEq κ]

/-- Members — aho_corasick.hpp:67-71; a `std::map` is an association list. -/
structure State (κ : Type) where
  failure : Array Nat
  next : Array (List (κ × Nat))
  marks : List Nat
  count : Array Nat
  built : Bool

/-- `AhoCorasick()` — aho_corasick.hpp:14. -/
def make : State κ := ⟨#[], #[[]], [], #[], true⟩

/-- `_next[cur].try_emplace(c, _next.size())`, inserted — aho_corasick.hpp:20-21. -/
def grow (next : Array (List (κ × Nat))) (cur : Nat) (c : κ) : M (Array (List (κ × Nat)) × Nat) := do
  let m ← rd next cur
  let ns ← wr next cur (m ++ [(c, next.size)])
  return (ns.push [], next.size)

/-- Loop body of `add` — aho_corasick.hpp:19-23; state `(_next, cur)`. -/
def addStep (s : Array (List (κ × Nat)) × Nat) (c : κ) : M (Array (List (κ × Nat)) × Nat) := do
  let m ← rd s.1 s.2
  match m.lookup c with
  | some x => return (s.1, x)
  | none => grow s.1 s.2 c

/-- `add(s)` — aho_corasick.hpp:16-26. -/
def add (s : State κ) (w : List κ) : M (State κ) := do
  let r ← forEach w (s.next, 0) addStep
  return { s with next := r.1, marks := s.marks ++ [r.2], built := false }

/-- Loop of `next_state` — aho_corasick.hpp:53-60; state `(state, result)`. -/
def nextStep (next : Array (List (κ × Nat))) (failure : Array Nat) (c : κ) (q : Nat × Option Nat) : M (Option (Nat × Option Nat)) :=
  match q.2 with
  | some _ => return none
  | none => do
    let m ← rd next q.1
    match m.lookup c with
    | some x => return some (q.1, some x)
    | none =>
      if q.1 = 0 then return some (0, some 0)
      else do
        let f ← rd failure q.1
        return some (f, none)

/-- The result of the loop. -/
def result (q : Nat × Option Nat) : M Nat :=
  match q.2 with
  | some x => .ok x
  | none => .error .diverge

/-- `next_state(state, c)` without the assertion — aho_corasick.hpp:53-60. -/
def goto (next : Array (List (κ × Nat))) (failure : Array Nat) (state : Nat) (c : κ) : M Nat := do
  let q ← loop (nextStep next failure c) (next.size + 1) (state, none)
  result q

/-- `next_state(state, c)` — aho_corasick.hpp:51-61. -/
def nextState (s : State κ) (state : Nat) (c : κ) : M Nat := do
  check s.built
  goto s.next s.failure state c

/-- `v.resize(n, 0)` for `n` at least the size. -/
def resize (a : Array Nat) (n : Nat) : Array Nat := a ++ Array.replicate (n - a.size) 0

/-- `++_count[mark]` — aho_corasick.hpp:33. -/
def bump (a : Array Nat) (i : Nat) : M (Array Nat) := do
  let x ← rd a i
  wr a i (x + 1)

/-- `_failure[nxt] = …; _count[nxt] += _count[_failure[nxt]];` — aho_corasick.hpp:40-41; state `(failure, count)`. -/
def linkChild (next : Array (List (κ × Nat))) (cur : Nat) (c : κ) (nxt : Nat) (s : Array Nat × Array Nat) : M (Array Nat × Array Nat) := do
  let f ← rd s.1 cur
  let t ← goto next s.1 f c
  let fl ← wr s.1 nxt t
  let g ← rd fl nxt
  let x ← rd s.2 g
  let y ← rd s.2 nxt
  let ct ← wr s.2 nxt (y + x)
  return (fl, ct)

/-- `if (cur) { … }` — aho_corasick.hpp:39-42. -/
def linkIf (next : Array (List (κ × Nat))) (cur : Nat) (e : κ × Nat) (s : Array Nat × Array Nat) : M (Array Nat × Array Nat) :=
  if cur ≠ 0 then linkChild next cur e.1 e.2 s else return s

/-- Body of the loop over the children — aho_corasick.hpp:38-44; state `(dq, failure, count)`. -/
def childStep (next : Array (List (κ × Nat))) (cur : Nat) (s : List Nat × Array Nat × Array Nat) (e : κ × Nat) : M (List Nat × Array Nat × Array Nat) := do
  let t ← linkIf next cur e s.2
  return (s.1 ++ [e.2], t.1, t.2)

/-- `while (dq.size()) …` — aho_corasick.hpp:35-45; `order` is the iteration order of the map. -/
def bfsStep (order : List (κ × Nat) → List (κ × Nat)) (next : Array (List (κ × Nat))) (s : List Nat × Array Nat × Array Nat) :
    M (Option (List Nat × Array Nat × Array Nat)) :=
  match s.1 with
  | [] => return none
  | cur :: dq => do
    let m ← rd next cur
    let t ← forEach (order m) (dq, s.2) (childStep next cur)
    return some t

/-- `build()` — aho_corasick.hpp:28-46. -/
def build (order : List (κ × Nat) → List (κ × Nat)) (s : State κ) : M (State κ) := do
  let count ← forEach s.marks (resize s.count s.next.size) bump
  let r ← loop (bfsStep order s.next) s.next.size ([0], resize s.failure s.next.size, count)
  return { s with built := true, failure := r.2.1, count := r.2.2 }

/-- `count_suffix_matching(state)` — aho_corasick.hpp:62-65. -/
def countSuffix (s : State κ) (state : Nat) : M Nat := do
  check s.built
  rd s.count state

end AhoCorasick

namespace AhoCorasickArray
open Cxx ArrayTrie

/-- `count`, `failure` — aho_corasick_array.hpp:13-16; `emplace_back()` value-initialises, so both start as zero. -/
structure Data where
  count : Nat
  failure : Nat

/-- Members — trie_array.hpp:43, aho_corasick_array.hpp:69. -/
structure State where
  nodes : Array (Node Data)
  built : Bool

/-- Constructor. -/
def make (σ : Nat) : State := ⟨ArrayTrie.make σ ⟨0, 0⟩, false⟩

/-- `++base_type::add(s).count` — aho_corasick_array.hpp:26-29. -/
def add (σ : Nat) (offset : Int) (s : State) (w : List Int) : M State := do
  let r ← ArrayTrie.add σ offset ⟨0, 0⟩ s.nodes w 0
  let nodes ← setVal r.1 r.2 fun d => { d with count := d.count + 1 }
  return { s with nodes := nodes }

/-- `const int link = cur ? links[i] : init_state();` — aho_corasick_array.hpp:39 (`links = nodes[nodes[cur].failure]`, lines 37). -/
def linkOf (nodes : Array (Node Data)) (cur i : Nat) : M Int := do
  if cur ≠ 0 then do
    let v ← rd nodes cur
    let l ← rd nodes v.val.failure
    rd l.next i
  else return 0

/-- `nodes[nxt].failure = link; nodes[nxt].count += nodes[link].count; dq.push_back(nxt);` — aho_corasick_array.hpp:41-43. -/
def linkChild (nodes : Array (Node Data)) (nxt link : Nat) : M (Array (Node Data)) := do
  let v ← rd nodes nxt
  let nodes ← wr nodes nxt { v with val := { v.val with failure := link } }
  let l ← rd nodes link
  let v ← rd nodes nxt
  wr nodes nxt { v with val := { v.val with count := v.val.count + l.val.count } }

/-- `nxt = link` — aho_corasick_array.hpp:45. -/
def setChild (nodes : Array (Node Data)) (cur i : Nat) (link : Int) : M (Array (Node Data)) := do
  let v ← rd nodes cur
  let a ← wr v.next i link
  wr nodes cur { v with next := a }

/-- `if (int& nxt = nodes[cur][i]; nxt != none) … else …` — aho_corasick_array.hpp:40-46; state `(dq, nodes)`. -/
def branch (cur i : Nat) (link x : Int) (s : List Nat × Array (Node Data)) : M (List Nat × Array (Node Data)) :=
  if x ≠ -1 then do
    let nxt ← nodeIndex x
    let l ← nodeIndex link
    let nodes ← linkChild s.2 nxt l
    return (s.1 ++ [nxt], nodes)
  else do
    let nodes ← setChild s.2 cur i link
    return (s.1, nodes)

/-- Body of the loop over the letters — aho_corasick_array.hpp:38-47. -/
def letterStep (cur i : Nat) (s : List Nat × Array (Node Data)) : M (List Nat × Array (Node Data)) := do
  let link ← linkOf s.2 cur i
  let x ← child s.2 cur i
  branch cur i link x s

/-- `while (dq.size()) …` — aho_corasick_array.hpp:33-48. -/
def bfsStep (σ : Nat) (s : List Nat × Array (Node Data)) : M (Option (List Nat × Array (Node Data))) :=
  match s.1 with
  | [] => return none
  | cur :: dq => do
    let t ← forUp 0 σ (dq, s.2) (letterStep cur)
    return some t

/-- `build()` — aho_corasick_array.hpp:31-50. -/
def build (σ : Nat) (s : State) : M State := do
  let nodes ← setVal s.nodes 0 fun d => { d with failure := 0 }
  let r ← loop (bfsStep σ) s.nodes.size ([0], nodes)
  return ⟨r.2, true⟩

/-- `next_state(state, c)` — aho_corasick_array.hpp:60-63; the array index of the state is checked by its next use, here at once. -/
def nextState (σ : Nat) (offset : Int) (s : State) (state : Nat) (c : Int) : M Nat := do
  check s.built
  let i ← index σ offset c
  let x ← child s.nodes state i
  nodeIndex x

/-- `count_suffix_matching(state)` — aho_corasick_array.hpp:64-67. -/
def countSuffix (s : State) (state : Nat) : M Nat := do
  check s.built
  let v ← rd s.nodes state
  return v.val.count

end AhoCorasickArray
