import Verif.Model.UndoUnionFind
import Verif.Model.UnionFindVariants

/-!
# Model of `library/algorithm/offline_dynamic_connectivity.hpp` and `library/algorithm/offline_dynamic_connectivity_component_sum.hpp`

Vertices are natural numbers (a negative one fails the assertion of `root`). Numbers of calls are below 2^30, so that `int` does not overflow.
-/

namespace OfflineConnectivity
open Cxx

/-- Members of the classes — offline_dynamic_connectivity.hpp:60-63, offline_dynamic_connectivity_component_sum.hpp:75-77: `_active` in the order of the multimap, `_active_range`, and the queries (of type `Q`). -/
structure State (Q : Type) where
  active : List ((Nat × Nat) × Nat)
  ranges : List (Nat × Nat × Nat × Nat)
  queries : List Q
  deriving DecidableEq

variable {Q σ α : Type}

/-- The constructors — offline_dynamic_connectivity.hpp:11-12, offline_dynamic_connectivity_component_sum.hpp:13. -/
def init (Q : Type) : State Q := ⟨[], [], []⟩

/-- `std::minmax(u, v)`. -/
def minmax (u v : Nat) : Nat × Nat := if v < u then (v, u) else (u, v)

/-- `<` of pairs. -/
def ltPair (a b : Nat × Nat) : Bool := decide (a.1 < b.1 ∨ (a.1 = b.1 ∧ a.2 < b.2))

/-- `emplace` of a multimap: behind the elements with the same key. -/
def emplace (key : Nat × Nat) (t : Nat) : List ((Nat × Nat) × Nat) → List ((Nat × Nat) × Nat)
  | [] => [(key, t)]
  | x :: xs => if ltPair key x.1 then (key, t) :: x :: xs else x :: emplace key t xs

/-- The value of one of the elements with the key, and the multimap without this element; `c` says which one. -/
def pluck (key : Nat × Nat) : Nat → List ((Nat × Nat) × Nat) → Option (Nat × List ((Nat × Nat) × Nat))
  | _, [] => none
  | c, x :: xs =>
    if x.1 = key ∧ c = 0 then some (x.2, xs)
    else
      match pluck key (if x.1 = key then c - 1 else c) xs with
      | none => none
      | some (t, ys) => some (t, x :: ys)

/-- `add_query(u, v)` — offline_dynamic_connectivity.hpp:14-16, offline_dynamic_connectivity_component_sum.hpp:15-17. -/
def addQuery (s : State Q) (u v : Nat) : State Q := { s with active := emplace (minmax u v) s.queries.length s.active }

/-- `del_query(u, v)` — offline_dynamic_connectivity.hpp:17-22, offline_dynamic_connectivity_component_sum.hpp:18-23. `find` may return any element with the key, `c` (modulo their number) says which one. -/
def delQuery (s : State Q) (u v c : Nat) : M (State Q) :=
  match pluck (minmax u v) (c % s.active.countP (fun x => x.1 = minmax u v)) s.active with
  | none => .error .assertion
  | some (t, act) => return { s with active := act, ranges := s.ranges ++ [(u, v, t, s.queries.length)] }

/-- `connectivity_query`, `component_sum_query` — offline_dynamic_connectivity.hpp:23-25, offline_dynamic_connectivity_component_sum.hpp:24-29. -/
def query (s : State Q) (x : Q) : State Q := { s with queries := s.queries ++ [x] }

/-- `seg[k].emplace_back(u, v)`. -/
def push (seg : Array (List (Nat × Nat))) (k : Nat) (e : Nat × Nat) : M (Array (List (Nat × Nat))) := do
  let b ← rd seg k
  wr seg k (b ++ [e])

/-- One round of the loop of offline_dynamic_connectivity.hpp:36-39, offline_dynamic_connectivity_component_sum.hpp:45-48; the state is `seg`, `l`, `r`. -/
def segStep (e : Nat × Nat) (s : Array (List (Nat × Nat)) × Nat × Nat) : M (Option (Array (List (Nat × Nat)) × Nat × Nat)) :=
  if s.2.1 < s.2.2 then do
    let (seg, l) ← (if s.2.1 % 2 = 1 then do
        let seg ← push s.1 s.2.1 e
        return (seg, s.2.1 + 1)
      else return (s.1, s.2.1) : M (Array (List (Nat × Nat)) × Nat))
    let (seg, r) ← (if s.2.2 % 2 = 1 then do
        let seg ← push seg (s.2.2 - 1) e
        return (seg, s.2.2 - 1)
      else return (seg, s.2.2) : M (Array (List (Nat × Nat)) × Nat))
    return some (seg, l / 2, r / 2)
  else return none

/-- The table `seg` — offline_dynamic_connectivity.hpp:34-40, offline_dynamic_connectivity_component_sum.hpp:43-49. -/
def build (q : Nat) (ranges : List (Nat × Nat × Nat × Nat)) : M (Array (List (Nat × Nat))) :=
  forEach ranges (Array.replicate (2 * q) []) fun seg x => do
    let s ← loop (segStep (x.1, x.2.1)) (x.2.2.2 + q) (seg, x.2.2.1 + q, x.2.2.2 + q)
    return s.1

/-- The union-find that `answer` uses: `merge`, `undo`, and what it does for a query. -/
structure UF (Q σ α : Type) where
  merge : σ → Nat → Nat → M (σ × Bool)
  undo : σ → M σ
  ask : σ → Q → M α

/-- Line `for (const auto &[u, v] : seg[k]) update_counter += uf.merge(u, v);` — offline_dynamic_connectivity.hpp:45, offline_dynamic_connectivity_component_sum.hpp:55. -/
def mergeAll (U : UF Q σ α) (es : List (Nat × Nat)) (s : σ) : M (σ × Nat) :=
  forEach es (s, 0) fun s e => do
    let (uf, b) ← U.merge s.1 e.1 e.2
    return (uf, s.2 + (if b then 1 else 0))

/-- `dfs(k)` — offline_dynamic_connectivity.hpp:43-54, offline_dynamic_connectivity_component_sum.hpp:53-69 (which also frees `seg[k]`, which is not used again). -/
def dfs (U : UF Q σ α) (seg : Array (List (Nat × Nat))) (qs : Array Q) : Nat → Nat → σ × Array α → M (σ × Array α)
  | 0, _, _ => .error .diverge
  | f + 1, k, s => do
    let es ← rd seg k
    let (uf, cnt) ← mergeAll U es s.1
    let (uf, ans) ← (if k ≥ qs.size then do
        let x ← rd qs (k - qs.size)
        let a ← U.ask uf x
        let ans ← wr s.2 (k - qs.size) a
        return (uf, ans)
      else do
        let s ← dfs U seg qs f (2 * k) (uf, s.2)
        dfs U seg qs f (2 * k + 1) s : M (σ × Array α))
    let uf ← forN (fun _ uf => U.undo uf) cnt 0 uf
    return (uf, ans)

/-- `answer` — offline_dynamic_connectivity.hpp:27-58, offline_dynamic_connectivity_component_sum.hpp:35-72; `uf` is the new union-find, `a` the value that `ans` is filled with. -/
def answer (U : UF Q σ α) (uf : σ) (a : α) (s : State Q) : M (State Q × List α) := do
  let q := s.queries.length
  let s := { s with active := [], ranges := s.ranges ++ s.active.map fun x => (x.1.1, x.1.2, x.2, q) }
  if q = 0 then return (s, [])
  let seg ← build q s.ranges
  let (_, ans) ← dfs U seg s.queries.toArray (2 * q) 1 (uf, Array.replicate q a)
  return (s, ans.toList)

/-- The calls before `answer`; `c` says which of several equal edges `find` returns. -/
inductive Op (Q : Type)
  | add (u v : Nat) | del (u v c : Nat) | query (x : Q)

/-- One call. -/
def step (s : State Q) : Op Q → M (State Q)
  | .add u v => return addQuery s u v
  | .del u v c => delQuery s u v c
  | .query x => return query s x

/-- A history of a new object. -/
def run (ops : List (Op Q)) : M (State Q) := ops.foldlM step (init Q)

end OfflineConnectivity

namespace OfflineDynamicConnectivity
open Cxx OfflineConnectivity

/-- The union-find of offline_dynamic_connectivity.hpp:41-54 and line 49 for a query `(u, v)`. -/
def uf : UF (Nat × Nat) UndoUnionFind.State Bool := ⟨UndoUnionFind.merge, UndoUnionFind.undo, fun s x => UndoUnionFind.same s x.1 x.2⟩

/-- `answer()` — offline_dynamic_connectivity.hpp:27-58. -/
def answer (n : Nat) (s : State (Nat × Nat)) : M (State (Nat × Nat) × List Bool) := OfflineConnectivity.answer uf (UndoUnionFind.init n) false s

end OfflineDynamicConnectivity

namespace OfflineDynamicConnectivityComponentSum
open Cxx OfflineConnectivity

variable {T V : Type}

/-- `connectivity_query(u, v)` is the query `(u, v)`, `component_sum_query(u)` the query `(u, -1)` — offline_dynamic_connectivity_component_sum.hpp:24-29. -/
inductive Query
  | same (u v : Nat) | sum (u : Nat)

/-- `std::variant<bool, U>`. -/
inductive Ans (V : Type)
  | bool (b : Bool) | val (x : V)

/-- The union-find of offline_dynamic_connectivity_component_sum.hpp:50-69 and lines 57-64 for a query. -/
def uf (mergeData : T → T → T) (undoData : T → T) (getValue : T → V) : UF Query (UndoUnionFindComponentSum.State T) (Ans V) :=
  ⟨UndoUnionFindComponentSum.merge mergeData, UndoUnionFindComponentSum.undo undoData, fun s x =>
    match x with
    | .same u v => do
      let b ← UndoUnionFind.same s.base u v
      return .bool b
    | .sum u => do
      let t ← UndoUnionFindComponentSum.sum s u
      return .val (getValue t)⟩

/-- `answer(init_values)` — offline_dynamic_connectivity_component_sum.hpp:35-72. -/
def answer (mergeData : T → T → T) (undoData : T → T) (getValue : T → V) (a : Array T) (s : State Query) : M (State Query × List (Ans V)) :=
  OfflineConnectivity.answer (uf mergeData undoData getValue) (UndoUnionFindComponentSum.init a) (.bool false) s

end OfflineDynamicConnectivityComponentSum
