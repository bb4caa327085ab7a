import Verif.Model.Machine

/-!
# Models of `library/graph/low_link.hpp` and `library/graph/two_edge_connected_components.hpp`

Vertex and edge numbers are natural numbers; `_pre_order`, `_low_link`, `_par`, `_comp_id` and `prev_id` hold `-1` and are integers. The
recursive functions carry a bound on the recursion depth; exceeding it is `Err.diverge` (the theorems show that depth `n` suffices). The limit
of the real call stack is not modelled.
-/

namespace LowLink
open Cxx

/-- The fields written by `dfs` and the counter `ord` — low_link.hpp:117-122, 129, 154. -/
structure St where
  pre : Array Int
  low : Array Int
  par : Array Int
  bridges : List Nat
  arts : List Nat
  ord : Int

/-- State of the loop of `dfs`: the fields, `is_articulation_point` and `ch_cnt` — low_link.hpp:133-134. -/
structure Loc where
  s : St
  isArt : Bool
  ch : Nat

/-- Lines 142-145: `pu` is `_pre_order[u]`, `lv` is `_low_link[v]`. -/
def decideCut (isRoot : Bool) (id : Nat) (pu lv : Int) (l : Loc) : Loc :=
  if pu ≤ lv then
    { l with isArt := !isRoot, s := { l.s with bridges := if pu ≠ lv then l.s.bridges ++ [id] else l.s.bridges } }
  else l

/-- A neighbour that has not been visited — low_link.hpp:138-145. -/
def treeEdge (rec : Nat → Int → St → M St) (u : Nat) (isRoot : Bool) (e : Nat × Nat) (l : Loc) : M Loc := do
  let par ← wr l.s.par e.1 u
  let s ← rec e.1 e.2 { l.s with par := par }
  let lu ← rd s.low u
  let lv ← rd s.low e.1
  let low ← wr s.low u (min lu lv)
  let pu ← rd s.pre u
  return decideCut isRoot e.2 pu lv ⟨{ s with low := low }, l.isArt, l.ch + 1⟩

/-- A neighbour that has been visited — low_link.hpp:147; `pv` is `_pre_order[v]`. -/
def backEdge (u : Nat) (pv : Int) (l : Loc) : M Loc := do
  let lu ← rd l.s.low u
  let low ← wr l.s.low u (min lu pv)
  return { l with s := { l.s with low := low } }

/-- Body of the loop — low_link.hpp:136-149. -/
def edgeStep (rec : Nat → Int → St → M St) (u : Nat) (prev : Int) (l : Loc) (e : Nat × Nat) : M Loc :=
  if (e.2 : Int) ≠ prev then do
    let pv ← rd l.s.pre e.1
    if pv < 0 then treeEdge rec u (decide (prev < 0)) e l else backEdge u pv l
  else return l

/-- Line 150. -/
def finish (u : Nat) (isRoot : Bool) (l : Loc) : St :=
  if l.isArt || (isRoot && decide (l.ch > 1)) then { l.s with arts := l.s.arts ++ [u] } else l.s

/-- `dfs(u, prev_id, ord)` — low_link.hpp:131-151. -/
def dfs (g : Array (List (Nat × Nat))) : Nat → Nat → Int → St → M St
  | 0, _, _, _ => .error .diverge
  | fuel + 1, u, prev, s => do
    let low ← wr s.low u s.ord
    let pre ← wr s.pre u s.ord
    let gu ← rd g u
    let l ← forEach gu ⟨{ s with pre := pre, low := low, ord := s.ord + 1 }, false, 0⟩ (edgeStep (dfs g fuel) u prev)
    return finish u (decide (prev < 0)) l

/-- The object — low_link.hpp:112-129. -/
structure Obj where
  size : Nat
  edges : List (Nat × Nat)
  g : Array (List (Nat × Nat))
  s : St
  conn : Nat
  built : Bool

/-- `LowLink(n)` — low_link.hpp:13. -/
def empty (n : Nat) : Obj :=
  ⟨n, [], Array.replicate n [], ⟨Array.replicate n (-1), Array.replicate n 0, Array.replicate n (-1), [], [], 0⟩, 0, false⟩

/-- `add_edge(u, v)` — low_link.hpp:20-26 (the returned number is the old number of edges). -/
def addEdge (o : Obj) (u v : Nat) : M Obj := do
  let gu ← rd o.g u
  let g ← wr o.g u (gu ++ [(v, o.edges.length)])
  let gv ← rd g v
  let g ← wr g v (gv ++ [(u, o.edges.length)])
  return { o with edges := o.edges ++ [(u, v)], g := g, built := false }

/-- Body of the loop over the vertices — low_link.hpp:154-157. -/
def rootStep (g : Array (List (Nat × Nat))) (n i : Nat) (sc : St × Nat) : M (St × Nat) := do
  let p ← rd sc.1.pre i
  if p < 0 then do
    let s ← dfs g n i (-1) sc.1
    return (s, sc.2 + 1)
  else return sc

/-- `build()` — low_link.hpp:28-31, 153-158; the counter `ord` starts at `0` in every call. -/
def build (o : Obj) : M Obj := do
  let sc ← forUp 0 o.size ({ o.s with ord := 0 }, o.conn) (rootStep o.g o.size)
  return { o with s := sc.1, conn := sc.2, built := true }

/-- The constructor `LowLink(n, edges)` without the call of `build` — low_link.hpp:14-15. -/
def addAll (n : Nat) (es : List (Nat × Nat)) : M Obj := forEach es (empty n) fun o e => addEdge o e.1 e.2

/-- The constructor `LowLink(n, edges)` — low_link.hpp:14-17. -/
def make (n : Nat) (es : List (Nat × Nat)) : M Obj := do
  let o ← addAll n es
  build o

/-- `bridge_ids()` — low_link.hpp:51-54. -/
def bridgeIds (o : Obj) : M (List Nat) := do
  if !o.built then .error .assertion
  return o.s.bridges

/-- `articulation_points()` — low_link.hpp:55-58. -/
def articulationPoints (o : Obj) : M (List Nat) := do
  if !o.built then .error .assertion
  return o.s.arts

/-- `connected_component_num()` — low_link.hpp:77-80. -/
def componentNum (o : Obj) : M Nat := do
  if !o.built then .error .assertion
  return o.conn

/-- `is_bridge(u, v)` — low_link.hpp:62-67. -/
def isBridge (o : Obj) (u v : Nat) : M Bool := do
  if !o.built then .error .assertion
  let pu ← rd o.s.pre u
  let pv ← rd o.s.pre v
  let x := if pu > pv then v else u
  let y := if pu > pv then u else v
  let px ← rd o.s.pre x
  let ly ← rd o.s.low y
  return decide (px < ly)

/-- `connected_component_num_if_removed(u, v)` — low_link.hpp:85-88. -/
def componentNumEdge (o : Obj) (u v : Nat) : M Nat := do
  if !o.built then .error .assertion
  let b ← isBridge o u v
  return o.conn + (if b then 1 else 0)

/-- Body of the first loop of `connected_component_num_if_removed(u)` — low_link.hpp:98-106; state `(seen, is_root, res)`; `seen` is the
list of the marked vertices (it is empty again after the call, line 108). -/
def removeStep (o : Obj) (u : Nat) (st : List Nat × Bool × Nat) (e : Nat × Nat) : M (List Nat × Bool × Nat) := do
  let pv ← rd o.s.pre e.1
  let pu ← rd o.s.pre u
  if pv < pu then return (st.1, false, st.2.2)
  else do
    let q ← rd o.s.par e.1
    if q = u ∧ e.1 ∉ st.1 then do
      let lv ← rd o.s.low e.1
      return (e.1 :: st.1, st.2.1, st.2.2 + (if pu ≤ lv then 1 else 0))
    else return st

/-- `connected_component_num_if_removed(u)` — low_link.hpp:92-110. -/
def componentNumVertex (o : Obj) (u : Nat) : M Int := do
  if !o.built then .error .assertion
  let gu ← rd o.g u
  let r ← forEach gu ([], true, 0) (removeStep o u)
  return o.conn - 1 + r.2.2 + (if r.2.1 then 0 else 1)

/-- `is_articulation_point(u)` — low_link.hpp:71-74. -/
def isArticulationPoint (o : Obj) (u : Nat) : M Bool := do
  if !o.built then .error .assertion
  let a ← componentNumVertex o u
  let b ← componentNum o
  return decide (a > b)

end LowLink

namespace TwoEdge
open Cxx

/-- `_comp_id` and `_comp_num` — two_edge_connected_components.hpp:53-54. -/
structure St where
  comp : Array Int
  num : Nat

/-- `p >= 0 and _low_link[u] <= _pre_order[p]` and the assignment — two_edge_connected_components.hpp:57-61. -/
def assign (o : LowLink.Obj) (u : Nat) (p : Int) (s : St) : M St :=
  if 0 ≤ p then do
    let lu ← rd o.s.low u
    let pp ← rd o.s.pre p.toNat
    if lu ≤ pp then do
      let c ← rd s.comp p.toNat
      let comp ← wr s.comp u c
      return { s with comp := comp }
    else do
      let comp ← wr s.comp u s.num
      return ⟨comp, s.num + 1⟩
  else do
    let comp ← wr s.comp u s.num
    return ⟨comp, s.num + 1⟩

/-- Body of the loop — two_edge_connected_components.hpp:62-65. -/
def edgeStep (rec : Nat → Int → St → M St) (u : Nat) (s : St) (e : Nat × Nat) : M St := do
  let c ← rd s.comp e.1
  if c < 0 then rec e.1 u s else return s

/-- `dfs(u, p)` — two_edge_connected_components.hpp:56-66. -/
def dfs (o : LowLink.Obj) : Nat → Nat → Int → St → M St
  | 0, _, _, _ => .error .diverge
  | fuel + 1, u, p, s => do
    let s ← assign o u p s
    let gu ← rd o.g u
    forEach gu s (edgeStep (dfs o fuel) u)

/-- `dfs_for_all_connected_components()` — two_edge_connected_components.hpp:67-72. -/
def dfsAll (o : LowLink.Obj) (comp : Array Int) : M St :=
  forUp 0 o.size ⟨comp, 0⟩ fun i s => do
    let c ← rd s.comp i
    if c < 0 then dfs o o.size i (-1) s else return s

/-- The constructor — two_edge_connected_components.hpp:12-15. -/
def make (n : Nat) (es : List (Nat × Nat)) : M (LowLink.Obj × St) := do
  let o ← LowLink.make n es
  let s ← dfsAll o (Array.replicate n (-1))
  return (o, s)

/-- `operator[](v)` — two_edge_connected_components.hpp:27-30. -/
def get (o : LowLink.Obj) (s : St) (v : Nat) : M Int := do
  if !o.built then .error .assertion
  rd s.comp v

/-- `component_num()` — two_edge_connected_components.hpp:22-25. -/
def componentNum (o : LowLink.Obj) (s : St) : M Nat := do
  if !o.built then .error .assertion
  return s.num

/-- `groups()` — two_edge_connected_components.hpp:32-37. -/
def groups (o : LowLink.Obj) (s : St) : M (Array (List Nat)) := do
  if !o.built then .error .assertion
  forUp 0 o.size (Array.replicate s.num []) fun i res => do
    let c ← rd s.comp i
    let l ← rd res c.toNat
    wr res c.toNat (l ++ [i])

/-- Body of the inner loop of `reduced_forest()` — two_edge_connected_components.hpp:44-47. -/
def reducedStep (s : St) (u : Nat) (red : Array (List (Nat × Nat))) (e : Nat × Nat) : M (Array (List (Nat × Nat))) := do
  let cu ← rd s.comp u
  let cv ← rd s.comp e.1
  if cu ≠ cv then do
    let l ← rd red cu.toNat
    wr red cu.toNat (l ++ [(cv.toNat, e.2)])
  else return red

/-- `reduced_forest()` — two_edge_connected_components.hpp:40-50. -/
def reducedForest (o : LowLink.Obj) (s : St) : M (Array (List (Nat × Nat))) := do
  if !o.built then .error .assertion
  forUp 0 o.size (Array.replicate s.num []) fun u red => do
    let gu ← rd o.g u
    forEach gu red (reducedStep s u)

end TwoEdge
