import Verif.Model.LowLink

/-!
# Model of `library/graph/biconnected_components.hpp`

The static stack `edges` of `dfs` is passed as part of the state (top first). The recursion carries a bound on its depth.
-/

namespace Biconnected
open Cxx

/-- `_used`, `_edge_comp_id`, `_edge_comp_num`, the stack `edges` and `_isolated_vertices` — biconnected_components.hpp:89-92, 96. -/
structure St where
  used : Array Bool
  comp : Array Int
  num : Nat
  stack : List Nat
  iso : List Nat

/-- The loop `do … while (e != edge_id)` — biconnected_components.hpp:105; `back()` of an empty vector is undefined. -/
def popUntil (id num : Nat) : List Nat → Array Int → M (List Nat × Array Int)
  | [], _ => .error .ub
  | e :: st, comp => do
    let comp ← wr comp e num
    if e ≠ id then popUntil id num st comp else return (st, comp)

/-- Line 99: push the edge if it is new. -/
def push (o : LowLink.Obj) (u : Nat) (e : Nat × Nat) (s : St) : M St := do
  let b ← rd s.used e.1
  if !b then return { s with stack := e.2 :: s.stack }
  else do
    let pv ← rd o.s.pre e.1
    let pu ← rd o.s.pre u
    return if pv < pu then { s with stack := e.2 :: s.stack } else s

/-- Lines 103-106: close a component after returning from `v`. -/
def closeBlock (o : LowLink.Obj) (u : Nat) (e : Nat × Nat) (s : St) : M St := do
  let lv ← rd o.s.low e.1
  let pu ← rd o.s.pre u
  if lv < pu then return s
  else do
    let r ← popUntil e.2 s.num s.stack s.comp
    return { s with stack := r.1, comp := r.2, num := s.num + 1 }

/-- Lines 101-106: descend if `v` is new. -/
def descend (rec : Nat → Int → St → M St) (o : LowLink.Obj) (u : Nat) (e : Nat × Nat) (s : St) : M St := do
  let b ← rd s.used e.1
  if b then return s
  else do
    let s ← rec e.1 e.2 s
    closeBlock o u e s

/-- Body of the loop — biconnected_components.hpp:97-107. -/
def edgeStep (rec : Nat → Int → St → M St) (o : LowLink.Obj) (u : Nat) (pe : Int) (s : St) (e : Nat × Nat) : M St :=
  if (e.2 : Int) ≠ pe then do
    let s ← push o u e s
    descend rec o u e s
  else return s

/-- `dfs(u, par_edge_id)` — biconnected_components.hpp:94-108. -/
def dfs (o : LowLink.Obj) : Nat → Nat → Int → St → M St
  | 0, _, _, _ => .error .diverge
  | fuel + 1, u, pe, s => do
    let used ← wr s.used u true
    let gu ← rd o.g u
    forEach gu { s with used := used } (edgeStep (dfs o fuel) o u pe)

/-- Body of the loop over the vertices — biconnected_components.hpp:113-116. -/
def rootStep (o : LowLink.Obj) (i : Nat) (s : St) : M St := do
  let b ← rd s.used i
  if b then return s
  else do
    let s ← dfs o o.size i (-1) s
    let gi ← rd o.g i
    return if gi.isEmpty then { s with iso := s.iso ++ [i] } else s

/-- `dfs_for_all_connected_components()` — biconnected_components.hpp:109-117; `stack` and `iso` are what earlier calls left behind. -/
def dfsAll (o : LowLink.Obj) (stack iso : List Nat) : M St :=
  forUp 0 o.size ⟨Array.replicate o.size false, Array.replicate o.edges.length (-1), 0, stack, iso⟩ (rootStep o)

/-- The constructor — biconnected_components.hpp:14-17; the static stack is empty. -/
def make (n : Nat) (es : List (Nat × Nat)) : M (LowLink.Obj × St) := do
  let o ← LowLink.make n es
  let s ← dfsAll o [] []
  return (o, s)

/-- `operator[](edge_id)` — biconnected_components.hpp:42-45. -/
def get (o : LowLink.Obj) (s : St) (i : Nat) : M Int := do
  if !o.built then .error .assertion
  rd s.comp i

/-- `edge_component_num()` — biconnected_components.hpp:30-33. -/
def edgeComponentNum (o : LowLink.Obj) (s : St) : M Nat := do
  if !o.built then .error .assertion
  return s.num

/-- `component_num()` — biconnected_components.hpp:25-28. -/
def componentNum (o : LowLink.Obj) (s : St) : M Nat := do
  if !o.built then .error .assertion
  return s.num + s.iso.length

/-- `isolated_vertices()` — biconnected_components.hpp:47-50. -/
def isolatedVertices (o : LowLink.Obj) (s : St) : M (List Nat) := do
  if !o.built then .error .assertion
  return s.iso

/-- `Subgraph` — biconnected_components.hpp:52-60. -/
structure Sub where
  vids : List Nat
  eids : List Nat

/-- Lines 66-68: a negative index is undefined. -/
def addEid (s : St) (i : Nat) (res : Array Sub) : M (Array Sub) := do
  let c ← rd s.comp i
  if c < 0 then .error .ub
  else do
    let x ← rd res c.toNat
    wr res c.toNat { x with eids := x.eids ++ [i] }

/-- `edge(eid)` — low_link.hpp:36. -/
def edgeAt (o : LowLink.Obj) (i : Nat) : M (Nat × Nat) :=
  match o.edges[i]? with
  | some e => return e
  | none => .error .ub

/-- Lines 73 and 74: state `(seen, vids)`. -/
def addVid (u : Nat) (st : Array Bool × List Nat) : M (Array Bool × List Nat) := do
  let b ← rd st.1 u
  let seen ← wr st.1 u true
  return (seen, if b then st.2 else st.2 ++ [u])

/-- Lines 71-75. -/
def addEnds (o : LowLink.Obj) (st : Array Bool × List Nat) (i : Nat) : M (Array Bool × List Nat) := do
  let e ← edgeAt o i
  let st ← addVid e.1 st
  addVid e.2 st

/-- Lines 76-79. -/
def clearEnds (o : LowLink.Obj) (seen : Array Bool) (i : Nat) : M (Array Bool) := do
  let e ← edgeAt o i
  let seen ← wr seen e.2 false
  wr seen e.1 false

/-- Lines 70-80: one component. -/
def fillVids (o : LowLink.Obj) (id : Nat) (st : Array Bool × Array Sub) : M (Array Bool × Array Sub) := do
  let x ← rd st.2 id
  let r ← forEach x.eids (st.1, x.vids) (addEnds o)
  let seen ← forEach x.eids r.1 (clearEnds o)
  let res ← wr st.2 id { x with vids := r.2 }
  return (seen, res)

/-- Line 83: state `(id, res)`. -/
def addIso (st : Nat × Array Sub) (v : Nat) : M (Nat × Array Sub) := do
  let x ← rd st.2 st.1
  let res ← wr st.2 st.1 { x with vids := [v] }
  return (st.1 + 1, res)

/-- `components()` — biconnected_components.hpp:63-86. -/
def components (o : LowLink.Obj) (s : St) : M (Array Sub) := do
  if !o.built then .error .assertion
  let res ← forUp 0 o.edges.length (Array.replicate (s.num + s.iso.length) ⟨[], []⟩) (addEid s)
  let st ← forUp 0 s.num (Array.replicate o.size false, res) (fillVids o)
  let st ← forEach s.iso (s.num, st.2) addIso
  return st.2

end Biconnected
