import Verif.Model.Biconnected
import Verif.Model.GraphAlgo

/-!
# Model of `library/graph/block_cut_forest.hpp`
-/

namespace BlockCutForest
open Cxx

/-- The members — block_cut_forest.hpp:56-62. -/
structure Obj where
  blocks : Nat
  isolated : Nat
  arts : Nat
  g : Array (List Nat)
  vnum : Array Nat
  comp : Array Int

/-- Line 14: state `(next_id, art_id)`. -/
def artStep (st : Nat × Array Int) (v : Nat) : M (Nat × Array Int) := do
  let a ← wr st.2 v st.1
  return (st.1 + 1, a)

/-- Lines 20 and 21: join the node of an articulation point with the node of a component; a negative component is used as an index, which is undefined. -/
def link (vid cid : Int) (g : Array (List Nat)) : M (Array (List Nat)) :=
  if vid ≥ 0 then
    if cid < 0 then .error .ub
    else do
      let l ← rd g vid.toNat
      let g ← wr g vid.toNat (l ++ [cid.toNat])
      let l ← rd g cid.toNat
      wr g cid.toNat (l ++ [vid.toNat])
  else return g

/-- Lines 16-22: state `(_comp_id, _g)`. -/
def edgeStep (o : LowLink.Obj) (s : Biconnected.St) (art : Array Int) (i : Nat) (st : Array Int × Array (List Nat)) : M (Array Int × Array (List Nat)) := do
  let cid ← Biconnected.get o s i
  let e ← Biconnected.edgeAt o i
  let comp ← wr st.1 e.2 cid
  let comp ← wr comp e.1 cid
  let a ← rd art e.1
  let g ← link a cid st.2
  let b ← rd art e.2
  let g ← link b cid g
  return (comp, g)

/-- Lines 24-26: state `(isolated_vertex_id, _comp_id)`. -/
def isoStep (st : Nat × Array Int) (v : Nat) : M (Nat × Array Int) := do
  let c ← wr st.2 v st.1
  return (st.1 + 1, c)

/-- `++_vertex_num[cid]`. -/
def incr (vnum : Array Nat) (cid : Nat) : M (Array Nat) := do
  let x ← rd vnum cid
  wr vnum cid (x + 1)

/-- Lines 30-37. -/
def vertexStep (art comp : Array Int) (g : Array (List Nat)) (v : Nat) (vnum : Array Nat) : M (Array Nat) := do
  let vid ← rd art v
  if vid < 0 then do
    let c ← rd comp v
    if c < 0 then .error .ub else incr vnum c.toNat
  else do
    let vnum ← wr vnum vid.toNat 1
    let l ← rd g vid.toNat
    forEach l vnum incr

/-- The constructor — block_cut_forest.hpp:10-38. -/
def make (o : LowLink.Obj) (s : Biconnected.St) : M Obj := do
  let m ← Biconnected.edgeComponentNum o s
  let iso ← Biconnected.isolatedVertices o s
  let arts ← LowLink.articulationPoints o
  let nodes := m + iso.length + arts.length
  let r ← forEach arts (m + iso.length, Array.replicate o.size (-1)) artStep
  let art := r.2
  let st ← forUp 0 o.edges.length (Array.replicate o.size (-1), Array.replicate nodes []) (edgeStep o s art)
  let c ← forEach iso (m, st.1) isoStep
  let g ← RemoveMultiedges.run st.2
  let vnum ← forUp 0 o.size (Array.replicate nodes 0) (vertexStep art c.2 g)
  return ⟨m, iso.length, arts.length, g, vnum, c.2⟩

/-- `size()` — block_cut_forest.hpp:40. -/
def size (t : Obj) : Nat := t.blocks + t.isolated + t.arts

/-- `is_articulation_point(id)` — block_cut_forest.hpp:42. -/
def isArt (t : Obj) (id : Nat) : Bool := id ≥ t.blocks + t.isolated

/-- `is_biconnected_component(id)` — block_cut_forest.hpp:43. -/
def isBlock (t : Obj) (id : Nat) : Bool := !isArt t id

/-- `is_isolated_vertex(id)` — block_cut_forest.hpp:44. -/
def isIsolated (t : Obj) (id : Nat) : Bool := id ≥ t.blocks && isBlock t id

/-- `operator[](id)` — block_cut_forest.hpp:46. -/
def get (t : Obj) (id : Nat) : M (List Nat) := rd t.g id

/-- `vertex_num(id)` — block_cut_forest.hpp:49. -/
def vertexNum (t : Obj) (id : Nat) : M Nat := rd t.vnum id

/-- `component_id(vertex)` — block_cut_forest.hpp:51-53. -/
def componentId (t : Obj) (v : Nat) : M Int := rd t.comp v

end BlockCutForest
