import Verif.Cxx

/-!
# Model of `library/graph/kruscal.hpp`

`cost_type` is `Int` (no overflow of the sum is modelled). `atcoder::dsu` is not part of the repository and is modelled by its contract: a vector of component labels, with the range assertions of `same` and `merge`. `std::sort` is a parameter `srt` of `build`.
-/

namespace Kruscal
open Cxx

/-- `edge_type` — kruscal.hpp:12. -/
abbrev Edge := Nat × Nat × Int

/-- The object — lines 69-73. -/
structure Obj where
  sz : Nat
  weight : Int
  edges : List Edge
  built : Bool

/-- The constructor — line 16. `_weight_sum` is indeterminate until `build`. -/
def new (n : Nat) : Obj := ⟨n, 0, [], false⟩

/-- `add_edge` — lines 18-25. -/
def addEdge (o : Obj) (e : Edge) : Obj := { o with built := false, edges := o.edges ++ [e] }

/-- `atcoder::dsu::same`, by its contract. -/
def same (lab : Array Nat) (u v : Nat) : M Bool := do
  check (u < lab.size)
  check (v < lab.size)
  let a ← rd lab u
  let b ← rd lab v
  return a = b

/-- `atcoder::dsu::merge`, by its contract. -/
def merge (lab : Array Nat) (u v : Nat) : M (Array Nat) := do
  check (u < lab.size)
  check (v < lab.size)
  let a ← rd lab u
  let b ← rd lab v
  return lab.map fun x => if x = b then a else x

/-- The body of the loop over the edges — lines 36-43: the state is the union-find, `_weight_sum` and the edges already rewritten. -/
def edgeStep (n : Nat) (s : Array Nat × Int × List Edge) (e : Edge) : M (Array Nat × Int × List Edge) := do
  let b ← same s.1 e.1 e.2.1
  if b then return (s.1, s.2.1, s.2.2 ++ [(n, n, e.2.2)])
  else do
    let lab ← merge s.1 e.1 e.2.1
    return (lab, s.2.1 + e.2.2, s.2.2 ++ [e])

/-- Lines 34-45. -/
def buildMain (srt : List Edge → List Edge) (o : Obj) : M (Obj × Bool) := do
  let s ← forEach (srt o.edges) (Array.range o.sz, 0, []) (edgeStep o.sz)
  let es := s.2.2.filter fun e => e.1 ≠ o.sz
  return ({ o with built := true, weight := s.2.1, edges := es }, es.length = o.sz - 1)

/-- `build()` — lines 30-46. -/
def build (srt : List Edge → List Edge) (o : Obj) : M (Obj × Bool) :=
  if o.sz = 0 then return ({ o with built := true, weight := 0 }, true) else buildMain srt o

/-- `get_weight()` — lines 53-56. -/
def getWeight (o : Obj) : M Int := do
  check o.built
  return o.weight

/-- `get_mst()` — lines 64-67. -/
def getMst (o : Obj) : M (List Edge) := do
  check o.built
  return o.edges

/-- The calls of a user. -/
inductive Op
  | addEdge (e : Edge)
  | build
  | getWeight
  | getMst

/-- Their results. -/
inductive Out
  | unit
  | bool (b : Bool)
  | weight (x : Int)
  | edges (l : List Edge)
  deriving DecidableEq

/-- One call. -/
def step (srt : List Edge → List Edge) (o : Obj) : Op → M (Obj × Out)
  | .addEdge e => return (Kruscal.addEdge o e, .unit)
  | .build => do
    let r ← Kruscal.build srt o
    return (r.1, .bool r.2)
  | .getWeight => do
    let x ← Kruscal.getWeight o
    return (o, .weight x)
  | .getMst => do
    let l ← Kruscal.getMst o
    return (o, .edges l)

end Kruscal
