import Verif.Model.Machine
import Verif.Model.SegmentTree
import Verif.Model.Util
import Mathlib.Data.Int.Order.Basic

/-!
# Model of `library/datastructure/segment_tree/li_chao_segment_tree.hpp`

For `T = long long`. Indices are natural numbers (at most 2^29 different coordinates, so that no `int` overflows). `std::sort`, `std::unique`, `std::lower_bound` and
`std::upper_bound` as in `Model/Util`.
-/

namespace LiChao
open Cxx

/-- `Line` — lines 12-22. -/
structure Line where
  a : Int
  b : Int
deriving Repr, DecidableEq

/-- `std::numeric_limits<T>::max()`. -/
def inf : Int := 2 ^ 63 - 1

/-- `Line::e` — line 13. -/
def e : Line := ⟨0, inf⟩

/-- `operator()(x)` of a line — lines 18-20. -/
def eval (f : Line) (x : Int) : M Int :=
  if f = e then return inf
  else do
    let y ← i64 (f.a * x)
    i64 (y + f.b)

/-- The data members — lines 91-93. -/
structure Obj where
  pos : Array Int
  n : Nat
  m : Nat
  logm : Nat
  seg : Array Line
deriving Repr, DecidableEq

/-- The constructor — lines 28-36. -/
def mk (coords : List Int) : M Obj := do
  let xs := Compressor.unique (coords.mergeSort fun a b => decide (a ≤ b))
  let n := xs.length
  let m ← SegmentTree.ceilPow2 n
  let pos := xs ++ List.replicate (m - n) (xs.getLast?.getD 0)
  return { pos := pos.toArray, n := n, m := m, logm := m.log2, seg := Array.replicate (2 * m) e }

/-- The local variables of the private `add_segment`. -/
structure St where
  k : Nat
  l : Nat
  r : Nat
  w : Nat
  f : Line
  seg : Array Line

/-- One round of the private `add_segment` — lines 112-126; `break` is modelled by `w = 0`. -/
def insertStep (pos : Array Int) (s : St) : M (Option St) :=
  if s.w = 0 then return none
  else do
    let g ← rd s.seg s.k
    let xl ← rd pos s.l
    let xm ← rd pos ((s.l + s.r) / 2)
    let xr ← rd pos (s.r - 1)
    let fl ← eval s.f xl
    let fm ← eval s.f xm
    let fr ← eval s.f xr
    let gl ← eval g xl
    let gm ← eval g xm
    let gr ← eval g xr
    let sw := decide (fm < gm)
    let seg ← wr s.seg s.k (if sw then s.f else g)
    let f := if sw then g else s.f
    let fl' := if sw then gl else fl
    let gl' := if sw then fl else gl
    let fr' := if sw then gr else fr
    let gr' := if sw then fr else gr
    let k := s.k * 2
    let w := s.w / 2
    if fl' < gl' then return some { k := k, l := s.l, r := s.r - w, w := w, f := f, seg := seg }
    else if fr' < gr' then return some { k := k + 1, l := s.l + w, r := s.r, w := w, f := f, seg := seg }
    else return some { s with w := 0, f := f, seg := seg }

/-- The private `add_segment(k, f)` with `get_index_range(k)` — lines 104-127. -/
def insert (o : Obj) (seg : Array Line) (k : Nat) (f : Line) : M (Array Line) := do
  let w := 2 ^ (o.logm - k.log2)
  let l := k * w - o.m
  let s ← loop (insertStep o.pos) w { k := k, l := l, r := l + w, w := w, f := f, seg := seg }
  return s.seg

/-- One round of `add_segment` — lines 46-49; the state is `l`, `r` and the array. -/
def addStep (o : Obj) (f : Line) (s : Nat × Nat × Array Line) : M (Option (Nat × Nat × Array Line)) :=
  if s.1 < s.2.1 then do
    let p ← (if s.1 % 2 = 1 then do
        let seg ← insert o s.2.2 s.1 f
        return (s.1 + 1, seg)
      else return (s.1, s.2.2) : M (Nat × Array Line))
    let q ← (if s.2.1 % 2 = 1 then do
        let seg ← insert o p.2 (s.2.1 - 1) f
        return (s.2.1 - 1, seg)
      else return (s.2.1, p.2) : M (Nat × Array Line))
    return some (p.1 / 2, q.1 / 2, q.2)
  else return none

/-- `Line f{ a, b }; if constexpr (not is_min_query) f = -f;` — lines 40-41. -/
def line (isMin : Bool) (a b : Int) : M Line :=
  if isMin then return ⟨a, b⟩
  else do
    let a ← i64 (-a)
    let b ← i64 (-b)
    return ⟨a, b⟩

/-- `add_segment(min_x, max_x, a, b)` — lines 39-50. -/
def Obj.addSegment (o : Obj) (isMin : Bool) (lo hi a b : Int) : M Obj := do
  let f ← line isMin a b
  let l := Compressor.lowerBound o.pos.toList lo
  let r := Compressor.upperBound o.pos.toList hi
  let r := if r = o.n then o.m else r
  let s ← loop (addStep o f) (r + o.m) (l + o.m, r + o.m, o.seg)
  return { o with seg := s.2.2 }

/-- `add_line(a, b)` — lines 53-55. -/
def Obj.addLine (o : Obj) (isMin : Bool) (a b : Int) : M Obj := o.addSegment isMin (-2 ^ 63) inf a b

/-- One round of `operator()` — lines 68-71; the state is `p`, `res` and `none`. -/
def queryStep (o : Obj) (x : Int) (s : Nat × Int × Bool) : M (Option (Nat × Int × Bool)) :=
  if s.1 = 0 then return none
  else do
    let g ← rd o.seg s.1
    let v ← eval g x
    return some (s.1 / 2, min s.2.1 v, s.2.2 && decide (g = e))

/-- `operator()(x)`, `query(x)` — lines 63-88. -/
def Obj.query (o : Obj) (isMin : Bool) (x : Int) : M (Option Int) := do
  let p := Compressor.lowerBound o.pos.toList x
  let y ← rd o.pos p
  check (decide (y = x))
  let s ← loop (queryStep o x) (p + o.m) (p + o.m, inf, true)
  if s.2.2 then return none
  else if isMin then return some s.2.1
  else do
    let r ← i64 (-s.2.1)
    return some r

/-- A call of the public interface. -/
inductive Op
  | addSegment (lo hi a b : Int)
  | addLine (a b : Int)
  | query (x : Int)
deriving Repr, DecidableEq

/-- An answer. -/
inductive Out
  | unit
  | val (r : Option Int)
deriving Repr, DecidableEq

/-- The effect of a call. -/
def step (isMin : Bool) (o : Obj) : Op → M (Obj × Out)
  | .addSegment lo hi a b => do
    let o ← o.addSegment isMin lo hi a b
    return (o, .unit)
  | .addLine a b => do
    let o ← o.addLine isMin a b
    return (o, .unit)
  | .query x => do
    let r ← o.query isMin x
    return (o, .val r)

end LiChao
