import Verif.Model.Machine

/-!
# Model of `library/datastructure/monotonic_convex_hull_trick.hpp`

For `T = long long`, so that `MultT` is a 128-bit integer (a product of two 64-bit numbers fits). The `std::deque` of lines is a list.
-/

namespace MonotonicCHT
open Cxx

/-- A line `first * x + second`. -/
abbrev Line := Int × Int

/-- `inc_query_tag`, `dec_query_tag`, `non_monotonic_query_tag` — lines 11-13. -/
inductive Tag
  | inc
  | dec
  | non
deriving Repr, DecidableEq

/-- The data members — lines 94-97, with `prev_x` of the query object (lines 28, 45; not used for `non`). -/
structure Obj where
  lines : List Line
  maxSlope : Int
  minSlope : Int
  prev : Int
deriving Repr, DecidableEq

/-- The initial state — lines 28, 45, 94-97. -/
def init (tag : Tag) : Obj := { lines := [], maxSlope := -2 ^ 63, minSlope := 2 ^ 63 - 1, prev := if tag = .dec then 2 ^ 63 - 1 else -2 ^ 63 }

/-- `is_necessary` — lines 100-103. -/
def isNecessary (l m r : Line) : M Bool := do
  let a ← i64 (l.2 - m.2)
  let b ← i64 (r.1 - m.1)
  let c ← i64 (m.2 - r.2)
  let d ← i64 (m.1 - l.1)
  return decide (a * b > c * d)

/-- The loop and the final insertion of `add_left` (lines 105-117) and, on the reversed list, of `add_right` (lines 119-131): the new line goes to the front; `nec` is applied to
the second, the first and the new line. -/
def addEnd (nec : Line → Line → Line → M Bool) (new : Line) : List Line → M (List Line)
  | [] => return [new]
  | f :: rest =>
    if f.1 = new.1 then
      if new.2 ≥ f.2 then return f :: rest else addEnd nec new rest
    else match rest with
      | [] => return [new, f]
      | l :: rest' => do
        let b ← nec l f new
        if b then return new :: f :: l :: rest' else addEnd nec new (l :: rest')

/-- `add_left` — lines 105-117. -/
def addLeft (ls : List Line) (new : Line) : M (List Line) := addEnd (fun l m r => isNecessary l m r) new ls

/-- `add_right` — lines 119-131. -/
def addRight (ls : List Line) (new : Line) : M (List Line) := do
  let r ← addEnd (fun r m l => isNecessary l m r) new ls.reverse
  return r.reverse

/-- `add_line(slope, intercept)` — lines 79-88. -/
def Obj.addLine (o : Obj) (isMin : Bool) (slope intercept : Int) : M Obj := do
  let slope ← (if isMin then return slope else i64 (-slope) : M Int)
  let intercept ← (if isMin then return intercept else i64 (-intercept) : M Int)
  if slope ≤ o.minSlope then do
    let ls ← addRight o.lines (slope, intercept)
    return { o with lines := ls, minSlope := slope, maxSlope := max o.maxSlope slope }
  else if slope ≥ o.maxSlope then do
    let ls ← addLeft o.lines (slope, intercept)
    return { o with lines := ls, maxSlope := slope, minSlope := min o.minSlope slope }
  else .error .assertion

/-- `a * x + b` — lines 133-136. -/
def evalLine (x : Int) (l : Line) : M Int := do
  let y ← i64 (l.1 * x)
  i64 (y + l.2)

/-- The loop of the monotone queries (lines 33-40, and 50-57 on the reversed list): drop lines from the front while the next one is not worse; returns the value and the lines left. -/
def walk (x : Int) : List Line → M (Int × List Line)
  | [] => .error .assertion
  | [l] => do
    let res ← evalLine x l
    return (res, [l])
  | l :: l2 :: rest => do
    let res ← evalLine x l
    let nxt ← evalLine x l2
    if res < nxt then return (res, l :: l2 :: rest) else walk x (l2 :: rest)

/-- `eval(x, i)` — lines 133-136. -/
def evalAt (ls : List Line) (x : Int) (i : Int) : M Int := if i < 0 then .error .ub else match ls[i.toNat]? with
  | none => .error .ub
  | some l => evalLine x l

/-- One round of the ternary search — lines 65-73; the state is `l` and `r`. -/
def ternStep (ls : List Line) (x : Int) (s : Int × Int) : M (Option (Int × Int)) :=
  if s.2 - s.1 ≥ 3 then do
    let ml := s.1 + (s.2 - s.1).tdiv 3
    let mr := s.2 - (s.2 - s.1).tdiv 3
    let vl ← evalAt ls x ml
    let vr ← evalAt ls x mr
    return some (if vl < vr then (s.1, mr) else (ml, s.2))
  else return none

/-- `_query(this, x)` — lines 29-41, 46-58, 62-76. -/
def Obj.raw (o : Obj) (tag : Tag) (x : Int) : M (Int × Obj) :=
  match tag with
  | .inc => do
    check (decide (x ≥ o.prev))
    let r ← walk x o.lines
    return (r.1, { o with prev := x, lines := r.2 })
  | .dec => do
    check (decide (x ≤ o.prev))
    let r ← walk x o.lines.reverse
    return (r.1, { o with prev := x, lines := r.2.reverse })
  | .non => do
    check (decide (o.lines.length ≠ 0))
    let s ← loop (ternStep o.lines x) (o.lines.length + 1) (-1, (o.lines.length : Int))
    check (decide (s.2 - s.1 = 2))
    let v ← evalAt o.lines x (s.1 + 1)
    return (v, o)

/-- `query(x)` — lines 90-92. -/
def Obj.query (o : Obj) (isMin : Bool) (tag : Tag) (x : Int) : M (Int × Obj) := do
  let r ← o.raw tag x
  let v ← i64 ((if isMin then 1 else -1) * r.1)
  return (v, r.2)

/-- A call of the public interface. -/
inductive Op
  | addLine (slope intercept : Int)
  | query (x : Int)
deriving Repr, DecidableEq

/-- An answer. -/
inductive Out
  | unit
  | val (v : Int)
deriving Repr, DecidableEq

/-- The effect of a call. -/
def step (isMin : Bool) (tag : Tag) (o : Obj) : Op → M (Obj × Out)
  | .addLine a b => do
    let o ← o.addLine isMin a b
    return (o, .unit)
  | .query x => do
    let r ← o.query isMin tag x
    return (r.2, .val r.1)

end MonotonicCHT
