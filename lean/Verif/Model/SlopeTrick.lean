import Verif.Model.Machine
import Mathlib.Data.List.Sort

/-!
# Model of `library/datastructure/slope_trick.hpp`

For `T = long long`. A `std::priority_queue` is modelled by the list of its elements with the top first: `push` inserts in order, `pop` removes
the head (the contract of the standard library). `lines()` is not modelled: its second helper takes the wrong queue type, so the member
function does not compile when it is used.
-/

namespace SlopeTrick
open Cxx

/-- `inf = std::numeric_limits<T>::max() / 2` — line 17. -/
def inf : Int := 2 ^ 62 - 1

/-- The members — lines 97-99. -/
structure State where
  base : Int
  addL : Int
  addR : Int
  l : List Int
  r : List Int
deriving Repr, DecidableEq

/-- `SlopeTrick()` — lines 19-21. -/
def init : State := ⟨0, 0, 0, [-inf], [inf]⟩

/-- `top()` of a queue; undefined if it is empty. -/
def top : List Int → M Int
  | [] => .error .ub
  | x :: _ => .ok x

/-- `pop()` of a queue; undefined if it is empty. -/
def pop : List Int → M (List Int)
  | [] => .error .ub
  | _ :: l => .ok l

/-- `push` of `pq_dsc`. -/
def pushDsc (x : Int) (l : List Int) : List Int := l.orderedInsert (· ≥ ·) x

/-- `push` of `pq_asc`. -/
def pushAsc (x : Int) (l : List Int) : List Int := l.orderedInsert (· ≤ ·) x

/-- `min()` — lines 23-25. -/
protected def min (s : State) : Int := s.base

/-- `argmin_range()` — lines 26-28. -/
def argminRange (s : State) : M (Int × Int) := do
  let x ← top s.l
  let a ← i64 (x + s.addL)
  let y ← top s.r
  let b ← i64 (y + s.addR)
  return (a, b)

/-- `add_const(a)` — lines 29-32. -/
def addConst (s : State) (a : Int) : M State := do
  let b ← i64 (s.base + a)
  return { s with base := b }

/-- Line 36. -/
def addRightFar (s : State) (a : Int) : M State := do
  let v ← i64 (a - s.addR)
  return { s with r := pushAsc v s.r }

/-- Lines 38-39; `x` is `l.top() + add_l`. -/
def addRightNear (s : State) (a x : Int) : M State := do
  let d ← i64 (x - a)
  let b ← i64 (s.base + d)
  let v ← i64 (a - s.addL)
  let l := pushDsc v s.l
  let t ← top l
  let y ← i64 (t + s.addL)
  let w ← i64 (y - s.addR)
  let l' ← pop l
  return { s with base := b, l := l', r := pushAsc w s.r }

/-- `add_right(a)` — lines 34-42. -/
def addRight (s : State) (a : Int) : M State := do
  let t ← top s.l
  let x ← i64 (t + s.addL)
  if x ≤ a then addRightFar s a else addRightNear s a x

/-- Line 46. -/
def addLeftFar (s : State) (a : Int) : M State := do
  let v ← i64 (a - s.addL)
  return { s with l := pushDsc v s.l }

/-- Lines 48-49; `x` is `r.top() + add_r`. -/
def addLeftNear (s : State) (a x : Int) : M State := do
  let d ← i64 (a - x)
  let b ← i64 (s.base + d)
  let v ← i64 (a - s.addR)
  let r := pushAsc v s.r
  let t ← top r
  let y ← i64 (t + s.addR)
  let w ← i64 (y - s.addL)
  let r' ← pop r
  return { s with base := b, l := pushDsc w s.l, r := r' }

/-- `add_left(a)` — lines 44-52. -/
def addLeft (s : State) (a : Int) : M State := do
  let t ← top s.r
  let x ← i64 (t + s.addR)
  if x ≥ a then addLeftFar s a else addLeftNear s a x

/-- `add_abs(a)` — lines 54-57. -/
def addAbs (s : State) (a : Int) : M State := do
  let s ← addLeft s a
  addRight s a

/-- `cumulative_min_left()` — lines 58-61. -/
def cumMinLeft (s : State) : State := { s with r := [inf] }

/-- `cumulative_min_right()` — lines 62-65. -/
def cumMinRight (s : State) : State := { s with l := [-inf] }

/-- `operator<<=` — lines 66-69. -/
def shl (s : State) (d : Int) : M State := do
  let a ← i64 (s.addL - d)
  let b ← i64 (s.addR - d)
  return { s with addL := a, addR := b }

/-- `operator>>=` — lines 70-73. -/
def shr (s : State) (d : Int) : M State := do
  let a ← i64 (s.addL + d)
  let b ← i64 (s.addR + d)
  return { s with addL := a, addR := b }

/-- `translate(dx)` — lines 74-76. -/
def translate (s : State) (d : Int) : M State :=
  if d ≥ 0 then shr s d else do
    let e ← i64 (-d)
    shl s e

/-- `sliding_window_minimum(a, b)` — lines 78-82. -/
def window (s : State) (a b : Int) : M State := do
  check (decide (a ≤ b))
  let x ← i64 (s.addL + a)
  let y ← i64 (s.addR + b)
  return { s with addL := x, addR := y }

/-- The operations. -/
inductive Op where
  | min
  | argminRange
  | addConst (a : Int)
  | addRight (a : Int)
  | addLeft (a : Int)
  | addAbs (a : Int)
  | cumMinLeft
  | cumMinRight
  | shl (d : Int)
  | shr (d : Int)
  | translate (d : Int)
  | window (a b : Int)

/-- Their results. -/
inductive Out where
  | unit
  | val (v : Int)
  | range (a b : Int)
deriving DecidableEq

/-- One operation. -/
def step (s : State) : Op → M (State × Out)
  | .min => return (s, .val (SlopeTrick.min s))
  | .argminRange => do
    let p ← argminRange s
    return (s, .range p.1 p.2)
  | .addConst a => do
    let s ← addConst s a
    return (s, .unit)
  | .addRight a => do
    let s ← addRight s a
    return (s, .unit)
  | .addLeft a => do
    let s ← addLeft s a
    return (s, .unit)
  | .addAbs a => do
    let s ← addAbs s a
    return (s, .unit)
  | .cumMinLeft => return (cumMinLeft s, .unit)
  | .cumMinRight => return (cumMinRight s, .unit)
  | .shl d => do
    let s ← shl s d
    return (s, .unit)
  | .shr d => do
    let s ← shr s d
    return (s, .unit)
  | .translate d => do
    let s ← translate s d
    return (s, .unit)
  | .window a b => do
    let s ← window s a b
    return (s, .unit)

end SlopeTrick
