import Verif.Model.Util
import Mathlib.Data.Nat.Sqrt

/-!
# Model of `library/range_query/static_range_mode_query.hpp`

`std::sort`, `std::unique` and `std::lower_bound` by their contracts (`Verif/Model/Util.lean`). `::sqrt` of an `int`, converted back to `int`, is the integer square root. At most 2^30 values, so that no `int` overflows.
-/

namespace RangeMode
open Cxx

variable {T : Type} [LinearOrder T]

/-- Members — static_range_mode_query.hpp:76-89. -/
structure State (T : Type) where
  len : Nat
  bs : Nat
  bn : Nat
  sorted : Array T
  a : Array Nat
  pos : Array Nat
  posInv : Array Nat
  start : Array Nat
  modes : Array (Nat × Nat)

/-- `_cld` — static_range_mode_query.hpp:97. -/
def cld (num den : Nat) : M Nat := if den = 0 then .error .ub else return (num + den - 1) / den

/-- `_fld` — static_range_mode_query.hpp:98. -/
def fld (num den : Nat) : M Nat := if den = 0 then .error .ub else return num / den

/-- `std::max` of pairs `(frequency, value)`. -/
def maxPair (x y : Nat × Nat) : Nat × Nat := if x.1 < y.1 ∨ x.1 = y.1 ∧ x.2 < y.2 then y else x

/-- Body of the loop that compresses and counts — static_range_mode_query.hpp:23-26. -/
def compressStep (a sorted : Array T) (i : Nat) (s : Array Nat × Array Nat) : M (Array Nat × Array Nat) := do
  let v := Compressor.lowerBound sorted.toList (← rd a i)
  let as ← wr s.1 i v
  let start ← wr s.2 v ((← rd s.2 v) + 1)
  return (as, start)

/-- Body of the loop of the prefix sums — static_range_mode_query.hpp:28. -/
def prefixStep (i : Nat) (start : Array Nat) : M (Array Nat) := do
  wr start (i + 1) ((← rd start (i + 1)) + (← rd start i))

/-- Body of the loop that puts the positions in order — static_range_mode_query.hpp:32-34. State: `_start`, `_pos`, `_pos_inv`. An index of -1 would be undefined behaviour. -/
def placeStep (as : Array Nat) (i : Nat) (s : Array Nat × Array Nat × Array Nat) : M (Array Nat × Array Nat × Array Nat) := do
  let v ← rd as i
  let c ← rd s.1 v
  if c = 0 then .error .ub else do
    let start ← wr s.1 v (c - 1)
    let pos ← wr s.2.1 (c - 1) i
    let posInv ← wr s.2.2 i (c - 1)
    return (start, pos, posInv)

/-- Body of the loop over the values of a block — static_range_mode_query.hpp:47. State: `freq`, `mode`. -/
def valueStep (as : Array Nat) (i : Nat) (s : Array Nat × (Nat × Nat)) : M (Array Nat × (Nat × Nat)) := do
  let v ← rd as i
  let c := (← rd s.1 v) + 1
  let freq ← wr s.1 v c
  return (freq, maxPair s.2 (c, v))

/-- Body of the loop over the blocks on the right — static_range_mode_query.hpp:44-49. State: `freq`, `mode`, `_mode_blocks`. -/
def rightStep (as : Array Nat) (len bs bn lb rb : Nat) (s : Array Nat × (Nat × Nat) × Array (Nat × Nat)) : M (Array Nat × (Nat × Nat) × Array (Nat × Nat)) := do
  let (freq, mode) ← forUp ((rb - 1) * bs) (min len (rb * bs)) (s.1, s.2.1) (valueStep as)
  let modes ← wr s.2.2 (lb * (bn + 1) + rb) mode
  return (freq, mode, modes)

/-- Body of the loop over the blocks on the left — static_range_mode_query.hpp:40-50. -/
def leftStep (as : Array Nat) (len bs bn k lb : Nat) (modes : Array (Nat × Nat)) : M (Array (Nat × Nat)) := do
  let (_, _, modes) ← forUp (lb + 1) (bn + 1) (Array.replicate k 0, (0, 0), modes) (rightStep as len bs bn lb)
  return modes

/-- The constructor — static_range_mode_query.hpp:13-52. -/
def build (a : Array T) : M (State T) := do
  let len := a.size
  let bs := len.sqrt
  let bn ← cld len bs
  let sorted := (Compressor.unique (a.toList.mergeSort fun x y => decide (x ≤ y))).toArray
  let k := sorted.size
  let (as, start) ← forUp 0 len (Array.replicate len 0, Array.replicate (k + 1) 0) (compressStep a sorted)
  let start ← forUp 0 k start prefixStep
  let (start, pos, posInv) ← forDown len 0 (start, Array.replicate len 0, Array.replicate len 0) (placeStep as)
  let modes ← forUp 0 (bn + 1) (Array.replicate ((bn + 1) * (bn + 1)) (0, 0)) (leftStep as len bs bn k)
  return ⟨len, bs, bn, sorted, as, pos, posInv, start, modes⟩

/-- `_check_left_bound` — static_range_mode_query.hpp:94. -/
def checkLeft (s : State T) (v : Nat) (p : Int) (l : Nat) : M Bool := do
  if (← rd s.start v : Nat) ≤ p then return decide (l ≤ (← rd s.pos p.toNat)) else return false

/-- `_check_right_bound` — static_range_mode_query.hpp:95. -/
def checkRight (s : State T) (v p r : Nat) : M Bool := do
  if p < (← rd s.start (v + 1)) then return decide ((← rd s.pos p) < r) else return false

/-- Body of the loop over the values on the left — static_range_mode_query.hpp:60-63. State: `freq`, `mode`. -/
def fromLeft (s : State T) (r i : Nat) (q : Nat × Nat) : M (Nat × Nat) := do
  let v ← rd s.a i
  let p ← rd s.posInv i
  if !(← checkRight s v (p + q.1) r) then return q
  let freq ← loop (fun f => do if (← checkRight s v (p + f) r) then return some (f + 1) else return none) s.len (q.1 + 1)
  return (freq, v)

/-- Body of the loop over the values on the right — static_range_mode_query.hpp:66-69. -/
def fromRight (s : State T) (l i : Nat) (q : Nat × Nat) : M (Nat × Nat) := do
  let v ← rd s.a i
  let p ← rd s.posInv i
  if !(← checkLeft s v ((p : Int) - q.1) l) then return q
  let freq ← loop (fun f => do if (← checkLeft s v ((p : Int) - (f : Nat)) l) then return some (f + 1) else return none) s.len (q.1 + 1)
  return (freq, v)

/-- `query` (also `operator()`) — static_range_mode_query.hpp:54-73. -/
def query (s : State T) (l r : Int) : M (T × Nat) := do
  check (decide (0 ≤ l ∧ l < r ∧ r ≤ s.len))
  let l := l.toNat
  let r := r.toNat
  let lb ← cld l s.bs
  let rb ← fld r s.bs
  let q ← rd s.modes (lb * (s.bn + 1) + rb)
  let q ← forUp l (min r (lb * s.bs)) q (fromLeft s r)
  let q ← forDown r (max l (rb * s.bs)) q (fromRight s l)
  return (← rd s.sorted q.2, q.1)

end RangeMode
