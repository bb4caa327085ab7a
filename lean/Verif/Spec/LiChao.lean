import Verif.Model.LiChao
import Mathlib.Order.Bounds.Defs

/-!
# Specification of `LiChaoSegmentTree`

The abstract state is the list of the segments added so far.
-/

namespace LiChao

/-- The segment `a x + b` for `lo ≤ x ≤ hi`. -/
structure Seg where
  lo : Int
  hi : Int
  a : Int
  b : Int
deriving Repr, DecidableEq

/-- A call adds a segment; a line is a segment over all `long long`. -/
def next (segs : List Seg) : Op → List Seg
  | .addSegment lo hi a b => segs ++ [⟨lo, hi, a, b⟩]
  | .addLine a b => segs ++ [⟨-2 ^ 63, 2 ^ 63 - 1, a, b⟩]
  | .query _ => segs

/-- The values at the query coordinates inside the segment are strictly between the limits of `long long`. -/
abbrev SegOk (coords : List Int) (s : Seg) : Prop :=
  (-2 ^ 63 < s.a ∧ s.a < 2 ^ 63) ∧ (-2 ^ 63 < s.b ∧ s.b < 2 ^ 63) ∧
  ∀ x ∈ coords, s.lo ≤ x → x ≤ s.hi → (-2 ^ 63 < s.a * x ∧ s.a * x < 2 ^ 63) ∧ (-(2 ^ 63 - 1) < s.a * x + s.b ∧ s.a * x + s.b < 2 ^ 63 - 1)

/-- The conditions for calls. -/
def Pre (coords : List Int) (_ : List Seg) : Op → Prop
  | .addSegment lo hi a b => SegOk coords ⟨lo, hi, a, b⟩
  | .addLine a b => SegOk coords ⟨-2 ^ 63, 2 ^ 63 - 1, a, b⟩
  | .query x => x ∈ coords

instance (coords : List Int) (t : List Seg) (i : Op) : Decidable (Pre coords t i) := by
  cases i <;> unfold Pre <;> infer_instance

/-- The values at `x` of all segments over `x`. -/
def valuesAt (segs : List Seg) (x : Int) : Set Int := {v | ∃ s ∈ segs, s.lo ≤ x ∧ x ≤ s.hi ∧ v = s.a * x + s.b}

/-- The right answers: nothing if no segment covers `x`, otherwise the least (greatest) value. -/
def Ans (isMin : Bool) (segs : List Seg) : Op → Out → Prop
  | .addSegment .., o => o = .unit
  | .addLine .., o => o = .unit
  | .query x, o => ∃ r, o = .val r ∧ (r = none → valuesAt segs x = ∅) ∧ ∀ v, r = some v → if isMin then IsLeast (valuesAt segs x) v else IsGreatest (valuesAt segs x) v

end LiChao
