import Verif.Proof.LiChaoHistory

/-!
# C152: `LiChaoSegmentTree`

For every list of query coordinates and every history of `add_segment`, `add_line` and `query`, `query(x)` is the least (greatest) value at `x` of the
segments added over `x` so far, or nothing if there is none.
-/

namespace LiChao
open Cxx

/-- **C152** Every history of valid calls on a tree with at least one coordinate runs without undefined behaviour and every answer is right. -/
theorem history_correct (isMin : Bool) (coords : List Int) (hne : coords ≠ []) (ops : List Op) (hv : ValidOps (Pre coords) next [] ops) :
    ∃ o s os, mk coords = .ok o ∧ runOps (step isMin) o ops = .ok (s, os) ∧ TraceOk next (Ans isMin) [] ops os := by
  obtain ⟨o, e1, h0⟩ := mk_tot isMin hne
  obtain ⟨r, e, -, h⟩ := Cxx.refine (Sim := Sim isMin coords) (step := step isMin) (Pre := Pre coords) (next := next) (Ans := Ans isMin)
    (fun s t i hs hp => step_tot hs i hp) h0 hv
  exact ⟨o, r.1, r.2, e1, e, h⟩

/-- A query below the largest coordinate that is not a coordinate fails the assertion. -/
theorem query_missing (isMin : Bool) (coords : List Int) (ops : List Op) (hv : ValidOps (Pre coords) next [] ops) (x : Int) (hx : x ∉ coords) (hlt : ∃ c ∈ coords, x < c) :
    ∃ o s os, mk coords = .ok o ∧ runOps (step isMin) o ops = .ok (s, os) ∧ s.query isMin x = .error .assertion := by
  have hne : coords ≠ [] := by
    rintro rfl
    obtain ⟨c, hc, -⟩ := hlt
    cases hc
  obtain ⟨o, e1, h0⟩ := mk_tot isMin hne
  obtain ⟨r, e, hs, -⟩ := Cxx.refine (Sim := Sim isMin coords) (step := step isMin) (Pre := Pre coords) (next := next) (Ans := Ans isMin)
    (fun s t i hs hp => step_tot hs i hp) h0 hv
  refine ⟨o, r.1, r.2, e1, e, ?_⟩
  obtain ⟨L, hg⟩ := hs.geo
  obtain ⟨⟨l1, l2⟩, -⟩ := bounds hg x
  unfold Obj.query
  dsimp only
  generalize Compressor.lowerBound r.1.pos.toList x = p at l1 l2
  obtain ⟨c, hc, hxc⟩ := hlt
  obtain ⟨j, hj, rfl⟩ := (hs.mem c).mp hc
  have hpj : p ≤ j := by
    by_contra hc
    have := (l2 j hj).mp (by omega)
    omega
  rw [rd_at 0 (by rw [hg.size]; omega), ok_bind, decide_eq_false, check_false, err_bind]
  intro hp
  exact hx ((hs.mem x).mpr ⟨p, by omega, hp⟩)

/-- A query above all coordinates does not fail the assertion, as the documentation says, but reads outside of the vector. -/
theorem query_above (isMin : Bool) (coords : List Int) (hne : coords ≠ []) (ops : List Op) (hv : ValidOps (Pre coords) next [] ops) (x : Int) (hx : ∀ c ∈ coords, c < x) :
    ∃ o s os, mk coords = .ok o ∧ runOps (step isMin) o ops = .ok (s, os) ∧ s.query isMin x = .error .ub := by
  obtain ⟨o, e1, h0⟩ := mk_tot isMin hne
  obtain ⟨r, e, hs, -⟩ := Cxx.refine (Sim := Sim isMin coords) (step := step isMin) (Pre := Pre coords) (next := next) (Ans := Ans isMin)
    (fun s t i hs hp => step_tot hs i hp) h0 hv
  refine ⟨o, r.1, r.2, e1, e, ?_⟩
  obtain ⟨L, hg⟩ := hs.geo
  obtain ⟨⟨l1, l2⟩, -⟩ := bounds hg x
  unfold Obj.query
  dsimp only
  generalize Compressor.lowerBound r.1.pos.toList x = p at l1 l2
  have hpm : r.1.m ≤ p := by
    by_contra hc
    have h1 := hx _ ((hs.mem _).mpr ⟨p, by omega, rfl⟩)
    have := (l2 p (by omega)).mpr h1
    omega
  rw [rd_ub (by rw [hg.size]; exact hpm), err_bind]

/-- A segment whose value is the largest `long long` is lost: the query returns nothing. -/
theorem query_limit : (do
    let o ← mk [5]
    runOps (step true) o [.addLine 0 (2 ^ 63 - 1), .query 5]) = .ok (⟨#[5], 1, 1, 0, #[e, e]⟩, [.unit, .val none]) := by
  decide +kernel

/-! ### The hypotheses are satisfiable -/

/-- Coordinates with repetitions, segments that overlap, lines that cross. -/
def sampleCoords : List Int := [3, -1, 10, 7, 3]
/-- The calls. -/
def sample : List Op := [.query 3, .addSegment (-5) 3 2 1, .query 3, .query 7, .addLine (-1) 12, .query 3, .query 10, .addSegment 3 7 0 0, .query (-1), .query 3, .query 7, .addSegment 9 8 0 (-100), .query 10]

example : ValidOps (Pre sampleCoords) next [] sample := by decide +kernel

-- the object for these coordinates
example : (do
    let r ← runOps (step true) ⟨#[-1, 3, 7, 10], 4, 4, 2, #[e, e, e, e, e, e, e, e]⟩ sample
    return r.2 : M (List Out)) = .ok [.val none, .unit, .val (some 7), .val none, .unit, .val (some 7), .val (some 2), .unit, .val (some (-1)), .val (some 0), .val (some 0), .unit, .val (some 2)] := by
  decide +kernel

end LiChao
