import Verif.Proof.ConvexHullTrick

/-!
# C118: `ConvexHullTrick` returns the least (greatest) value of all lines added

For every history of `add_line`, `query` and `has_line`, with slopes and intercepts below `2^62` in absolute value in any order, `query(x)`
is the least value at `x` of all lines added before (for `is_min_query = false`: the greatest value).
-/

namespace ConvexHullTrick
open Cxx

/-- Every history of valid calls runs without undefined behaviour and every answer is right. -/
theorem history_correct (isMin : Bool) (ops : List Op) (hv : ValidOps Pre next [] ops) :
    ∃ s os, runOps (step isMin) [] ops = .ok (s, os) ∧ TraceOk next (Ans isMin) [] ops os := by
  obtain ⟨r, e, -, h⟩ := Cxx.refine (Sim := Sim isMin) (step := step isMin) (Pre := Pre) (next := next) (Ans := Ans isMin)
    (fun s t i hs hp => step_tot hs i hp) (sim_nil isMin) hv
  exact ⟨r.1, r.2, e, h⟩

/-- After any valid history with at least one line, `query(x)` is the least value at `x` of a line added. -/
theorem query_min (ops : List Op) (hv : ValidOps Pre next [] ops) (x : Int) (hx : -(2 ^ 63 - 1) < x ∧ x < 2 ^ 63) (hne : ops.foldl next [] ≠ []) :
    ∃ s os v, runOps (step true) [] ops = .ok (s, os) ∧ query true s x = .ok v ∧ IsLeast (valuesAt (ops.foldl next []) x) v := by
  obtain ⟨r, e, hs, -⟩ := Cxx.refine (Sim := Sim true) (step := step true) (Pre := Pre) (next := next) (Ans := Ans true)
    (fun s t i hs hp => step_tot hs i hp) (sim_nil true) hv
  obtain ⟨p, e2, -, v, hv, hl⟩ := step_tot hs (.query x) ⟨hne, hx⟩
  refine ⟨r.1, r.2, v, e, ?_, hl⟩
  simp only [step] at e2
  cases h : query true r.1 x with
  | error _ => rw [h] at e2; simp [err_bind] at e2
  | ok w =>
    rw [h, ok_bind] at e2
    cases e2
    cases hv
    rfl

/-- After any valid history with at least one line, `query(x)` of the variant for maxima is the greatest value at `x` of a line added. -/
theorem query_max (ops : List Op) (hv : ValidOps Pre next [] ops) (x : Int) (hx : -(2 ^ 63 - 1) < x ∧ x < 2 ^ 63) (hne : ops.foldl next [] ≠ []) :
    ∃ s os v, runOps (step false) [] ops = .ok (s, os) ∧ query false s x = .ok v ∧ IsGreatest (valuesAt (ops.foldl next []) x) v := by
  obtain ⟨r, e, hs, -⟩ := Cxx.refine (Sim := Sim false) (step := step false) (Pre := Pre) (next := next) (Ans := Ans false)
    (fun s t i hs hp => step_tot hs i hp) (sim_nil false) hv
  obtain ⟨p, e2, -, v, hv, hl⟩ := step_tot hs (.query x) ⟨hne, hx⟩
  refine ⟨r.1, r.2, v, e, ?_, hl⟩
  simp only [step] at e2
  cases h : query false r.1 x with
  | error _ => rw [h] at e2; simp [err_bind] at e2
  | ok w =>
    rw [h, ok_bind] at e2
    cases e2
    cases hv
    rfl

/-- Without lines a query is rejected. -/
theorem query_assert (isMin : Bool) (x : Int) : query isMin [] x = .error .assertion := rfl

/-- At `x = -(2^63 - 1)` a parallel line that should have been dropped is used: the lines `0` and `1` have least value `0`, the answer is `1`. -/
theorem query_edge : runOps (step true) [] [.addLine 0 0, .addLine 0 1, .query (-(2 ^ 63 - 1))] =
    .ok ([⟨0, 0, inf⟩, ⟨0, 1, -inf⟩], [.unit, .unit, .val 1]) := by
  decide +kernel

/-- With intercepts of `2^62` the difference can overflow. -/
theorem add_overflow : runOps (step true) [] [.addLine 0 (-2 ^ 62), .addLine 1 (2 ^ 62)] = .error .ub := by
  decide +kernel

/-! ### The hypotheses are satisfiable -/

/-- Lines in no particular order, equal slopes, a line that is never least. -/
def sample : List Op := [.hasLine, .addLine 1 0, .addLine (-2) 6, .query 2, .addLine 0 100, .addLine 1 (-1), .query 2, .addLine (-1) 1, .query 1, .query (-5)]

example : ValidOps Pre next [] sample := by unfold sample; simp [ValidOps, Pre, next]

example : runOps (step true) [] sample = .ok ([⟨-2, 6, inf⟩, ⟨-1, 1, 5⟩, ⟨1, -1, 1⟩],
    [.bool false, .unit, .unit, .val 2, .unit, .unit, .val 1, .unit, .val 0, .val (-6)]) := by
  decide +kernel

end ConvexHullTrick
