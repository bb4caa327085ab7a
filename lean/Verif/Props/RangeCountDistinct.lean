import Verif.Proof.RangeCountDistinct

/-!
# C155: `StaticRangeCountDistinctOffline`

For every sequence and every history of `add_query` and `solve`, `solve` returns for each query added so far, in the order of addition, the number of different
values in its range. It may be called at any time and any number of times.
-/

namespace RangeCountDistinct
open Cxx

/-- **C155** Every history of calls with ranges inside the sequence runs without undefined behaviour and without a failed assertion, and every answer is right. -/
theorem history_correct (a : List Int) (ops : List Op) (hv : ValidOps (Pre a) next [] ops) :
    ∃ s os, runOps step (init a) ops = .ok (s, os) ∧ TraceOk next (Ans a) [] ops os := by
  obtain ⟨r, e, -, h⟩ := Cxx.refine (Sim := Sim a) (step := step) (Pre := Pre a) (next := next) (Ans := Ans a) (fun s t i hs hp => step_tot hs i hp) (init_sim a) hv
  exact ⟨r.1, r.2, e, h⟩

/-- **C155** After any such history, a query that is not a range in the sequence fails the assertion. -/
theorem range_refused (a : List Int) (ops : List Op) (hv : ValidOps (Pre a) next [] ops) (l r : Int) (hlr : ¬ (0 ≤ l ∧ l ≤ r ∧ r ≤ a.length)) :
    ∃ s os, runOps step (init a) ops = .ok (s, os) ∧ step s (.addQuery l r) = .error .assertion := by
  obtain ⟨q, e, hs, -⟩ := Cxx.refine (Sim := Sim a) (step := step) (Pre := Pre a) (next := next) (Ans := Ans a) (fun s t i hs hp => step_tot hs i hp) (init_sim a) hv
  refine ⟨q.1, q.2, e, ?_⟩
  show (addQuery q.1 l r >>= fun p => (.ok (p.1, .id p.2) : M (Obj × Out))) = _
  unfold addQuery
  rw [hs.ha, decide_eq_false (by simpa using hlr), check_false, err_bind, err_bind]

/-! ### The hypotheses are satisfiable -/

/-- A history with equal right ends, an empty range, and queries added after an answer. -/
def sample : List Op := [.solve, .addQuery 0 5, .addQuery 1 3, .addQuery 2 5, .addQuery 5 5, .solve, .addQuery 1 5, .addQuery 0 0, .solve]

example : ValidOps (Pre [7, -1, 7, 7, 2]) next [] sample := by
  simp [sample, ValidOps, Pre, next]

example : (runOps step (init [7, -1, 7, 7, 2]) sample).map (·.2) =
    .ok [.ans [], .id 0, .id 1, .id 2, .id 3, .ans [3, 2, 2, 0], .id 4, .id 5, .ans [3, 2, 2, 0, 3, 0]] := by decide +kernel

example : ¬ ((0 : Int) ≤ 3 ∧ (3 : Int) ≤ 2 ∧ (2 : Int) ≤ ([7, -1, 7, 7, 2] : List Int).length) := by decide

end RangeCountDistinct
