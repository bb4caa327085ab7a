import Verif.Proof.MonotonicCHT

/-!
# C153: `MonotonicCHT`

For every history of `add_line` and `query` in which each new slope is not greater than all slopes so far or not less than all of them, and in which the query
points are monotone where the query tag says so, `query(x)` is the least (greatest) value at `x` of all lines added so far.
-/

namespace MonotonicCHT
open Cxx

/-- **C153** Every valid history runs without failing an assertion and every answer is right. -/
theorem history_correct (isMin : Bool) (tag : Tag) (ops : List Op) (hv : ValidOps (Pre tag) next ⟨[], []⟩ ops) :
    ∃ s os, runOps (step isMin tag) (init tag) ops = .ok (s, os) ∧ TraceOk next (Ans isMin) ⟨[], []⟩ ops os := by
  obtain ⟨r, e, -, h⟩ := Cxx.refine (Sim := Sim isMin tag) (step := step isMin tag) (Pre := Pre tag) (next := next) (Ans := Ans isMin)
    (fun s t i hs hp => step_tot hs i hp) (init_sim isMin tag) hv
  exact ⟨r.1, r.2, e, h⟩

/-- The abstract state after some calls. -/
def after (ops : List Op) : State := ops.foldl next ⟨[], []⟩

theorem sim_after (isMin : Bool) (tag : Tag) (ops : List Op) (hv : ValidOps (Pre tag) next ⟨[], []⟩ ops) :
    ∃ s os, runOps (step isMin tag) (init tag) ops = .ok (s, os) ∧ Sim isMin tag s (after ops) := by
  obtain ⟨r, e, h, -⟩ := Cxx.refine (Sim := Sim isMin tag) (step := step isMin tag) (Pre := Pre tag) (next := next) (Ans := Ans isMin)
    (fun s t i hs hp => step_tot hs i hp) (init_sim isMin tag) hv
  exact ⟨r.1, r.2, e, h⟩

/-- **C153** A slope strictly between two earlier slopes is refused by the assertion. -/
theorem slope_refused (isMin : Bool) (tag : Tag) (ops : List Op) (hv : ValidOps (Pre tag) next ⟨[], []⟩ ops) (a b : Int) (ha : -2 ^ 63 < a ∧ a < 2 ^ 63) (hb : -2 ^ 63 < b ∧ b < 2 ^ 63)
    (h1 : ∃ l ∈ (after ops).lines, l.1 < a) (h2 : ∃ l ∈ (after ops).lines, a < l.1) :
    ∃ s os, runOps (step isMin tag) (init tag) ops = .ok (s, os) ∧ step isMin tag s (.addLine a b) = .error .assertion := by
  obtain ⟨s, os, e, h⟩ := sim_after isMin tag ops hv
  refine ⟨s, os, e, ?_⟩
  obtain ⟨l1, m1, k1⟩ := h1
  obtain ⟨l2, m2, k2⟩ := h2
  have q1 := h.minB l1 m1
  have q2 := h.minB l2 m2
  have q3 := h.maxB l1 m1
  have q4 := h.maxB l2 m2
  unfold step Obj.addLine
  dsimp only
  unfold sgn at q1 q2 q3 q4
  cases isMin
  · simp only [Bool.false_eq_true, if_false] at q1 q2 q3 q4 ⊢
    rw [i64_ok ⟨by omega, by omega⟩, ok_bind, i64_ok ⟨by omega, by omega⟩, ok_bind, if_neg (by omega), if_neg (by omega), err_bind]
  · simp only [if_true] at q1 q2 q3 q4 ⊢
    rw [pure_eq, ok_bind, pure_eq, ok_bind, if_neg (by omega), if_neg (by omega), err_bind]

/-- **C153** With `inc_query_tag` a point less than an earlier one is refused by the assertion. -/
theorem point_refused_inc (isMin : Bool) (ops : List Op) (hv : ValidOps (Pre .inc) next ⟨[], []⟩ ops) (x : Int) (hx : ∃ y ∈ (after ops).asked, x < y) :
    ∃ s os, runOps (step isMin .inc) (init .inc) ops = .ok (s, os) ∧ step isMin .inc s (.query x) = .error .assertion := by
  obtain ⟨s, os, e, h⟩ := sim_after isMin .inc ops hv
  refine ⟨s, os, e, ?_⟩
  obtain ⟨y, hy, hlt⟩ := hx
  have := h.askInc rfl y hy
  unfold step Obj.query Obj.raw
  dsimp only
  rw [decide_eq_false (by omega), check_false, err_bind, err_bind, err_bind]

/-- **C153** With `dec_query_tag` a point greater than an earlier one is refused by the assertion. -/
theorem point_refused_dec (isMin : Bool) (ops : List Op) (hv : ValidOps (Pre .dec) next ⟨[], []⟩ ops) (x : Int) (hx : ∃ y ∈ (after ops).asked, y < x) :
    ∃ s os, runOps (step isMin .dec) (init .dec) ops = .ok (s, os) ∧ step isMin .dec s (.query x) = .error .assertion := by
  obtain ⟨s, os, e, h⟩ := sim_after isMin .dec ops hv
  refine ⟨s, os, e, ?_⟩
  obtain ⟨y, hy, hlt⟩ := hx
  have := h.askDec rfl y hy
  unfold step Obj.query Obj.raw
  dsimp only
  rw [decide_eq_false (by omega), check_false, err_bind, err_bind, err_bind]

/-- **C153** A query before any line was added is refused by the assertion. -/
theorem empty_refused (isMin : Bool) (tag : Tag) (x : Int) (hx : -2 ^ 63 ≤ x ∧ x < 2 ^ 63) : step isMin tag (init tag) (.query x) = .error .assertion := by
  unfold step Obj.query Obj.raw init
  cases tag
  · dsimp only
    rw [if_neg (by decide), decide_eq_true (by omega), check_true]
    rfl
  · dsimp only
    rw [if_pos rfl, decide_eq_true (by omega), check_true]
    rfl
  · rfl

/-! ### The hypotheses are satisfiable -/

/-- Lines added at both ends; increasing points. -/
def sample : List Op := [.addLine 0 5, .query (-3), .addLine 2 0, .addLine (-1) 8, .query 1, .addLine (-1) 7, .addLine 3 3, .query 2, .query 4, .addLine (-2) 20, .query 20]

example : ValidOps (Pre .inc) next ⟨[], []⟩ sample := by decide +kernel

example : ValidOps (Pre .non) next ⟨[], []⟩ (sample ++ [.query (-7), .query 3]) := by decide +kernel

example : (do
    let r ← runOps (step true .inc) (init .inc) sample
    return r.2 : M (List Out)) = .ok [.unit, .val 5, .unit, .unit, .val 2, .unit, .unit, .val 4, .val 3, .unit, .val (-20)] := by
  decide +kernel

example : (do
    let r ← runOps (step false .non) (init .non) (sample ++ [.query (-7), .query 3])
    return r.2 : M (List Out)) = .ok [.unit, .val 5, .unit, .unit, .val 7, .unit, .unit, .val 9, .val 15, .unit, .val 63, .val 34, .val 14] := by
  decide +kernel

example : (∃ l ∈ (after sample).lines, l.1 < 1) ∧ (∃ l ∈ (after sample).lines, 1 < l.1) ∧ ∃ y ∈ (after sample).asked, 3 < y :=
  ⟨⟨(0, 5), by decide, by decide⟩, ⟨(2, 0), by decide, by decide⟩, 4, by decide, by decide⟩

example : ValidOps (Pre .dec) next ⟨[], []⟩ [.addLine 0 5, .query 9, .addLine 1 1, .query 3, .query 3, .addLine 4 4, .query (-2)] := by decide +kernel

end MonotonicCHT
