import Verif.Proof.SlopeTrick

/-!
# C115: `SlopeTrick` maintains a convex piecewise linear function exactly

For every history of calls — adding constants and hinge functions, taking running minima from either side, shifting, and taking sliding
window minima — `min()` is the least value of the function so defined over *all* integers and `argmin_range()` gives exactly its minimisers.
-/

namespace SlopeTrick
open Cxx

/-- Every history of valid calls runs without undefined behaviour and every answer is the one for the function it denotes. -/
theorem history_correct (ops : List Op) (hv : ValidOps Pre next zero ops) :
    ∃ s os, runOps step init ops = .ok (s, os) ∧ TraceOk next Ans zero ops os := by
  obtain ⟨r, e, -, h⟩ := Cxx.refine (Sim := Sim) (step := step) (Pre := Pre) (next := next) (Ans := Ans)
    (fun s t i hs hp => step_tot hs i hp) sim_init hv
  exact ⟨r.1, r.2, e, h⟩

/-- The last call of a valid history, if it is `min()`, returns the least value of the function the history denotes. -/
theorem min_correct (ops : List Op) (hv : ValidOps Pre next zero ops) :
    ∃ s os, runOps step init ops = .ok (s, os) ∧ IsLeast (Set.range (ops.foldl next zero).f) (SlopeTrick.min s) := by
  obtain ⟨r, e, ⟨L, R, hr, hf⟩, -⟩ := Cxx.refine (Sim := Sim) (step := step) (Pre := Pre) (next := next) (Ans := Ans)
    (fun s t i hs hp => step_tot hs i hp) sim_init hv
  refine ⟨r.1, r.2, e, ?_⟩
  rw [hf]
  exact isLeast_F hr.lr

/-- A window with its ends exchanged is rejected. -/
theorem window_assert (s : State) (a b : Int) (h : b < a) : window s a b = .error .assertion := by
  unfold window
  rw [decide_eq_false (by omega), check_false]
  rfl

/-! ### The hypotheses are satisfiable -/

theorem fits_of {f : Int → Int} (h0 : ∀ x, 0 ≤ f x) (c : Int) (hc : f c < 2 ^ 63) :
    -2 ^ 63 ≤ sInf (Set.range f) ∧ sInf (Set.range f) < 2 ^ 63 := by
  have h1 : 0 ≤ sInf (Set.range f) := le_csInf (Set.range_nonempty f) (by rintro _ ⟨x, rfl⟩; exact h0 x)
  have h2 : sInf (Set.range f) ≤ f c := csInf_le ⟨0, by rintro _ ⟨x, rfl⟩; exact h0 x⟩ ⟨c, rfl⟩
  omega

/-- `|x - 3|`, plus `max(0, x - 1)`, then the least value over `[x - 2, x + 1]`, then running minima from the left. -/
def sample : List Op := [.addAbs 3, .addRight 1, .window (-1) 2, .argminRange, .cumMinLeft, .min]

theorem sample_valid : ValidOps Pre next zero sample := by
  have n0 : ∀ x : Int, 0 ≤ |x - 3| := fun x => abs_nonneg _
  have n1 : ∀ x : Int, 0 ≤ (0 : Int) + |x - 3| + max 0 (x - 1) := fun x => by have := n0 x; omega
  have w0 : ∀ x, 0 ≤ sInf ((fun x : Int => (0 : Int) + |x - 3| + max 0 (x - 1)) '' {y | x - 2 ≤ y ∧ y ≤ x - -1}) := by
    intro x
    refine le_csInf ⟨_, x, ⟨by omega, by omega⟩, rfl⟩ ?_
    rintro _ ⟨y, -, rfl⟩
    exact n1 y
  have w1 : sInf ((fun x : Int => (0 : Int) + |x - 3| + max 0 (x - 1)) '' {y | (3 : Int) - 2 ≤ y ∧ y ≤ 3 - -1}) ≤ 2 := by
    apply csInf_le ⟨0, by rintro _ ⟨y, -, rfl⟩; exact n1 y⟩
    exact ⟨3, ⟨by decide, by decide⟩, by decide⟩
  have fw := fits_of w0 3 (by omega)
  refine ⟨⟨by decide, by decide, fits_of (fun x => by have := n0 x; show (0 : Int) ≤ 0 + |x - 3|; omega) 3 (by decide)⟩,
    ⟨by decide, by decide, fits_of n1 3 (by decide)⟩, ⟨by decide, by decide, fw⟩, ⟨trivial, by decide, fw⟩, ⟨trivial, by decide, ?_⟩,
    ⟨trivial, by decide, ?_⟩, trivial⟩
  all_goals
    refine fits_of (fun x => le_csInf ⟨_, x, le_refl x, rfl⟩ ?_) 3 ?_
    · rintro _ ⟨y, -, rfl⟩
      exact w0 y
    · refine lt_of_le_of_lt (csInf_le ⟨0, ?_⟩ ⟨3, le_refl (3 : Int), rfl⟩) (lt_of_le_of_lt w1 (by decide))
      rintro _ ⟨y, -, rfl⟩
      exact w0 y

example : runOps step init sample = .ok (⟨2, -1, 2, [1, -inf], [inf]⟩, [.unit, .unit, .unit, .range 0 5, .unit, .val 2]) := by decide +kernel

example : ∃ s os, runOps step init sample = .ok (s, os) ∧ TraceOk next Ans zero sample os := history_correct sample sample_valid

end SlopeTrick
