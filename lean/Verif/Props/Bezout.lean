import Verif.Proof.Bezout

/-!
# C162: `BezoutEquation` and `BezoutEquationSolution`

All solutions of `a x + b y = z` under any history of restrictions of `x` and `y`. Coefficients and bounds are below `2^60`, and `b ≠ 0` unless `a = b = 0`: for `b = 0 ≠ a`
the code divides by zero (see below).
-/

namespace Bezout
open Cxx

/-- The hypotheses on the history. -/
structure Valid (a b z : Int) (ops : List Op) : Prop where
  ha : Small a
  hb : Small b
  hz : Small z
  hab : b = 0 → a = 0
  hops : ∀ c ∈ cons ops, Small c.bound

/-- **C162** `has_solution()` tells whether there is a solution. -/
theorem hasSolution_correct_partial (a b z : Int) (ops : List Op) (h : Valid a b z ops) :
    ∃ s, run a b z ops = .ok s ∧ (hasSolution s = true ↔ ∃ x y, Solves a b z (cons ops) x y) := by
  obtain ⟨s, e, hr⟩ := run_tot h.ha h.hb h.hz h.hab ops h.hops
  exact ⟨s, e, hasSolution_iff hr⟩

/-- **C162** The calls that restrict the solutions return whether the restrictions of `x` alone and those of `y` alone can be satisfied. -/
theorem step_correct_partial (a b z : Int) (ops : List Op) (o : Op) (h : Valid a b z (ops ++ [o])) :
    ∃ s s' r, run a b z ops = .ok s ∧ step s o = .ok (s', r) ∧ run a b z (ops ++ [o]) = .ok s' ∧
      (r = true ↔ (∃ x y, Solves a b z ((cons (ops ++ [o])).filter Con.isX) x y) ∧ (∃ x y, Solves a b z ((cons (ops ++ [o])).filter fun c => !c.isX) x y)) := by
  have e : cons (ops ++ [o]) = cons ops ++ o.cons := by simp [cons]
  have ho := h.hops
  rw [e] at ho
  obtain ⟨s, e1, hr⟩ := run_tot h.ha h.hb h.hz h.hab ops (fun c hc => ho c (List.mem_append_left _ hc))
  obtain ⟨⟨s', r⟩, e2, hs⟩ := step_tot hr (o := o) (fun c hc => ho c (List.mem_append_right _ hc))
  refine ⟨s, s', r, e1, e2, ?_, ?_⟩
  · unfold run at e1 ⊢
    cases hsol : solve a b z with
    | error x =>
      rw [hsol] at e1
      cases e1
    | ok s0 =>
      rw [hsol, ok_bind] at e1
      rw [ok_bind, List.foldlM_append, e1, ok_bind]
      show (step s o >>= fun p => pure p.1) >>= pure = _
      rw [e2]
      rfl
  · rw [← xsat_iff, ← ysat_iff, e]
    exact hs.2

/-- **C162** `count()` returns the number of solutions, and `nullopt` if there are infinitely many (for `a` and `b` not both zero). -/
theorem count_correct_partial (a b z : Int) (ops : List Op) (h : Valid a b z ops) (hab : ¬ (a = 0 ∧ b = 0)) :
    ∃ s r, run a b z ops = .ok s ∧ count s = .ok r ∧ CountOk (solSet a b z (cons ops)) r := by
  obtain ⟨s, e, hr⟩ := run_tot h.ha h.hb h.hz h.hab ops h.hops
  obtain ⟨r, e', hc⟩ := count_tot hr hab
  exact ⟨s, r, e, e', hc⟩

/-- **C162** For `a = b = 0` the number of solutions is right if it is finite and fits into `long long`. -/
theorem count_zero_correct_partial (z : Int) (ops : List Op) (h : Valid 0 0 z ops) (hf : (solSet 0 0 z (cons ops)).Finite) (hc : (solSet 0 0 z (cons ops)).ncard < 2 ^ 63) :
    ∃ s, run 0 0 z ops = .ok s ∧ count s = .ok (some ((solSet 0 0 z (cons ops)).ncard : Int)) := by
  obtain ⟨s, e, hr⟩ := run_tot h.ha h.hb h.hz h.hab ops h.hops
  exact ⟨s, e, count_arb hr hf hc⟩

/-- **C162** `xmin_solution()` returns a solution with the least `x`, if there is one below `2^62`. -/
theorem xmin_correct_partial (a b z : Int) (ops : List Op) (h : Valid a b z ops) (x y : Int) (hs : Solves a b z (cons ops) x y)
    (hm : ∀ x' y', Solves a b z (cons ops) x' y' → x ≤ x') (hf : Fit x y) :
    ∃ s y', run a b z ops = .ok s ∧ xminSolution s = .ok (x, y') ∧ Solves a b z (cons ops) x y' := by
  obtain ⟨s, e, hr⟩ := run_tot h.ha h.hb h.hz h.hab ops h.hops
  obtain ⟨y', e', hc⟩ := xmin_ok hr hs hm hf
  exact ⟨s, y', e, e', hc⟩

/-- **C162** `xmax_solution()` likewise. -/
theorem xmax_correct_partial (a b z : Int) (ops : List Op) (h : Valid a b z ops) (x y : Int) (hs : Solves a b z (cons ops) x y)
    (hm : ∀ x' y', Solves a b z (cons ops) x' y' → x' ≤ x) (hf : Fit x y) :
    ∃ s y', run a b z ops = .ok s ∧ xmaxSolution s = .ok (x, y') ∧ Solves a b z (cons ops) x y' := by
  obtain ⟨s, e, hr⟩ := run_tot h.ha h.hb h.hz h.hab ops h.hops
  obtain ⟨y', e', hc⟩ := xmax_ok hr hs hm hf
  exact ⟨s, y', e, e', hc⟩

/-- **C162** `ymin_solution()` likewise. -/
theorem ymin_correct_partial (a b z : Int) (ops : List Op) (h : Valid a b z ops) (x y : Int) (hs : Solves a b z (cons ops) x y)
    (hm : ∀ x' y', Solves a b z (cons ops) x' y' → y ≤ y') (hf : Fit x y) :
    ∃ s x', run a b z ops = .ok s ∧ yminSolution s = .ok (x', y) ∧ Solves a b z (cons ops) x' y := by
  obtain ⟨s, e, hr⟩ := run_tot h.ha h.hb h.hz h.hab ops h.hops
  obtain ⟨y', e', hc⟩ := ymin_ok hr hs hm hf
  exact ⟨s, y', e, e', hc⟩

/-- **C162** `ymax_solution()` likewise. -/
theorem ymax_correct_partial (a b z : Int) (ops : List Op) (h : Valid a b z ops) (x y : Int) (hs : Solves a b z (cons ops) x y)
    (hm : ∀ x' y', Solves a b z (cons ops) x' y' → y' ≤ y) (hf : Fit x y) :
    ∃ s x', run a b z ops = .ok s ∧ ymaxSolution s = .ok (x', y) ∧ Solves a b z (cons ops) x' y := by
  obtain ⟨s, e, hr⟩ := run_tot h.ha h.hb h.hz h.hab ops h.hops
  obtain ⟨y', e', hc⟩ := ymax_ok hr hs hm hf
  exact ⟨s, y', e, e', hc⟩

/-- Without a solution the four functions fail an assertion. -/
theorem no_solution_aborts (a b z : Int) (ops : List Op) (h : Valid a b z ops) (hn : ∀ x y, ¬ Solves a b z (cons ops) x y) :
    ∃ s, run a b z ops = .ok s ∧ xminSolution s = .error .assertion ∧ xmaxSolution s = .error .assertion ∧ yminSolution s = .error .assertion ∧
      ymaxSolution s = .error .assertion := by
  obtain ⟨s, e, hr⟩ := run_tot h.ha h.hb h.hz h.hab ops h.hops
  have hf : hasSolution s = false := by
    by_contra hh
    obtain ⟨x, y, hs⟩ := (hasSolution_iff hr).mp (by simpa using hh)
    exact hn x y hs
  refine ⟨s, e, ?_, ?_, ?_, ?_⟩
  · unfold xminSolution
    rw [hf]
    rfl
  · unfold xmaxSolution
    rw [hf]
    rfl
  · unfold yminSolution
    rw [hf]
    rfl
  · unfold ymaxSolution
    rw [hf]
    rfl

/-- **C162 is violated** for `b = 0`: `3 x + 0 y = 6` has solutions, but `solve` divides by zero. -/
theorem solve_b_zero_counterexample : Solves 3 0 6 [] 2 0 ∧ run 3 0 6 [] = .error .ub := by
  refine ⟨⟨by decide, by simp⟩, by decide +kernel⟩

/-- **C162 is violated** for `a = b = 0`: without restrictions the computation of `count()` overflows; with `x = 0` and `y ≥ 0` it returns `2^62` instead of `nullopt`. -/
theorem count_zero_counterexample : (run 0 0 0 [] >>= count) = .error .ub ∧ (run 0 0 0 [.xRange 0 0, .minY 0] >>= count) = .ok (some (2 ^ 62)) ∧
    (solSet 0 0 0 (cons [.xRange 0 0, .minY 0])).Infinite := by
  refine ⟨by decide +kernel, by decide +kernel, ?_⟩
  have hi : Function.Injective (fun n : ℕ => ((0 : Int), (n : Int))) := by
    intro n m e
    injection e with _ e
    exact_mod_cast e
  refine (Set.infinite_range_of_injective hi).mono ?_
  rintro _ ⟨n, rfl⟩
  refine ⟨by simp, ?_⟩
  intro c hc
  simp only [cons, Op.cons, List.flatMap_cons, List.flatMap_nil, List.append_nil, List.cons_append, List.nil_append, List.mem_cons, List.not_mem_nil, or_false] at hc
  rcases hc with rfl | rfl | rfl <;> simp [Con.Holds]

/-! ### The hypotheses are satisfiable -/

example : Valid 6 (-10) 4 [.xRange (-7) 20, .maxY 11] := by
  refine ⟨⟨by decide, by decide⟩, ⟨by decide, by decide⟩, ⟨by decide, by decide⟩, fun h => (by cases h), ?_⟩
  intro c hc
  simp only [cons, Op.cons, List.flatMap_cons, List.flatMap_nil, List.append_nil, List.cons_append, List.nil_append, List.mem_cons, List.not_mem_nil, or_false] at hc
  rcases hc with rfl | rfl | rfl <;> exact ⟨by decide, by decide⟩

example : (run 6 (-10) 4 [.xRange (-7) 20, .maxY 11] >>= count) = .ok (some 6) ∧ (run 6 (-10) 4 [.xRange (-7) 20, .maxY 11] >>= xminSolution) = .ok (-6, -4) ∧
    (run 6 (-10) 4 [.xRange (-7) 20, .maxY 11] >>= ymaxSolution) = .ok (19, 11) := by decide +kernel

end Bezout
