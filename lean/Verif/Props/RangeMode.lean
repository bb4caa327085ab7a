import Verif.Proof.RangeMode
import Mathlib.Order.Defs.LinearOrder
import Mathlib.Data.Int.Order.Basic

/-!
# C183, C184: `StaticRangeModeQuery`
-/

namespace RangeMode
open Cxx

variable {T : Type} [LinearOrder T]

/-- **C183.** For a non-empty vector the constructor succeeds, and a query in range returns a value that occurs most often, with the number of times. -/
theorem query_correct (a : Array T) (hn : a.size ≠ 0) (l r : Nat) (hl : l < r) (hr : r ≤ a.size) :
    ∃ s x c, build a = .ok s ∧ query s l r = .ok (x, c) ∧ Spec.IsMode a l r x c := by
  obtain ⟨s, e, h⟩ := build_tot (a := a) (by omega)
  obtain ⟨⟨x, c⟩, e', m, h1, h2, h3⟩ := query_tot h hl hr
  dsimp only at h1 h2 h3
  have hall : ∀ y, Spec.occ a l r y ≤ c := fun y => by
    by_cases hy : Spec.occ a l r y = 0
    · omega
    · obtain ⟨v, hv⟩ := occ_mem hy
      rw [occ_eq hl.le hr hv]
      exact h3 v
  refine ⟨s, x, c, e, e', by rw [occ_eq hl.le hr h1, h2], ?_, hall⟩
  have hc := hall (a[l]'(by omega))
  have hp : 0 < Spec.occ a l r (a[l]'(by omega)) := by
    unfold Spec.occ
    rw [List.count_pos_iff, show r - l = (r - l - 1) + 1 by omega]
    rw [List.drop_eq_getElem_cons (by simpa using (show l < a.size by omega)), List.take_succ_cons]
    exact List.mem_cons.2 (.inl (by simp))
  omega

/-- **C183.** A query out of range fails an assertion. -/
theorem query_out_of_range (a : Array T) (hn : a.size ≠ 0) (l r : Int) (h : ¬ (0 ≤ l ∧ l < r ∧ r ≤ a.size)) :
    ∃ s, build a = .ok s ∧ query s l r = .error .assertion := by
  obtain ⟨s, e, hs⟩ := build_tot (a := a) (by omega)
  refine ⟨s, e, ?_⟩
  unfold query
  rw [hs.len, decide_eq_false h]
  rfl

/-- **C184** (what holds). The constructor succeeds for every vector that is not empty. -/
theorem build_partial (a : Array T) (hn : a.size ≠ 0) : ∃ s, build a = .ok s ∧ s.len = a.size := by
  obtain ⟨s, e, hs⟩ := build_tot (a := a) (by omega)
  exact ⟨s, e, hs.len⟩

/-- **C184 fails** for the empty vector: the block size is 0, and the number of blocks is a division by 0. -/
theorem build_counterexample : (build (#[] : Array Int)).map (fun s => s.len) = .error .ub := by decide +kernel

/-- The hypotheses are met, and a query over this vector has an answer as specified. -/
example : (#[(3 : Int), 1, 3, 1, 1, 2, 3, 3]).size ≠ 0 ∧ 5 ≤ (#[(3 : Int), 1, 3, 1, 1, 2, 3, 3]).size ∧ Spec.occ #[(3 : Int), 1, 3, 1, 1, 2, 3, 3] 1 5 1 = 3 ∧
    Spec.occ #[(3 : Int), 1, 3, 1, 1, 2, 3, 3] 1 5 3 = 1 ∧ ¬ Spec.IsMode #[(3 : Int), 1, 3, 1, 1, 2, 3, 3] 1 5 3 1 :=
  ⟨by decide, by decide, by decide, by decide, fun h => absurd (h.2.2 1) (by decide)⟩

end RangeMode
