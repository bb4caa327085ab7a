import Verif.Proof.CycleDetection

/-! # C158: cycle detection in a directed graph -/

namespace CycleDetection
open Cxx

variable {W : Type} [Inhabited W]

/-- **C158.** For every directed graph the search ends without undefined behaviour. It returns a cycle that passes through no vertex twice, as a list of edges in order,
or nothing, and nothing only if the graph has no closed walk. -/
theorem get_cycle_directed_correct (g : Array (List (Nat × W))) (hg : WF g) :
    ∃ r, getCycleDirected g = .ok r ∧ (∀ es, r = some es → IsCycle g es) ∧ (r = none → Acyclic g) := by
  obtain ⟨r, e, h1, h2⟩ := outer_tot hg (List.range g.size) [] _ (fun i hi => List.mem_range.mp hi) (init_inv g)
  refine ⟨r, e, h1, fun hr => ?_⟩
  obtain ⟨G, g1, g2, g3⟩ := h2 hr
  exact acyclic_of_topo hg g1 g2 fun v hv => g3 v (List.mem_range.mpr hv)

/-- **C158.** A cycle is returned exactly for the graphs that have a closed walk. -/
theorem get_cycle_directed_iff (g : Array (List (Nat × W))) (hg : WF g) :
    ∃ r, getCycleDirected g = .ok r ∧ (r = none ↔ Acyclic g) := by
  obtain ⟨r, e, h1, h2⟩ := get_cycle_directed_correct g hg
  refine ⟨r, e, h2, fun ha => ?_⟩
  cases r with
  | none => rfl
  | some es =>
    obtain ⟨c1, -, v, hw⟩ := h1 es rfl
    exact absurd (ha v es hw) c1

/-! ### The hypotheses are satisfiable -/

/-- A graph with a cycle that the search meets behind a tail and a finished vertex. -/
def sample : Array (List (Nat × Nat)) := #[[(1, 10), (2, 11)], [], [(1, 12), (3, 13)], [(4, 14)], [(1, 15), (2, 16)]]

example : WF sample := by
  intro u e he
  rcases u with _ | _ | _ | _ | _ | u <;> simp [adj, sample] at he ⊢ <;> rcases he with rfl | rfl <;> decide

example : getCycleDirected sample = .ok (some [(3, 13), (4, 14), (2, 16)]) := by decide +kernel
example : getCycleDirected (#[[(1, ()), (2, ())], [(2, ())], []] : Array (List (Nat × Unit))) = .ok none := by decide +kernel
example : getCycleDirected (#[[], [(1, ())]] : Array (List (Nat × Unit))) = .ok (some [(1, ())]) := by decide +kernel

end CycleDetection
