import Verif.Proof.SCCTournament
import Mathlib.Logic.Relation

/-! # Theorems about `scc_tournament.hpp` -/

namespace SCCTournamentProps
open Cxx Tournament SCCTournament

/-- **C93** From the in-degrees of any tournament, the function computes its strongly connected components in topological order. -/
theorem scc_correct (n : Nat) (T : Nat → Nat → Prop) (hT : IsTournament n T) (deg : Array Nat) (hn : deg.size = n)
    (hdeg : ∀ v, v < n → deg[v]? = some (inDeg n T v)) : ∃ C, scc deg = .ok C ∧ IsSCC n T C := by
  obtain ⟨C, e, h⟩ := scc_tot hn hT fun v hv => by unfold at'; rw [hdeg v hv]; rfl
  exact ⟨C, e, h⟩

/-- A 3-cycle `1 → 2 → 3 → 1` followed by vertex `0`. -/
def sample (u v : Nat) : Prop := (u, v) ∈ [(1, 2), (2, 3), (3, 1), (1, 0), (2, 0), (3, 0)]

instance (u v : Nat) : Decidable (sample u v) := by unfold sample; infer_instance

theorem sample_tournament : IsTournament 4 sample := by
  refine ⟨?_, ?_, ?_⟩
  · intro u v h
    simp only [sample, List.mem_cons, Prod.mk.injEq, List.not_mem_nil, or_false] at h
    omega
  · have : ∀ u, u < 4 → ∀ v, v < 4 → u ≠ v → (sample u v ∨ sample v u) := by decide
    exact fun u v hu hv => this u hu v hv
  · intro u v h h'
    simp only [sample, List.mem_cons, Prod.mk.injEq, List.not_mem_nil, or_false] at h h'
    omega

/-- The hypotheses are met by this tournament, and the result is computed. -/
example : ∀ v, v < 4 → (#[3, 1, 1, 1] : Array Nat)[v]? = some (inDeg 4 sample v) := by
  have h : ∀ v, inDeg 4 sample v = ((Finset.range 4).filter fun u => sample u v).card := fun v => by unfold inDeg; congr
  intro v hv
  rw [h]
  revert v
  decide

example : scc #[3, 1, 1, 1] = .ok [[1, 2, 3], [0]] := by decide +kernel

end SCCTournamentProps
