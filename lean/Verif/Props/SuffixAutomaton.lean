import Verif.Proof.SuffixAutomaton

/-!
# Property theorems for `SuffixAutomaton`

`build s` is the automaton of the sequence `s`, made by appending its symbols in turn.
-/

namespace SuffixAutomaton
open Cxx Spec

variable {α : Type} [DecidableEq α]

/-- The automaton accepts the words that occur in the sequence, the empty one included. -/
theorem accept_correct (s : List α) : ∃ st, build s = .ok st ∧ ∀ t, ∃ b, accept st t = .ok b ∧ (b = true ↔ t <:+: s) := by
  obtain ⟨st, e, L, h⟩ := build_tot s
  refine ⟨st, e, fun t => ?_⟩
  obtain ⟨r, hr, h1, h2⟩ := h.transition t
  refine ⟨r.isSome, by unfold accept; rw [hr]; rfl, ?_⟩
  cases r with
  | none => exact ⟨fun h => absurd h (by simp), fun hi => absurd hi (h2 rfl)⟩
  | some u => exact ⟨fun _ => (h1 u rfl).2.1, fun _ => rfl⟩

example : (build [0, 1, 1, 0]).bind (fun st => accept st [1, 0]) = .ok true := by decide +kernel
example : (build [0, 1, 1, 0]).bind (fun st => accept st [0, 0]) = .ok false := by decide +kernel

/-- Words are led to the same state just when they end at the same positions: the automaton has no redundant states. -/
theorem transition_correct (s : List α) : ∃ st, build s = .ok st ∧
    ∀ t t', t <:+: s → t' <:+: s → ∃ u u', transition st t = .ok (some u) ∧ transition st t' = .ok (some u') ∧ u < st.nodes.size ∧
      (u = u' ↔ ∀ p, p <+: s → (t <:+ p ↔ t' <:+ p)) := by
  obtain ⟨st, e, L, h⟩ := build_tot s
  refine ⟨st, e, fun t t' ht ht' => ?_⟩
  obtain ⟨r, hr, h1, h2⟩ := h.transition t
  obtain ⟨r', hr', h1', h2'⟩ := h.transition t'
  cases r with
  | none => exact absurd ht (h2 rfl)
  | some u =>
    cases r' with
    | none => exact absurd ht' (h2' rfl)
    | some u' =>
      obtain ⟨a, b⟩ := h1 u rfl
      obtain ⟨a', b'⟩ := h1' u' rfl
      refine ⟨u, u', hr, hr', a, ?_⟩
      rw [← cl_same b b']
      exact ⟨fun e => by rw [e], fun e => h.inj u u' a a' e⟩

/-- Every state is the state of some word. -/
theorem states_used (s : List α) : ∃ st, build s = .ok st ∧ ∀ u, u < st.nodes.size → ∃ t, t <:+: s ∧ transition st t = .ok (some u) := by
  obtain ⟨st, e, L, h⟩ := build_tot s
  refine ⟨st, e, fun u hu => ⟨L u, (h.isCan hu).1, ?_⟩⟩
  obtain ⟨r, hr, h1, h2⟩ := h.transition (L u)
  cases r with
  | none => exact absurd (h.isCan hu).1 (h2 rfl)
  | some u' =>
    obtain ⟨a, b⟩ := h1 u' rfl
    rw [hr, h.inj u u' hu a (cl_unique (cl_self (h.isCan hu)) b)]

example : (build [0, 1, 1, 0]).map (·.nodes.size) = .ok 6 := by decide +kernel
example : (build [0, 1, 1, 0]).bind (fun st => transition st [1]) = .ok (some 4) := by decide +kernel

end SuffixAutomaton
