import Verif.Proof.TwoSat

/-! # C157: the constraints of `TwoSAT` -/

namespace TwoSat
open Cxx

/-- **C157.** For every solver that meets the contract of `atcoder::two_sat`, every number of variables and every history of constraints and questions, `satisfiable` says
whether some assignment satisfies every constraint so far (`implies`, `set`, `at_most_one`, `exactly_one` with their meaning), and `answer` is such an assignment. -/
theorem history_correct (solver : Nat → List Clause → Bool × List Bool) (hc : Contract solver) (n : Nat) (ops : List Op) (hv : ValidOps (Pre n) next ⟨[], none⟩ ops) :
    ∃ s os, runOps (step solver) (init n) ops = .ok (s, os) ∧ TraceOk next (Ans n) ⟨[], none⟩ ops os := by
  obtain ⟨r, e, -, h⟩ := Cxx.refine (Sim := Sim n) (step := step solver) (Pre := Pre n) (next := next) (Ans := Ans n) (fun s t i hs hp => step_tot hc hs i hp) (init_sim n) hv
  exact ⟨r.1, r.2, e, h⟩

/-! ### The hypotheses are satisfiable -/

/-- All assignments of `n` variables. -/
def assignments : Nat → List (List Bool)
  | 0 => [[]]
  | n + 1 => (assignments n).flatMap fun A => [true :: A, false :: A]

theorem mem_assignments : ∀ n A, A ∈ assignments n ↔ A.length = n
  | 0, A => by simp [assignments]
  | n + 1, A => by
    cases A with
    | nil => simp [assignments]
    | cons b A =>
      have := mem_assignments n A
      cases b <;> simp [assignments, this]

instance (A : List Bool) (c : Clause) : Decidable (c.Holds A) := by unfold Clause.Holds; infer_instance

/-- A solver that tries all assignments. -/
def brute (n : Nat) (cs : List Clause) : Bool × List Bool :=
  match (assignments n).find? fun A => cs.all fun c => decide (c.Holds A) with
  | some A => (true, A)
  | none => (false, [])

/-- The contract can be met. -/
theorem brute_contract : Contract brute := by
  intro n cs _
  unfold brute
  cases hf : (assignments n).find? fun A => cs.all fun c => decide (c.Holds A) with
  | some A =>
    have h1 := List.find?_some hf
    have h2 := (mem_assignments n A).mp (List.mem_of_find?_eq_some hf)
    have h3 : ∀ c ∈ cs, c.Holds A := by simpa using h1
    exact ⟨⟨fun _ => ⟨A, h2, h3⟩, fun _ => rfl⟩, fun _ => ⟨h2, h3⟩⟩
  | none =>
    refine ⟨⟨fun h => (by cases h), ?_⟩, fun h => (by cases h)⟩
    rintro ⟨A, h1, h2⟩
    rw [List.find?_eq_none] at hf
    have := hf A ((mem_assignments n A).mpr h1)
    exact absurd (by simpa using h2) this

/-- A history with all constraints. -/
def sample : List Op := [.exactlyOne 0 true 1 true, .satisfiable, .answer, .implies 0 true 2 true, .atMostOne 0 true 2 true, .satisfiable, .answer, .set 2 false, .addClause 1 false 2 true, .satisfiable]

example : ValidOps (Pre 3) next ⟨[], none⟩ sample := by decide

example : (runOps (step brute) (init 3) sample).map (·.2) =
    .ok [.unit, .bool true, .vec [false, true, true], .unit, .unit, .bool true, .vec [false, true, true], .unit, .unit, .bool false] := by decide +kernel

end TwoSat
