import Verif.Proof.HornSAT

/-! # C87: Horn satisfiability -/

namespace HornSATProps
open Cxx HornSAT

/-- **C87 (soundness).** Whatever clauses have been added and however often `satisfiable` has been called, `satisfiable` terminates, and if it returns true then `answer` returns an assignment of the `n` variables that satisfies every clause; after a false result `answer` stops at its assertion. -/
theorem hornSAT_sound (n : Nat) (o : Obj) (cs : List Clause) (hr : Reach n o cs) :
    ∃ o' b, satisfiable o = .ok (o', b) ∧ (b = true → ∃ a, answer o' = .ok a ∧ a.size = n ∧ ∀ c ∈ cs, c.Holds fun i => a.getD i false) ∧
      (b = false → answer o' = .error .assertion) := by
  obtain ⟨⟨o', b⟩, e, hI, h1, h2, -⟩ := satisfiable_tot (reach_inv hr)
  dsimp only at hI h1 h2
  refine ⟨o', b, e, fun hb => ⟨o'.ans, ?_, hI.ans, h2 hb⟩, fun hb => ?_⟩
  · unfold answer; rw [h1, hb]; rfl
  · unfold answer; rw [h1, hb]; rfl

/-- **C87 (completeness), restricted.** If no variable forced to false by a clause occurs on the left of a clause (in particular if all right-hand sides are positive variables or falsehood, a Horn formula in the usual sense), `satisfiable` returns true exactly if some assignment satisfies all clauses.
Missing: clauses with a negative right-hand side whose variable occurs on some left-hand side, see `hornSAT_incomplete`. -/
theorem hornSAT_complete_partial (n : Nat) (o : Obj) (cs : List Clause) (hr : Reach n o cs)
    (hneg : ∀ c ∈ cs, c.val = false → 0 ≤ c.rhs → ∀ c' ∈ cs, c.rhs.toNat ∉ c'.lhs) :
    ∃ o' b, satisfiable o = .ok (o', b) ∧ (b = true ↔ ∃ μ : Nat → Bool, ∀ c ∈ cs, c.Holds μ) := by
  obtain ⟨⟨o', b⟩, e, hI, h1, h2, h3⟩ := satisfiable_tot (reach_inv hr)
  dsimp only at hI h1 h2 h3
  refine ⟨o', b, e, fun hb => ⟨_, h2 hb⟩, fun hex => ?_⟩
  cases b with
  | true => rfl
  | false => exact absurd hex (h3 rfl hneg)

/-- Adding clauses over the variables always succeeds. -/
theorem hornSAT_add (n : Nat) (o : Obj) (cs : List Clause) (hr : Reach n o cs) (c : Clause) (h1 : ∀ i ∈ c.lhs, i < n) (h2 : c.rhs < n) :
    ∃ o', addClause o c.lhs c.rhs c.val = .ok o' ∧ Reach n o' (cs ++ [c]) := by
  obtain ⟨o', e, -⟩ := addClause_tot (reach_inv hr) c h1 h2
  exact ⟨o', e, hr.add c h1 h2 e⟩

/-- A run: a list of clauses is added to a new object, then `satisfiable` is called. -/
def run (n : Nat) (cs : List Clause) : M (Obj × Bool) := do
  let o ← forEach cs (new n) fun o c => addClause o c.lhs c.rhs c.val
  satisfiable o

example : ∃ o, Reach 3 o [⟨[], 0, true⟩, ⟨[0, 0], 1, true⟩, ⟨[0, 2], -1, true⟩] := by
  obtain ⟨o1, -, h1⟩ := hornSAT_add 3 _ _ .new ⟨[], 0, true⟩ (by decide) (by decide)
  obtain ⟨o2, -, h2⟩ := hornSAT_add 3 _ _ h1 ⟨[0, 0], 1, true⟩ (by decide) (by decide)
  obtain ⟨o3, -, h3⟩ := hornSAT_add 3 _ _ h2 ⟨[0, 2], -1, true⟩ (by decide) (by decide)
  exact ⟨o3, h3⟩

example : (run 3 [⟨[], 0, true⟩, ⟨[0, 0], 1, true⟩, ⟨[0, 2], -1, true⟩]).toOption.map (fun r => (r.1.ans, r.2)) = some (#[true, true, false], true) := by decide +kernel
example : (run 3 [⟨[], 0, true⟩, ⟨[0], 1, true⟩, ⟨[1], -1, true⟩]).toOption.map (fun r => r.2) = some false := by decide +kernel

/-- **C87 fails in general.** A variable set to false still counts as satisfied on left-hand sides (lines 43-44 do not look at `val`): for the formula `¬x0, ¬x1, x0 → x1`, which the all-false assignment satisfies, `satisfiable` returns false. -/
theorem hornSAT_incomplete :
    (run 2 [⟨[], 0, false⟩, ⟨[], 1, false⟩, ⟨[0], 1, true⟩]).toOption.map (fun r => r.2) = some false ∧
      ∀ c ∈ [(⟨[], 0, false⟩ : Clause), ⟨[], 1, false⟩, ⟨[0], 1, true⟩], c.Holds fun _ => false := by
  refine ⟨by decide +kernel, ?_⟩
  simp [Clause.Holds]

end HornSATProps
