import Verif.Model.TwoSat

/-!
# Specification of `TwoSAT`

The abstract state is the set of assignments of `n` variables that satisfy every constraint so far, and that set at the last successful call of `satisfiable`.
-/

namespace TwoSat

/-- The value of a variable. -/
def val (A : List Bool) (x : Int) : Bool := A.getD x.toNat false

/-- The meaning of a call as a constraint on the assignment. -/
def Meaning (A : List Bool) : Op → Prop
  | .addClause x f y g => val A x = f ∨ val A y = g
  | .implies x f y g => val A x = f → val A y = g
  | .set x f => val A x = f
  | .atMostOne x f y g => ¬ (val A x = f ∧ val A y = g)
  | .exactlyOne x f y g => (val A x = f ∧ val A y ≠ g) ∨ (val A x ≠ f ∧ val A y = g)
  | .satisfiable => True
  | .answer => True

/-- Abstract state: the constraints so far, and those at the last call of `satisfiable`. -/
structure Abs where
  cs : List Op
  last : Option (List Op)

/-- The assignment satisfies all constraints. -/
def Sat (n : Nat) (cs : List Op) (A : List Bool) : Prop := A.length = n ∧ ∀ c ∈ cs, Meaning A c

/-- The effect of a call. -/
def next (t : Abs) : Op → Abs
  | .satisfiable => ⟨t.cs, some t.cs⟩
  | .answer => t
  | c => ⟨t.cs ++ [c], t.last⟩

/-- The variables exist. -/
def Pre (n : Nat) (_t : Abs) : Op → Prop
  | .addClause x _ y _ => (0 ≤ x ∧ x < n) ∧ 0 ≤ y ∧ y < n
  | .implies x _ y _ => (0 ≤ x ∧ x < n) ∧ 0 ≤ y ∧ y < n
  | .set x _ => 0 ≤ x ∧ x < n
  | .atMostOne x _ y _ => (0 ≤ x ∧ x < n) ∧ 0 ≤ y ∧ y < n
  | .exactlyOne x _ y _ => (0 ≤ x ∧ x < n) ∧ 0 ≤ y ∧ y < n
  | .satisfiable => True
  | .answer => True

instance (n : Nat) (t : Abs) (i : Op) : Decidable (Pre n t i) := by
  cases i <;> unfold Pre <;> infer_instance

/-- The right answers: `satisfiable` decides whether some assignment satisfies all constraints so far; `answer` is an assignment that satisfies all constraints present
at the last call of `satisfiable`, if these are satisfiable. -/
def Ans (n : Nat) (t : Abs) : Op → Out → Prop
  | .satisfiable, o => ∃ b, o = .bool b ∧ (b = true ↔ ∃ A, Sat n t.cs A)
  | .answer, o => ∃ A, o = .vec A ∧ ∀ cs, t.last = some cs → (∃ B, Sat n cs B) → Sat n cs A
  | _, o => o = .unit

/-- The assignment satisfies a clause. -/
def Clause.Holds (A : List Bool) (c : Clause) : Prop := A.getD c.x false = c.f ∨ A.getD c.y false = c.g

/-- The documented contract of `atcoder::two_sat::satisfiable`, for clauses over existing variables. -/
def Contract (solver : Nat → List Clause → Bool × List Bool) : Prop :=
  ∀ n cs, (∀ c ∈ cs, c.x < n ∧ c.y < n) →
    ((solver n cs).1 = true ↔ ∃ A : List Bool, A.length = n ∧ ∀ c ∈ cs, c.Holds A) ∧
    ((solver n cs).1 = true → (solver n cs).2.length = n ∧ ∀ c ∈ cs, c.Holds (solver n cs).2)

end TwoSat
