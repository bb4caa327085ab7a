import Verif.Model.HornSAT

/-! # Horn formulas (docs/algorithm/horn_sat.md) -/

namespace HornSAT
open Cxx

/-- A clause: the conjunction of the variables `lhs` implies that variable `rhs` is `val`; a negative `rhs` stands for falsehood. -/
structure Clause where
  lhs : List Nat
  rhs : Int
  val : Bool

/-- The assignment `μ` satisfies the clause. -/
def Clause.Holds (μ : Nat → Bool) (c : Clause) : Prop := (∀ i ∈ c.lhs, μ i = true) → 0 ≤ c.rhs ∧ μ c.rhs.toNat = c.val

/-- The objects a user can obtain: clauses over the variables `0 .. n-1` are added and `satisfiable` is called, in any order. The list holds the clauses added so far. -/
inductive Reach (n : Nat) : Obj → List Clause → Prop
  | new : Reach n (new n) []
  | add {o o' : Obj} {cs : List Clause} (c : Clause) : Reach n o cs → (∀ i ∈ c.lhs, i < n) → c.rhs < n → addClause o c.lhs c.rhs c.val = .ok o' → Reach n o' (cs ++ [c])
  | sat {o o' : Obj} {cs : List Clause} {b : Bool} : Reach n o cs → satisfiable o = .ok (o', b) → Reach n o' cs

end HornSAT
