import Verif.Model.ModTables
import Mathlib.Data.Nat.Factorial.Basic
import Mathlib.Data.Nat.Choose.Basic
import Mathlib.Algebra.BigOperators.Group.List.Basic

/-!
What the calls on a table of factorials should return.
-/

namespace Factorial
variable {F : Type} [Field F]

/-- The product of the factorials. -/
def prodFac (ds : List Int) : F := (ds.map fun d => (d.toNat.factorial : F)).prod

/-- The argument a call passes to `ensure`. -/
def Op.arg : Op → Int
  | .fac i => i
  | .facInv i => i
  | .binom n _ => n
  | .polynom n _ => n
  | .perm n _ => n

/-- The specified answers. -/
def Ans (op : Op) (x : F) : Prop :=
  match op with
  | .fac i => x = (i.factorial : F)
  | .facInv i => x * (i.factorial : F) = 1
  | .binom n r => x = if 0 ≤ n ∧ 0 ≤ r then (n.toNat.choose r.toNat : F) else 0
  | .polynom n ds => if (∀ d ∈ ds, 0 ≤ d) ∧ 0 ≤ n ∧ ds.sum ≤ n then
      (prodFac ds : F) * ((n - ds.sum).toNat.factorial : F) ≠ 0 ∧ x * (prodFac ds * ((n - ds.sum).toNat.factorial : F)) = (n.toNat.factorial : F) else x = 0
  | .perm n r => x = if 0 ≤ n ∧ 0 ≤ r then (n.toNat.descFactorial r.toNat : F) else 0

end Factorial
