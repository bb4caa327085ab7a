import Verif.Model.Mo

/-!
The contract of the callbacks of Mo's algorithm.
-/

namespace Mo
open Cxx
variable {S T : Type}

/-- What the callbacks have to do: `Rep l r s` says that the state describes the range `[l, r)`; they are only called for ranges inside `[0, n)`. -/
structure Ok (n : Nat) (c : Callbacks S T) (Rep : Nat → Nat → S → Prop) (Ans : Nat → Nat → T → Prop) : Prop where
  addL : ∀ l r s, l < r → r ≤ n → Rep (l + 1) r s → Tot (c.addL l r s) (Rep l r)
  delL : ∀ l r s, l < r → r ≤ n → Rep l r s → Tot (c.delL l r s) (Rep (l + 1) r)
  addR : ∀ l r s, l ≤ r → r < n → Rep l r s → Tot (c.addR l r s) (Rep l (r + 1))
  delR : ∀ l r s, l ≤ r → r < n → Rep l (r + 1) s → Tot (c.delR l r s) (Rep l r)
  eval : ∀ l r s, l ≤ r → r ≤ n → Rep l r s → Tot (c.eval s) (Ans l r)

end Mo
