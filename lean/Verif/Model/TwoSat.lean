import Verif.Cxx

/-!
# Model of `library/algorithm/two_sat.hpp`

The base class `atcoder::two_sat` is modelled by its interface: it stores the clauses, and `satisfiable()` computes an outcome and an assignment from them.
The computation itself is the parameter `solver` (its documented contract is a hypothesis of the theorems).
-/

namespace TwoSat
open Cxx

/-- A clause `(x = f) or (y = g)`. -/
structure Clause where
  x : Nat
  f : Bool
  y : Nat
  g : Bool
deriving DecidableEq, Repr

/-- `atcoder::two_sat` — the base class of line 7. -/
structure Obj where
  n : Nat
  cs : List Clause
  ans : List Bool

/-- `TwoSAT(n)` — lines 8-9: the inherited constructor. -/
def init (n : Nat) : Obj := ⟨n, [], List.replicate n false⟩

/-- `add_clause` of the base class: both variables must be in `[0, n)`. -/
def addClause (o : Obj) (x : Int) (f : Bool) (y : Int) (g : Bool) : M Obj := do
  check (decide (0 ≤ x ∧ x < o.n))
  check (decide (0 ≤ y ∧ y < o.n))
  return { o with cs := o.cs ++ [⟨x.toNat, f, y.toNat, g⟩] }

/-- `implies` — lines 11-13. -/
def implies (o : Obj) (x : Int) (f : Bool) (y : Int) (g : Bool) : M Obj := addClause o x (!f) y g

/-- `set` — lines 14-16. -/
def set (o : Obj) (x : Int) (f : Bool) : M Obj := addClause o x f x f

/-- `at_most_one` — lines 17-19. -/
def atMostOne (o : Obj) (x : Int) (f : Bool) (y : Int) (g : Bool) : M Obj := addClause o x (!f) y (!g)

/-- `exactly_one` — lines 20-23. -/
def exactlyOne (o : Obj) (x : Int) (f : Bool) (y : Int) (g : Bool) : M Obj := do
  let o ← addClause o x f y g
  addClause o x (!f) y (!g)

/-- A call of the public interface. -/
inductive Op
  | addClause (x : Int) (f : Bool) (y : Int) (g : Bool)
  | implies (x : Int) (f : Bool) (y : Int) (g : Bool)
  | set (x : Int) (f : Bool)
  | atMostOne (x : Int) (f : Bool) (y : Int) (g : Bool)
  | exactlyOne (x : Int) (f : Bool) (y : Int) (g : Bool)
  | satisfiable
  | answer
deriving DecidableEq

/-- An answer. -/
inductive Out
  | unit
  | bool (b : Bool)
  | vec (l : List Bool)
deriving DecidableEq

/-- The effect of a call. -/
def step (solver : Nat → List Clause → Bool × List Bool) (o : Obj) : Op → M (Obj × Out)
  | .addClause x f y g => do return (← addClause o x f y g, .unit)
  | .implies x f y g => do return (← implies o x f y g, .unit)
  | .set x f => do return (← set o x f, .unit)
  | .atMostOne x f y g => do return (← atMostOne o x f y g, .unit)
  | .exactlyOne x f y g => do return (← exactlyOne o x f y g, .unit)
  | .satisfiable =>
    let r := solver o.n o.cs
    return ({ o with ans := r.2 }, .bool r.1)
  | .answer => return (o, .vec o.ans)

end TwoSat
