import Verif.Cxx

/-!
# Model of `library/util/default_vector.hpp`

The constructors, `push_back` and the other members inherited from `std::vector` are not modelled; a history begins with an arbitrary
vector.  The type `T` is one, like `int`, whose default initialisation leaves the value indeterminate; an indeterminate default value is
`none`, and its use is undefined behaviour (`default_vector<int> v;` and `v(n)` leave it indeterminate, `v{}` sets it to zero).  The vector has fewer than `2 ^ 31` elements, so that a negative index, converted to `unsigned`, is
out of bounds.
-/

namespace DefaultVector
open Cxx
variable {T : Type}

/-- The vector and the member `default_value` — default_vector.hpp:8, 40. -/
structure State (T : Type) where
  v : Array T
  dflt : Option T

/-- `index_out_of_bounds(i)` — default_vector.hpp:41-43. -/
def oob (s : State T) (i : Int) : Bool := decide (i < 0 ∨ (s.v.size : Int) ≤ i)

/-- The use of `default_value` — default_vector.hpp:15, 28, 37. -/
def useDefault (s : State T) : M T :=
  match s.dflt with
  | some d => .ok d
  | none => .error .ub

/-- `resize(n)` — default_vector.hpp:36-38.  A negative `n` is converted to a size that no vector can have: the exception
`std::length_error` is modelled as a failed assertion.  The default value is copied only if the vector grows. -/
def resize (s : State T) (n : Int) : M (State T) :=
  if n < 0 then .error .assertion
  else if n ≤ s.v.size then .ok { s with v := s.v.extract 0 n.toNat }
  else do
    let d ← useDefault s
    return { s with v := s.v ++ Array.replicate (n.toNat - s.v.size) d }

/-- `operator[](i) const`, `at(i) const`, `get_or_default(i)` — default_vector.hpp:14-16, 21-23, 27-29. -/
def get (s : State T) (i : Int) : M T := if oob s i then useDefault s else rd s.v i.toNat

/-- `get_or_default(i, tmp_default_value)` — default_vector.hpp:30-32. -/
def getOr (s : State T) (i : Int) (d : T) : M T := if oob s i then .ok d else rd s.v i.toNat

/-- The growth in `operator[](i)` and `at(i)`, not `const` — default_vector.hpp:17-20, 24-26. -/
def grow (s : State T) (i : Int) : M (State T) := if oob s i then resize s (i + 1) else .ok s

/-- A read through `operator[](i)`, not `const` — default_vector.hpp:17-20. -/
def readRef (s : State T) (i : Int) : M (State T × T) := do
  let s ← grow s i
  if i < 0 then .error .ub
  else do
    let x ← rd s.v i.toNat
    return (s, x)

/-- An assignment through `operator[](i)` — default_vector.hpp:17-20. -/
def writeRef (s : State T) (i : Int) (x : T) : M (State T) := do
  let s ← grow s i
  if i < 0 then .error .ub
  else do
    let v ← wr s.v i.toNat x
    return { s with v := v }

/-- The calls. -/
inductive Op (T : Type)
  | setDefault (d : T)
  | get (i : Int)
  | getOr (i : Int) (d : T)
  | read (i : Int)
  | write (i : Int) (x : T)
  | resize (n : Int)
  | size

/-- The results. -/
inductive Out (T : Type)
  | unit
  | val (x : T)
  | num (n : Nat)

/-- One call; `set_default_value` — default_vector.hpp:11-13, `size` — default_vector.hpp:33-35. -/
def step (s : State T) : Op T → M (State T × Out T)
  | .setDefault d => .ok ({ s with dflt := some d }, .unit)
  | .get i => do return (s, .val (← get s i))
  | .getOr i d => do return (s, .val (← getOr s i d))
  | .read i => do
    let r ← readRef s i
    return (r.1, .val r.2)
  | .write i x => do return (← writeRef s i x, .unit)
  | .resize n => do return (← resize s n, .unit)
  | .size => .ok (s, .num s.v.size)

end DefaultVector
