/-!
# Model of `library/linear_algebra/xor_base.hpp`

The element type is an unsigned integer type, or `std::bitset`-like type with the same order: values are natural numbers.
A base is the list `_basis`. There is no undefined behaviour.
-/

namespace XorBase

/-- `if (T w = e ^ v; w < v) v = std::move(w);` — xor_base.hpp:15. -/
def reduceStep (v e : Nat) : Nat := if e ^^^ v < v then e ^^^ v else v

/-- The loop of `add` — xor_base.hpp:15. -/
def reduce (basis : List Nat) (v : Nat) : Nat := basis.foldl reduceStep v

/-- `add(v)`: the result and the new basis — xor_base.hpp:14-17. -/
def add (basis : List Nat) (v : Nat) : Bool × List Nat :=
  if reduce basis v ≠ 0 then (true, basis ++ [reduce basis v]) else (false, basis)

/-- `operator+=(XorBase)` — xor_base.hpp:18-21 — and, from the empty base, the constructor from a vector — xor_base.hpp:10-12. -/
def addAll (basis : List Nat) (vs : List Nat) : List Nat := vs.foldl (fun b v => (add b v).2) basis

/-- `XorBase(a)` — xor_base.hpp:10-12. -/
def make (a : List Nat) : List Nat := addAll [] a

/-- `operator+(XorBase)` — xor_base.hpp:26-30. -/
def plus (x y : List Nat) : List Nat := addAll x y

/-- `operator+(T)` — xor_base.hpp:31-33. -/
def plusValue (x : List Nat) (v : Nat) : List Nat := plus x (make [v])

/-- `if (T w = e ^ v; w < e) e = std::move(w), s ^= t;` — xor_base.hpp:42; state `(e, s)`. -/
def interStep (es : Nat × Nat) (vt : Nat × Nat) : Nat × Nat := if es.1 ^^^ vt.1 < es.1 then (es.1 ^^^ vt.1, es.2 ^^^ vt.2) else es

/-- Body of the loop over `rhs._basis` — xor_base.hpp:39-45; state `(basis, res)`. -/
def interBody (st : List (Nat × Nat) × List Nat) (e : Nat) : List (Nat × Nat) × List Nat :=
  let r := st.1.foldl interStep (e, 0)
  if r.1 ≠ 0 then (st.1 ++ [r], st.2) else (st.1, (add st.2 r.2).2)

/-- `intersection(rhs)`, `operator&` — xor_base.hpp:35-53. -/
def intersection (x y : List Nat) : List Nat := (y.foldl interBody (x.map fun e => (e, e), [])).2

/-- `dim()` — xor_base.hpp:55. -/
def dim (x : List Nat) : Nat := x.length

end XorBase
