import Verif.Cxx

/-!
# Model of `library/algorithm/mo.hpp`

The callbacks work on a state `S` of the caller and get the values of `get_left()` and `get_right()` at the time of the call; the index they
are called with is one of the two. `std::sort` is the parameter `srt`. The bucket size is computed with floating point numbers and is a
parameter `b ≥ 1`. Queries are pairs of non-negative numbers. `get_query_id()` is not modelled.
-/

namespace Mo
open Cxx

/-- The callbacks of `solve` — mo.hpp:33-45; arguments are `get_left()`, `get_right()` and the state of the caller. -/
structure Callbacks (S T : Type) where
  eval : S → M T
  addL : Nat → Nat → S → M S
  delL : Nat → Nat → S → M S
  addR : Nat → Nat → S → M S
  delR : Nat → Nat → S → M S

/-- The comparison of the order — mo.hpp:16-23. -/
def less (b : Nat) (qs : Array (Nat × Nat)) (i j : Nat) : Bool :=
  let p := (qs[i]?).getD (0, 0)
  let q := (qs[j]?).getD (0, 0)
  if p.1 / b ≠ q.1 / b then decide (p.1 / b < q.1 / b)
  else if p.2 ≠ q.2 then (if p.1 / b % 2 = 1 then decide (p.2 > q.2) else decide (p.2 < q.2))
  else decide (p.1 < q.1)

variable {S T : Type}

/-- The four loops that move the range from `[l, r)` to `[nl, nr)` — mo.hpp:50-53. -/
def move (c : Callbacks S T) (l r nl nr : Nat) (s : S) : M S := do
  let s ← forUp r nr s (fun i s => c.addR l i s)
  let s ← forDown l nl s (fun j s => c.addL j (max r nr) s)
  let s ← forDown (max r nr) nr s (fun j s => c.delR (min l nl) j s)
  forUp (min l nl) nl s (fun i s => c.delL i nr s)

/-- The state of `solve`: the range, the state of the caller and the results. -/
structure St (S T : Type) where
  l : Nat
  r : Nat
  s : S
  res : Array T

/-- One query — mo.hpp:48-55. -/
def query (c : Callbacks S T) (qs : Array (Nat × Nat)) (st : St S T) (qi : Nat) : M (St S T) := do
  let q ← rd qs qi
  let s ← move c st.l st.r q.1 q.2 st.s
  let x ← c.eval s
  let res ← wr st.res qi x
  return ⟨q.1, q.2, s, res⟩

/-- The constructor and `solve` — mo.hpp:12-25 and 44-57; `x0` is the value-initialised result. -/
def solve (srt : (Nat → Nat → Bool) → List Nat → List Nat) (b : Nat) (qs : Array (Nat × Nat)) (c : Callbacks S T) (x0 : T) (s0 : S) : M (S × Array T) := do
  let st ← forEach (srt (less b qs) (List.range qs.size)) (St.mk 0 0 s0 (Array.replicate qs.size x0)) (query c qs)
  return (st.s, st.res)

end Mo
