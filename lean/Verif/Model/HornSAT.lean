import Verif.Cxx

/-!
# Model of `library/algorithm/horn_sat.hpp`

`int` counters are `Int`; they never exceed the total length of the clauses. A negative index in `lhs` would be an out-of-range access at once, so `lhs` is a list of `Nat`.
-/

namespace HornSAT
open Cxx

/-- The object — horn_sat.hpp:60-66. -/
structure Obj where
  sz : Nat
  ans : Array Bool
  cnt : Array Int
  ls : Array (List Nat)
  r : Array (Int × Bool)
  hasAnswer : Bool

/-- `HornSAT(n)` — line 13. -/
def new (n : Nat) : Obj := ⟨n, Array.replicate n false, #[], Array.replicate n [], #[], true⟩

/-- `ls[i].push_back(sz)` — line 18. -/
def addLs (sz : Nat) (ls : Array (List Nat)) (i : Nat) : M (Array (List Nat)) := do
  let l ← rd ls i
  wr ls i (l ++ [sz])

/-- `add_clause(lhs, rhs, val)` — lines 15-21. -/
def addClause (o : Obj) (lhs : List Nat) (rhs : Int) (val : Bool) : M Obj := do
  let ls ← forEach lhs o.ls (addLs o.cnt.size)
  return { o with cnt := o.cnt.push lhs.length, ls := ls, r := o.r.push (rhs, val), hasAnswer := false }

/-- The local variables of `satisfiable`, and `ans`. -/
structure St where
  dq : List (Int × Bool)
  c : Array Int
  seen : Array Bool
  ans : Array Bool

/-- `if (c[j] == 0) dq.push_back(r[j])` — lines 31-33. -/
def pushInit (r : Array (Int × Bool)) (c : Array Int) (j : Nat) (dq : List (Int × Bool)) : M (List (Int × Bool)) := do
  let x ← rd c j
  if x = 0 then do
    let e ← rd r j
    return dq ++ [e]
  else return dq

/-- `if (--c[j] == 0) dq.push_back(r[j])` — line 44. -/
def dec (r : Array (Int × Bool)) (s : Array Int × List (Int × Bool)) (j : Nat) : M (Array Int × List (Int × Bool)) := do
  let x ← rd s.1 j
  let c ← wr s.1 j (x - 1)
  if x - 1 = 0 then do
    let e ← rd r j
    return (c, s.2 ++ [e])
  else return (c, s.2)

/-- What one round of the main loop does: go on, or return false. -/
inductive Res
  | go (s : St)
  | fail (s : St)

/-- `ans[i] = val; seen[i] = true; for (j : ls[i]) …` — lines 41-45. -/
def visit (o : Obj) (s : St) (dq : List (Int × Bool)) (i : Nat) (val : Bool) : M Res := do
  let ans ← wr s.ans i val
  let seen ← wr s.seen i true
  let l ← rd o.ls i
  let (c, dq) ← forEach l (s.c, dq) (dec o.r)
  return .go ⟨dq, c, seen, ans⟩

/-- `else if (val != ans[i]) return false` — line 46. -/
def recheck (s : St) (dq : List (Int × Bool)) (i : Nat) (val : Bool) : M Res := do
  let a ← rd s.ans i
  if val ≠ a then return .fail { s with dq := dq } else return .go { s with dq := dq }

/-- Lines 38-46 for the popped pair `(i, val)`. -/
def body (o : Obj) (s : St) (dq : List (Int × Bool)) (i : Int) (val : Bool) : M Res := do
  check (i < o.sz)
  if i < 0 then return .fail { s with dq := dq }
  else do
    let b ← rd s.seen i.toNat
    if ! b then visit o s dq i.toNat val else recheck s dq i.toNat val

/-- One round of `while (dq.size())` — lines 35-47. -/
def round (o : Obj) : Res → M (Option Res)
  | .fail _ => return none
  | .go s => match s.dq with
    | [] => return none
    | e :: dq => do
      let x ← body o s dq e.1 e.2
      return some x

/-- `if (not seen[i]) ans[i] = false` — line 49. -/
def clear (seen : Array Bool) (i : Nat) (ans : Array Bool) : M (Array Bool) := do
  let b ← rd seen i
  if ! b then wr ans i false else return ans

/-- The end of `satisfiable` — lines 39, 46, 48-51. -/
def finish (o : Obj) : Res → M (Obj × Bool)
  | .fail s => return ({ o with ans := s.ans, hasAnswer := false }, false)
  | .go s => do
    let ans ← forUp 0 o.sz s.ans (clear s.seen)
    return ({ o with ans := ans, hasAnswer := true }, true)

/-- `satisfiable()` — lines 27-52. The model bounds the number of rounds by `2 * m + 2`. -/
def satisfiable (o : Obj) : M (Obj × Bool) := do
  let dq ← forUp 0 o.r.size [] (pushInit o.r o.cnt)
  let x ← loop (round o) (2 * o.r.size + 2) (.go ⟨dq, o.cnt, Array.replicate o.sz false, o.ans⟩)
  finish o x

/-- `answer()` — lines 55-58. -/
def answer (o : Obj) : M (Array Bool) := do
  check o.hasAnswer
  return o.ans

end HornSAT
