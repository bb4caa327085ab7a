import Verif.Cxx

/-!
# Model of `library/tree/get_path.hpp`

The parent `-1` of the first vertex is `none`. The early `return true` out of the loop over the neighbours is a flag that turns the remaining iterations into no-ops.
-/

namespace GetTreePath
open Cxx

/-- The body of the loop of line 12; state: the flag and `res`. -/
def kid (cur : Nat) (par : Option Nat) (rec : Nat → Option Nat → Array Nat → M (Bool × Array Nat)) (s : Bool × Array Nat) (nxt : Nat) : M (Bool × Array Nat) :=
  if s.1 then return s else if some nxt ≠ par then rec nxt (some cur) s.2 else return s

/-- Lines 13-14. -/
def leave (s : Bool × Array Nat) : M (Bool × Array Nat) :=
  if s.1 then return s else if s.2.size = 0 then .error .ub else return (false, s.2.pop)

/-- The lambda `dfs` — lines 9-15. -/
def dfs (g : Array (List Nat)) (v : Nat) : Nat → Nat → Option Nat → Array Nat → M (Bool × Array Nat)
  | 0, _, _, _ => .error .diverge
  | fuel + 1, cur, par, res =>
    if cur = v then return (true, res.push cur) else do
      let a ← rd g cur
      let s ← forEach a (false, res.push cur) (kid cur par (dfs g v fuel))
      leave s

/-- `get_tree_path` — lines 7-18. -/
def getTreePath (g : Array (List Nat)) (u v : Nat) : M (Array Nat) := do
  let s ← dfs g v g.size u none #[]
  return s.2

end GetTreePath
