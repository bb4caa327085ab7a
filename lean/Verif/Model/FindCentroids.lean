import Verif.Model.IterDFS
import Verif.Model.Machine

/-! # Model of `library/tree/find_centroid.hpp` -/

namespace FindCentroids
open Cxx

/-- `sub`, `is_centroid` and `res` — lines 12-14. -/
structure St where
  sub : Array Nat
  isc : Array Bool
  res : List Nat

/-- Lines 17-20. -/
def up (n cur : Nat) (p : Option Nat) (s : St) : M St :=
  match p with
  | none => return s
  | some q => do
    let a ← rd s.sub q
    let b ← rd s.sub cur
    let c ← i32 (a + b)
    let sub ← wr s.sub q c.toNat
    let i ← rd s.isc q
    let b ← rd sub cur
    let d ← i32 (2 * (b : Int))
    let isc ← wr s.isc q (i && decide (d ≤ n))
    return { s with sub := sub, isc := isc }

/-- Lines 21-23. -/
def note (n cur : Nat) (s : St) : M St := do
  let i ← rd s.isc cur
  let b ← rd s.sub cur
  let d ← i32 (2 * (b : Int))
  return if i && decide (d ≥ n) then { s with res := s.res ++ [cur] } else s

/-- Lines 17-23. -/
def fin (n cur : Nat) (p : Option Nat) (s : St) : M St := do
  let s ← up n cur p s
  note n cur s

/-- `find_centroids` — lines 10-34. -/
def findCentroids (g : Array (List Nat)) : M (List Nat) := do
  let n := g.size
  let s ← IterDFS.walk g (fin n) 0 ⟨Array.replicate n 1, Array.replicate n true, []⟩
  check (decide (s.res.length = 1 ∨ s.res.length = 2))
  return s.res

end FindCentroids
