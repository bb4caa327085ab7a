import Verif.Cxx

/-!
# Model of `library/graph/scc_tournament.hpp`

The `long long` counters are unbounded integers (for `n` vertices they stay below `n²`).
-/

namespace SCCTournament
open Cxx

/-- The body of the loop of lines 11-14. -/
def bucketStep (deg : Array Nat) (i : Nat) (b : Array (List Nat)) : M (Array (List Nat)) := do
  let d ← rd deg i
  let l ← rd b d
  wr b d (l ++ [i])

/-- The variables of lines 15-18: the finished components, the last one, `removed_num`, `num`, `sum`. -/
structure St where
  fin : List (List Nat)
  last : List Nat
  removed : Int
  num : Int
  sum : Int

/-- Lines 23-27. -/
def cut (s : St) : St :=
  if s.num * (s.num - 1) = 2 * s.sum then ⟨s.fin ++ [s.last], [], s.removed + s.num, 0, 0⟩ else s

/-- Lines 20-27. -/
def visit (d : Nat) (s : St) (v : Nat) : M St :=
  return cut { s with last := s.last ++ [v], num := s.num + 1, sum := s.sum + (d - s.removed) }

/-- The loop over one bucket — line 19. -/
def bucketLoop (b : Array (List Nat)) (d : Nat) (s : St) : M St := do
  let l ← rd b d
  forEach l s (visit d)

/-- `scc_tournament` — lines 8-31. `scc.pop_back()` drops the last, unfinished component. -/
def scc (deg : Array Nat) : M (List (List Nat)) := do
  let n := deg.size
  let b ← forUp 0 n (Array.replicate n []) (bucketStep deg)
  let s ← forUp 0 n ⟨[], [], 0, 0, 0⟩ (bucketLoop b)
  return s.fin

end SCCTournament
