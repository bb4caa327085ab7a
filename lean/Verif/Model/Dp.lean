import Verif.Model.Machine
import Mathlib.Order.Defs.LinearOrder

/-!
# Models of `library/dp/{longest_increasing_subsequence,number_of_subsequences}.hpp`
-/

namespace LIS
open Cxx

variable {α : Type}

/-- `std::lower_bound(dp.begin(), dp.end(), x, cmp)`, by its contract on a partitioned range: the first position whose element is not before `x`. -/
def lowerBound (cmp : α → α → Bool) (dp : List α) (x : α) : Nat := dp.findIdx fun e => !cmp e x

/-- State of the loop: `dp`, `pd`, `id`. -/
structure State (α : Type) where
  dp : Array α
  pd : Array Int
  id : Array Int

/-- `if (pos >= 1) pd[i] = id[pos - 1];` — longest_increasing_subsequence.hpp:19. -/
def setPd (i pos : Nat) (id pd : Array Int) : M (Array Int) :=
  if 1 ≤ pos then do
    let x ← rd id (pos - 1)
    wr pd i x
  else return pd

/-- Body of the loop — longest_increasing_subsequence.hpp:17-21. -/
def step (cmp : α → α → Bool) (a : Array α) (i : Nat) (s : State α) : M (State α) := do
  let x ← rd a i
  let pos := lowerBound cmp s.dp.toList x
  let id ← wr s.id pos (i : Int)
  let pd ← setPd i pos id s.pd
  if pos = s.dp.size then return ⟨s.dp.push x, pd, id⟩
  else do
    let dp ← wr s.dp pos x
    return ⟨dp, pd, id⟩

/-- `for (int cur = …; cur >= 0; cur = pd[cur]) ans[--len] = cur;` — longest_increasing_subsequence.hpp:25; state `(cur, len, ans)`. -/
def backStep (pd : Array Int) (s : Int × Nat × Array Nat) : M (Option (Int × Nat × Array Nat)) :=
  if 0 ≤ s.1 then
    if s.2.1 = 0 then .error .ub
    else do
      let ans ← wr s.2.2 (s.2.1 - 1) s.1.toNat
      let cur ← rd pd s.1.toNat
      return some (cur, s.2.1 - 1, ans)
  else return none

/-- `internal::lis::solve<T, ComparatorType>(a)` — longest_increasing_subsequence.hpp:10-27. -/
def solve (cmp : α → α → Bool) (a : Array α) : M (Array Nat) :=
  if a.size = 0 then return #[]
  else do
    let s ← forUp 0 a.size ⟨#[], Array.replicate a.size (-1), Array.replicate a.size (-1)⟩ (step cmp a)
    if s.dp.size = 0 then .error .ub
    else do
      let cur ← rd s.id (s.dp.size - 1)
      let r ← loop (backStep s.pd) s.dp.size (cur, s.dp.size, Array.replicate s.dp.size 0)
      return r.2.2

variable [LinearOrder α]

/-- `longest_increasing_subsequence(a)` — longest_increasing_subsequence.hpp:31. -/
def increasing (a : Array α) : M (Array Nat) := solve (fun x y => decide (x < y)) a
/-- `longest_nondecreasing_subsequence(a)` — longest_increasing_subsequence.hpp:34. -/
def nondecreasing (a : Array α) : M (Array Nat) := solve (fun x y => decide (x ≤ y)) a
/-- `longest_nonincreasing_subsequence(a)` — longest_increasing_subsequence.hpp:37. -/
def nonincreasing (a : Array α) : M (Array Nat) := solve (fun x y => decide (x ≥ y)) a
/-- `longest_decreasing_subsequence(a)` — longest_increasing_subsequence.hpp:40. -/
def decreasing (a : Array α) : M (Array Nat) := solve (fun x y => decide (x > y)) a

end LIS

namespace Subsequences
open Cxx

variable {α : Type} [LinearOrder α]

/-- The order of `std::pair<T, int>`. -/
def le (x y : α × Nat) : Bool := decide (x.1 < y.1 ∨ x.1 = y.1 ∧ x.2 ≤ y.2)

/-- `sorted` after `std::sort` — number_of_subsequences.hpp:12-14. -/
def sorted (a : Array α) : Array (α × Nat) := (a.toList.zipIdx.mergeSort le).toArray

/-- `last[c] = std::exchange(p, c);` — number_of_subsequences.hpp:19-20; state `(i, p, last)`. -/
def setLast (i : Nat) (p c : Nat) (last : Array Int) : M (Option (Nat × Nat × Array Int)) := do
  let last ← wr last c (p : Int)
  return some (i, c, last)

/-- `for (auto [v, p] = …; ++i < n and sorted[i].first == v;) …` — number_of_subsequences.hpp:18-21; the `i` of the state is before `++i`. -/
def runStep (s : Array (α × Nat)) (v : α) (t : Nat × Nat × Array Int) : M (Option (Nat × Nat × Array Int)) :=
  if t.1 + 1 < s.size then do
    let e ← rd s (t.1 + 1)
    if e.1 = v then setLast (t.1 + 1) t.2.1 e.2 t.2.2 else return none
  else return none

/-- Body of the outer loop — number_of_subsequences.hpp:17-22; state `(i, last)`. -/
def outer (s : Array (α × Nat)) (t : Nat × Array Int) : M (Option (Nat × Array Int)) :=
  if t.1 < s.size then do
    let e ← rd s t.1
    let r ← loop (runStep s e.1) s.size (t.1, e.2, t.2)
    return some (r.1 + 1, r.2.2)
  else return none

/-- `sdp[i + 2] = sdp[i + 1] + sdp[i + 1] - sdp[last[i] + 1];` — number_of_subsequences.hpp:26. -/
def dpStep {R : Type} [Add R] [Sub R] (last : Array Int) (i : Nat) (sdp : Array R) : M (Array R) := do
  let x ← rd sdp (i + 1)
  let l ← rd last i
  if l + 1 < 0 then .error .ub
  else do
    let y ← rd sdp (l + 1).toNat
    wr sdp (i + 2) (x + x - y)

/-- `number_of_nonempty_subsequences<Int>(a)` — number_of_subsequences.hpp:10-28. -/
def run (R : Type) [Zero R] [One R] [Add R] [Sub R] (a : Array α) : M R := do
  let r ← loop (outer (sorted a)) a.size (0, Array.replicate a.size (-1))
  let sdp ← wr (Array.replicate (a.size + 2) (0 : R)) 1 1
  let sdp ← forUp 0 a.size sdp (dpStep r.2)
  let x ← rd sdp (a.size + 1)
  return x - 1

end Subsequences
