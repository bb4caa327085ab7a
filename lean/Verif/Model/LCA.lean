import Verif.Model.RMQpm1

/-!
# Model of `library/tree/lowest_common_ancestor.hpp`

`lg` is the block parameter of `RMQpm1WithIndex` (4 in the header). Vertices are natural numbers, the parent of the root (−1) is `none`. The recursion depth is bounded by a fuel of the number of vertices.
-/

namespace LCA
open Cxx

/-- `k`, `idx`, `dep`, `tour` — lines 15, 19. -/
structure St where
  k : Nat
  idx : Array Nat
  dep : Array Int
  tour : Array Nat

/-- `dep[k] = d, tour[idx[u] = k++] = u` — line 21, and line 24 with `d - 1` and `p`. -/
def visit (u : Nat) (d : Int) (s : St) : M St := do
  let dep ← wr s.dep s.k d
  let idx ← wr s.idx u s.k
  let tour ← wr s.tour s.k u
  return ⟨s.k + 1, idx, dep, tour⟩

/-- `if (p >= 0) …` — lines 23-25. -/
def back (p : Option Nat) (d : Int) (s : St) : M St :=
  match p with
  | none => return s
  | some p => do
    let d ← i32 (d - 1)
    visit p d s

/-- `if (v != p) self(self, v, u, d + 1)` — line 22. -/
def kid (u : Nat) (p : Option Nat) (d : Int) (rec : Nat → Option Nat → Int → St → M St) (s : St) (v : Nat) : M St :=
  if some v ≠ p then do
    let d ← i32 (d + 1)
    rec v (some u) d s
  else return s

/-- The lambda `rec` — lines 20-26. -/
def dfs (g : Array (List Nat)) : Nat → Nat → Option Nat → Int → St → M St
  | 0, _, _, _, _ => .error .diverge
  | fuel + 1, u, p, d, s => do
    let s ← visit u d s
    let a ← rd g u
    let s ← forEach a s (kid u p d (dfs g fuel))
    back p d s

/-- The object — lines 15-16. -/
structure Obj where
  idx : Array Nat
  dep : Array Int
  tour : Array Nat
  rmq : RMQpm1.Obj (Int × Int)

variable (lg : Nat)

/-- The constructor — lines 9, 18-29. For an empty graph the sizes of the vectors wrap around and their allocation throws. -/
def make (g : Array (List Nat)) (root : Nat) : M Obj :=
  if g.size = 0 then .error .assertion else do
  let s ← dfs g g.size root none 0 ⟨0, Array.replicate g.size 0, Array.replicate (2 * g.size - 1) 0, Array.replicate (2 * g.size - 1) 0⟩
  let rmq ← RMQpm1.make (RMQpm1.Kind.indexed true) true lg (0, 0) s.dep
  return ⟨s.idx, s.dep, s.tour, rmq⟩

/-- `tour[rmq(i, j + 1).second]` — line 11. -/
def look (t : Obj) (i j : Nat) : M Nat := do
  let q ← RMQpm1.query (RMQpm1.Kind.indexed true) lg t.rmq i (j + 1)
  if q.2 < 0 then .error .ub else rd t.tour q.2.toNat

/-- `lca(u, v)` and `operator()` — lines 11, 13. The inner call `lca(v, u)` takes the first branch. -/
def lca (t : Obj) (u v : Nat) : M Nat := do
  let i ← rd t.idx u
  let j ← rd t.idx v
  if i ≤ j then look lg t i j else look lg t j i

/-- `dist(u, v)` — line 12. -/
def dist (t : Obj) (u v : Nat) : M Int := do
  let i ← rd t.idx u
  let a ← rd t.dep i
  let j ← rd t.idx v
  let b ← rd t.dep j
  let s ← i32 (a + b)
  let w ← lca lg t u v
  let k ← rd t.idx w
  let c ← rd t.dep k
  let m ← i32 (2 * c)
  i32 (s - m)

end LCA
