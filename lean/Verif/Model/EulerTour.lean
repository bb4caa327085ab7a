import Verif.Model.Machine

/-!
# Model of `library/tree/euler_tour.hpp`

Vertices are natural numbers; the sentinel parent of the root is `n`. The graph is given by adjacency lists, as in the third constructor; the implicit graph of the first one is only used through the list of values it passes to its callback.
-/

namespace EulerTour
open Cxx

/-- `ceil_pow2` — lines 57-61. -/
def ceilPow2 (n : Nat) : M Int := loop (fun k : Int => if k < n then do
    let k ← i32 (2 * k)
    return some k
  else return none) 32 1

/-- The counter `k` and the arrays `visit`, `leave`, `dep`, `seg`. -/
structure St where
  k : Nat
  visit : Array Nat
  leave : Array Nat
  dep : Array Int
  seg : Array Nat

/-- `visit[u] = k, seg[m + k++] = u` — line 50. -/
def enter (m u : Nat) (s : St) : M St := do
  let visit ← wr s.visit u s.k
  let seg ← wr s.seg (m + s.k) u
  return { s with k := s.k + 1, visit := visit, seg := seg }

/-- `leave[u] = k, seg[m + k++] = p` — line 52. -/
def exit (m u p : Nat) (s : St) : M St := do
  let leave ← wr s.leave u s.k
  let seg ← wr s.seg (m + s.k) p
  return { s with k := s.k + 1, leave := leave, seg := seg }

/-- `dep[v] = dep[u] + 1` — line 51. -/
def setDep (u v : Nat) (s : St) : M St := do
  let d ← rd s.dep u
  let d ← i32 (d + 1)
  let dep ← wr s.dep v d
  return { s with dep := dep }

/-- `if (v != p) dep[v] = dep[u] + 1, self(self, v, u)` — line 51. -/
def kid (m u p : Nat) (rec : Nat → Nat → St → M St) (s : St) (v : Nat) : M St :=
  if v ≠ p then do
    let s ← setDep u v s
    rec v u s
  else return s

/-- The lambda `f` — lines 49-53. -/
def dfs (g : Array (List Nat)) (m : Nat) : Nat → Nat → Nat → St → M St
  | 0, _, _, _ => .error .diverge
  | fuel + 1, u, p, s => do
    let s ← enter m u s
    let a ← rd g u
    let s ← forEach a s (kid m u p (dfs g m fuel))
    exit m u p s

/-- The object. -/
structure Obj where
  n : Nat
  m : Nat
  visit : Array Nat
  leave : Array Nat
  dep : Array Int
  seg : Array Nat

/-- `argmin` — line 56. -/
def argmin (dep : Array Int) (u v : Nat) : M Nat := do
  let a ← rd dep u
  let b ← rd dep v
  return if a < b then u else v

/-- `seg[k] = argmin(seg[(k << 1) | 0], seg[(k << 1) | 1])` — line 18. -/
def pull (dep : Array Int) (k : Nat) (seg : Array Nat) : M (Array Nat) := do
  let a ← rd seg (2 * k)
  let b ← rd seg (2 * k + 1)
  let c ← argmin dep a b
  wr seg k c

/-- The constructor — lines 14-19, 46-48, 54. -/
def make (g : Array (List Nat)) (root : Nat) : M Obj := do
  let n := g.size
  let _ ← i32 (2 * (n : Int))
  let m ← ceilPow2 (2 * n)
  let m := m.toNat
  let _ ← i32 (2 * (m : Int))
  let dep := Array.replicate (n + 1) (0 : Int)
  let dep ← wr dep root 0
  let dep ← wr dep n (2 ^ 31 - 1)
  let s ← dfs g m n root n ⟨0, Array.replicate n 0, Array.replicate n 0, dep, Array.replicate (2 * m) n⟩
  let seg ← forDown m 1 s.seg (pull s.dep)
  return ⟨n, m, s.visit, s.leave, s.dep, seg⟩

/-- `if (l & 1) res = argmin(res, seg[l++])` — line 29. -/
def left (t : Obj) (l res : Nat) : M (Nat × Nat) :=
  if l % 2 = 1 then do
    let x ← rd t.seg l
    let res ← argmin t.dep res x
    return (l + 1, res)
  else return (l, res)

/-- `if (r & 1) res = argmin(res, seg[--r])` — line 30. -/
def right (t : Obj) (r res : Nat) : M (Nat × Nat) :=
  if r % 2 = 1 then do
    let x ← rd t.seg (r - 1)
    let res ← argmin t.dep res x
    return (r - 1, res)
  else return (r, res)

/-- The loop of lines 28-31; state `(l, r, res)`. -/
def queryStep (t : Obj) (s : Nat × Nat × Nat) : M (Option (Nat × Nat × Nat)) :=
  if s.1 < s.2.1 then do
    let a ← left t s.1 s.2.2
    let b ← right t s.2.1 a.2
    return some (a.1 / 2, b.1 / 2, b.2)
  else return none

/-- Lines 27-32. -/
def query (t : Obj) (l r : Nat) : M Nat := do
  let s ← loop (queryStep t) (2 * t.m + 1) (t.m + l, t.m + r + 1, t.n)
  return s.2.2

/-- `lca` — lines 25-33. -/
def lca (t : Obj) (u v : Nat) : M Nat := do
  let a ← rd t.visit u
  let b ← rd t.visit v
  if a > b then query t b a else query t a b

/-- `dist` — line 34. -/
def dist (t : Obj) (u v : Nat) : M Int := do
  let a ← rd t.dep u
  let b ← rd t.dep v
  let w ← lca t u v
  let c ← rd t.dep w
  let x ← i32 (a + b)
  let y ← i32 (2 * c)
  i32 (x - y)

/-- `depth` — line 35. -/
def depth (t : Obj) (u : Nat) : M Int := rd t.dep u

/-- `visit_time` — line 36. -/
def visitTime (t : Obj) (u : Nat) : M Nat := rd t.visit u

/-- `leave_time` — line 37. -/
def leaveTime (t : Obj) (u : Nat) : M Nat := rd t.leave u

/-- `parent` — lines 38-41. -/
def parent (t : Obj) (u : Nat) : M Int := do
  let l ← rd t.leave u
  let p ← rd t.seg (t.m + l)
  return if p = t.n then -1 else p

end EulerTour
