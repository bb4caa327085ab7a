import Verif.Cxx
import Mathlib.Algebra.Group.Defs

/-!
# Model of `library/tree/rerooting.hpp` and `library/tree/rerooting_invertible.hpp`

`op`, `e` and `inv` are the operations of a (commutative) monoid or group. Vertices are natural numbers, the parent `-1` of the root is `none`; the counters of `GraphCSR` are natural numbers (the number of edges is below 2^30). Weights that are absent are the one-element type.
-/

namespace Rerooting
open Cxx

variable {V W T : Type}

/-- The object — `rerooting.hpp` lines 149-150, `rerooting_invertible.hpp` lines 130-131. -/
structure Obj (V W : Type) where
  w : Array V
  e : List (Nat × Nat × W)

/-- `add_vertex` — lines 52-54 of both headers. -/
def addVertex (o : Obj V W) (x : V) : Obj V W := { o with w := o.w.push x }

/-- `add_edge` — lines 55-60 of both headers. -/
def addEdge (o : Obj V W) (u v : Int) (x : W) : M (Obj V W) := do
  check (decide (0 ≤ u ∧ u < o.w.size))
  check (decide (0 ≤ v ∧ v < o.w.size))
  return { o with e := o.e ++ [(u.toNat, v.toNat, x)] }

/-- `set_vertex_weights` — lines 61-64 of both headers. -/
def setVertexWeights (o : Obj V W) (w : Array V) : M (Obj V W) := do
  check (decide (w.size = o.w.size))
  return { o with w := w }

/-- Building the object by the constructor from the vertex weights and `add_edge` — lines 46, 55-60 of both headers. -/
def build (w : Array V) (es : List (Nat × Nat × W)) : M (Obj V W) := forEach es ⟨w, []⟩ fun o q => addEdge o q.1 q.2.1 q.2.2

/-- `GraphCSR` — `rerooting.hpp` lines 187-189, `rerooting_invertible.hpp` lines 168-170. -/
structure CSR (W : Type) where
  edges : Array (Nat × W)
  start : Array Nat

/-- `++_start[u]` — lines 155-156 / 136-137. -/
def incr (a : Array Nat) (u : Nat) : M (Array Nat) := do
  let x ← rd a u
  wr a u (x + 1)

/-- Lines 154-157 / 135-138. -/
def countStep (a : Array Nat) (q : Nat × Nat × W) : M (Array Nat) := do
  let a ← incr a q.1
  incr a q.2.1

/-- `_start[i] += _start[i - 1]` — line 159 / 140. -/
def sumStep (i : Nat) (a : Array Nat) : M (Array Nat) := do
  let x ← rd a i
  let y ← rd a (i - 1)
  wr a i (x + y)

/-- `_edges[--_start[u]] = x`; a negative index is undefined behaviour — lines 162-163 / 143-144. -/
def put (c : CSR W) (u : Nat) (x : Nat × W) : M (CSR W) := do
  let s ← rd c.start u
  if s = 0 then .error .ub else do
  let start ← wr c.start u (s - 1)
  let edges ← wr c.edges (s - 1) x
  return ⟨edges, start⟩

/-- Lines 161-164 / 142-145. -/
def fillStep (c : CSR W) (q : Nat × Nat × W) : M (CSR W) := do
  let c ← put c q.1 (q.2.1, q.2.2)
  put c q.2.1 (q.1, q.2.2)

/-- Constructor of `GraphCSR` — lines 153-165 / 134-146. -/
def csr [Inhabited W] (n : Nat) (e : List (Nat × Nat × W)) : M (CSR W) := do
  let a ← forEach e (Array.replicate (n + 1) 0) countStep
  let a ← forUp 1 (n + 1) a sumStep
  forEach e ⟨Array.replicate (2 * e.length) default, a⟩ fillStep

/-- `operator[]` of `GraphCSR` — lines 183-185 / 164-166. -/
def view (c : CSR W) (u : Nat) : M (List (Nat × W)) := do
  let l ← rd c.start u
  let r ← rd c.start (u + 1)
  if r < l ∨ c.edges.size < r then .error .ub else return (c.edges.toList.drop l).take (r - l)

section dp
variable [CommMonoid T] (sub : T → V → W → T) (root : T → V → T) (w : Array V) (c : CSR W)

/-- `add_subtree_root_(x, _w[v], w)` — lines 82-96 / 83-97. -/
def term (x : T) (v : Nat) (ew : W) : M T := do
  let vw ← rd w v
  return sub x vw ew

/-- `dp[u] = op(dp[u], add_subtree_root_(dp[v], _w[v], w))` — line 114 / 115. -/
def absorb (u : Nat) (q : Nat × W) (dp : Array T) : M (Array T) := do
  let a ← rd dp u
  let b ← rd dp q.1
  let t ← term sub w b q.1 q.2
  wr dp u (a * t)

/-- Loop body of the first search — lines 112-115 / 113-116. -/
def kid1 (rec : Nat → Option Nat → Array T → M (Array T)) (u : Nat) (p : Option Nat) (dp : Array T) (q : Nat × W) : M (Array T) :=
  if some q.1 ≠ p then do
    let dp ← rec q.1 (some u) dp
    absorb sub w u q dp
  else return dp

/-- The first search — lines 111-116 / 112-117. -/
def dfs1 : Nat → Nat → Option Nat → Array T → M (Array T)
  | 0, _, _, _ => .error .diverge
  | fuel + 1, u, p, dp => do
    let a ← view c u
    forEach a dp (kid1 sub w (dfs1 fuel) u p)

/-- `dp[v] = add_root_(x, _w[v])` — lines 117, 138 / 124. -/
def setRoot (v : Nat) (x : T) (dp : Array T) : M (Array T) := do
  let vw ← rd w v
  wr dp v (root x vw)

/-- `get_sum` — lines 120-122. -/
def getSum (p : Option Nat) (sp : T) (dp : Array T) (v : Nat) : M T :=
  if some v = p then return sp else rd dp v

/-- `add_subtree_root_(get_sum(v), _w[v], w)` for the `i`-th edge — lines 127-128, 133-134. -/
def edgeTerm (p : Option Nat) (sp : T) (dp : Array T) (q : Nat × W) : M T := do
  let x ← getSum p sp dp q.1
  term sub w x q.1 q.2

/-- Loop body — lines 126-129. -/
def rightStep (a : List (Nat × W)) (p : Option Nat) (sp : T) (dp : Array T) (i : Nat) (sumR : Array T) : M (Array T) := do
  let q ← rd a.toArray i
  let x ← rd sumR (i + 1)
  let t ← edgeTerm sub w p sp dp q
  wr sumR i (x * t)

/-- Lines 135-140. -/
def descend (rec : Nat → Option Nat → T → Array T → M (Array T)) (u : Nat) (p : Option Nat) (sumL sumR : T) (q : Nat × W) (dp : Array T) : M (Array T) :=
  if some q.1 ≠ p then do
    let x ← rd dp q.1
    let t ← term sub w (sumL * sumR) u q.2
    let dp ← setRoot root w q.1 (x * t) dp
    rec q.1 (some u) (sumL * sumR) dp
  else return dp

/-- Loop body — lines 132-142. -/
def leftStep (rec : Nat → Option Nat → T → Array T → M (Array T)) (u : Nat) (a : List (Nat × W)) (p : Option Nat) (sp : T) (sumR : Array T) (i : Nat) (s : T × Array T) : M (T × Array T) := do
  let q ← rd a.toArray i
  let t ← edgeTerm sub w p sp s.2 q
  let r ← rd sumR (i + 1)
  let dp ← descend sub root w rec u p s.1 r q s.2
  return (s.1 * t, dp)

/-- The second search — lines 119-143. -/
def dfs2 : Nat → Nat → Option Nat → T → Array T → M (Array T)
  | 0, _, _, _, _ => .error .diverge
  | fuel + 1, u, p, sp, dp => do
    let a ← view c u
    let sumR ← forDown a.length 0 (Array.replicate (a.length + 1) 1) (rightStep sub w a p sp dp)
    let s ← forUp 0 a.length (1, dp) (leftStep sub root w (dfs2 fuel) u a p sp sumR)
    return s.2

end dp

/-- `run_dp` — lines 81-146. -/
def runDp [CommMonoid T] [Inhabited W] (sub : T → V → W → T) (root : T → V → T) (o : Obj V W) : M (Array T) := do
  let c ← csr o.w.size o.e
  let dp ← dfs1 sub o.w c (o.w.size + 1) 0 none (Array.replicate o.w.size 1)
  let x ← rd dp 0
  let dp ← setRoot root o.w 0 x dp
  dfs2 sub root o.w c (o.w.size + 1) 0 none 1 dp

section inv
variable [CommGroup T] (sub : T → V → W → T) (root : T → V → T) (w : Array V) (c : CSR W)

/-- Loop body of the second search — `rerooting_invertible.hpp` lines 119-123. -/
def kidInv (rec : Nat → Option Nat → Array T → M (Array T)) (u : Nat) (p : Option Nat) (dp : Array T) (q : Nat × W) : M (Array T) :=
  if some q.1 ≠ p then do
    let a ← rd dp u
    let b ← rd dp q.1
    let t ← term sub w b q.1 q.2
    let t' ← term sub w (a * t⁻¹) u q.2
    let dp ← wr dp q.1 (b * t')
    rec q.1 (some u) dp
  else return dp

/-- The second search — `rerooting_invertible.hpp` lines 118-125. -/
def dfsInv : Nat → Nat → Option Nat → Array T → M (Array T)
  | 0, _, _, _ => .error .diverge
  | fuel + 1, u, p, dp => do
    let a ← view c u
    let dp ← forEach a dp (kidInv sub w (dfsInv fuel) u p)
    let x ← rd dp u
    setRoot root w u x dp

end inv

/-- `run_dp` — `rerooting_invertible.hpp` lines 82-127. -/
def runDpInv [CommGroup T] [Inhabited W] (sub : T → V → W → T) (root : T → V → T) (o : Obj V W) : M (Array T) := do
  let c ← csr o.w.size o.e
  let dp ← dfs1 sub o.w c (o.w.size + 1) 0 none (Array.replicate o.w.size 1)
  dfsInv sub root o.w c (o.w.size + 1) 0 none dp

end Rerooting
