import Verif.Model.Machine

/-!
# Model of `library/graph/functional_graph.hpp`

Vertices are `Nat`; step counts (`long long`) are `Nat` where the API requires them to be non-negative and `Int` where the code checks or could overflow. The recursion depth of the searches is bounded by a fuel argument (`diverge` if exceeded); the size of the machine stack is not modelled.
-/

namespace FunctionalGraph
open Cxx

/-- `1LL << k`: `2^k`, the sign bit for `k = 63`, undefined from 64 on. -/
def shl1 (k : Nat) : M Int := if k < 63 then .ok (2 ^ k) else if k = 63 then .ok (-2 ^ 63) else .error .ub

/-- `while (1LL << (l + 1) <= v) ++l` — functional_graph.hpp:228. -/
def floorLog2Step (v : Int) (l : Nat) : M (Option Nat) := do
  let x ← shl1 (l + 1)
  if x ≤ v then return some (l + 1) else return none

/-- `floor_log2(v)` — lines 226-230. -/
def floorLog2 (v : Int) : M Nat := loop (floorLog2Step v) 64 0

/-- `_nxt[i][j]` of a table. -/
def rd2 {α : Type} (t : Array (Array α)) (i j : Nat) : M α := do
  let r ← rd t i
  rd r j

/-- `_nxt[i][j] = x`. -/
def wr2 {α : Type} (t : Array (Array α)) (i j : Nat) (x : α) : M (Array (Array α)) := do
  let r ← rd t i
  let r ← wr r j x
  wr t i r

/-- `Doubling` — lines 64-66. -/
structure Dbl where
  sz : Nat
  log : Nat
  nxt : Array (Array Nat)

/-- `_nxt[i][j] = _nxt[i - 1][_nxt[i - 1][j]]` — line 71. -/
def fillCell (i j : Nat) (t : Array (Array Nat)) : M (Array (Array Nat)) := do
  let a ← rd2 t (i - 1) j
  let b ← rd2 t (i - 1) a
  wr2 t i j b

/-- The constructor — lines 68-73, with `doubling(max_step)` — lines 131-133. -/
def doubling (nxt : Array Nat) (maxStep : Int) : M Dbl := do
  let log ← floorLog2 maxStep
  let t ← wr (Array.replicate (log + 1) (Array.replicate nxt.size 0)) 0 nxt
  let t ← forUp 1 (log + 1) t fun i t => forUp 0 nxt.size t (fillCell i)
  return ⟨nxt.size, log, t⟩

/-- `if ((d >> l) & 1) u = _nxt[l][u]` — line 35. -/
def queryStep (D : Dbl) (d : Nat) (l u : Nat) : M Nat := if d / 2 ^ l % 2 = 1 then rd2 D.nxt l u else return u

/-- `query(u, d)` — lines 34-37. -/
def query (D : Dbl) (u d : Nat) : M Nat := forDown (D.log + 1) 0 u (queryStep D d)

/-- `if (nxt_u = _nxt[l][u]; f(nxt_u)) { u = nxt_u, step |= 1LL << l; }` — lines 49-51. -/
def maxStepStep (D : Dbl) (p : Nat → Bool) (l : Nat) (s : Nat × Nat) : M (Nat × Nat) := do
  let v ← rd2 D.nxt l s.1
  if p v then return (v, s.2 ||| 1 <<< l) else return s

/-- `max_step(u, f)` — lines 46-53. -/
def maxStep (D : Dbl) (u : Nat) (p : Nat → Bool) : M (Nat × Nat) := do
  check (p u)
  forDown (D.log + 1) 0 (u, 0) (maxStepStep D p)

/-- Lines 58-61. -/
def stepOnce (D : Dbl) (u : Nat) (p : Nat → Bool) : M (Option (Nat × Nat)) := do
  let (v, step) ← maxStep D u (fun v => ! p v)
  let v ← rd2 D.nxt 0 v
  if ! p v then return none else return some (v, step + 1)

/-- `step_until(u, f)` — lines 56-62. -/
def stepUntil (D : Dbl) (u : Nat) (p : Nat → Bool) : M (Option (Nat × Nat)) :=
  if p u then return some (u, 0) else stepOnce D u p

/-- `DoublingSum` — lines 77, 121. -/
structure DblSum (T : Type) extends Dbl where
  dat : Array (Array T)

section
variable {T : Type} (op : T → T → T) (e : T)

/-- `_dat[i][j] = op(_dat[i - 1][j], _dat[i - 1][_nxt[i - 1][j]])` — line 126. -/
def fillSum (nxt : Array (Array Nat)) (i j : Nat) (t : Array (Array T)) : M (Array (Array T)) := do
  let x ← rd2 t (i - 1) j
  let a ← rd2 nxt (i - 1) j
  let y ← rd2 t (i - 1) a
  wr2 t i j (op x y)

/-- The constructor — lines 123-128, with `doubling(max_step, dat)` — lines 135-138. -/
def doublingSum (nxt : Array Nat) (maxStep : Int) (dat : Array T) : M (DblSum T) := do
  let D ← doubling nxt maxStep
  let t ← wr (Array.replicate (D.log + 1) (Array.replicate D.sz e)) 0 dat
  let t ← forUp 1 (D.log + 1) t fun i t => forUp 0 D.sz t (fillSum op D.nxt i)
  return { D with dat := t }

/-- Line 88. -/
def querySumStep (D : DblSum T) (d : Nat) (l : Nat) (s : Nat × T) : M (Nat × T) :=
  if d / 2 ^ l % 2 = 1 then do
    let v ← rd2 D.nxt l s.1
    let x ← rd2 D.dat l s.1
    return (v, op s.2 x)
  else return s

/-- `DoublingSum::query(u, d)` — lines 86-90. -/
def querySum (D : DblSum T) (u d : Nat) : M (Nat × T) := forDown (D.log + 1) 0 (u, e) (querySumStep op D d)

/-- Lines 105-107: the state is `(u, sum, step)`. -/
def maxStepSumStep (D : DblSum T) (p : T → Bool) (l : Nat) (s : Nat × T × Nat) : M (Nat × T × Nat) := do
  let x ← rd2 D.dat l s.1
  if p (op s.2.1 x) then do
    let v ← rd2 D.nxt l s.1
    return (v, op s.2.1 x, s.2.2 ||| 1 <<< l)
  else return s

/-- `DoublingSum::max_step(u, f)` — lines 100-110. -/
def maxStepSum (D : DblSum T) (u : Nat) (p : T → Bool) : M (Nat × T × Nat) := do
  check (p e)
  forDown (D.log + 1) 0 (u, e, 0) (maxStepSumStep op D p)

/-- Lines 114-117. -/
def stepOnceSum (D : DblSum T) (u : Nat) (p : T → Bool) : M (Option (Nat × T × Nat)) := do
  let (v, sum, step) ← maxStepSum op e D u (fun x => ! p x)
  let x ← rd2 D.dat 0 v
  let v ← rd2 D.nxt 0 v
  if ! p (op sum x) then return none else return some (v, op sum x, step + 1)

/-- `DoublingSum::step_until(u, f)` — lines 112-118. -/
def stepUntilSum (D : DblSum T) (u : Nat) (p : T → Bool) : M (Option (Nat × T × Nat)) :=
  if p e then return some (u, e, 0) else stepOnceSum op e D u p

end

/-- `InfinitePath` — lines 140-147. -/
structure Path where
  headV : Nat
  headLen : Nat
  loopV : Nat
  loopLen : Nat
  deriving DecidableEq, Repr

/-- `res`, `vis`, `dep` of `infinite_paths`. -/
structure IP where
  res : Array Path
  vis : Array Nat
  dep : Array Nat

/-- Lines 160-162: found a cycle. The subtraction is on `Nat`; the proofs show that it never truncates (`dep[v] ≤ dep[u]` here). -/
def ipCycle (s : IP) (u v : Nat) : M (IP × Nat) := do
  let du ← rd s.dep u
  let dv ← rd s.dep v
  let res ← wr s.res u ⟨u, 0, u, du - dv + 1⟩
  return ({ s with res := res }, du - dv)

/-- Lines 164-165 and 173-174: `u` leads to `v`, which is known. -/
def ipTail (s : IP) (u v : Nat) : M (IP × Nat) := do
  let r ← rd s.res v
  let res ← wr s.res u ⟨u, r.headLen + 1, r.loopV, r.loopLen⟩
  return ({ s with res := res }, 0)

/-- Lines 170-171. -/
def ipLoop (s : IP) (u v c : Nat) : M (IP × Nat) := do
  let r ← rd s.res v
  let res ← wr s.res u ⟨u, 0, u, r.loopLen⟩
  return ({ s with res := res }, c - 1)

/-- Lines 169-175. -/
def ipBack (u v : Nat) (r : IP × Nat) : M (IP × Nat) := if 0 < r.2 then ipLoop r.1 u v r.2 else ipTail r.1 u v

/-- Line 167. -/
def ipDown (s : IP) (u v : Nat) : M IP := do
  let du ← rd s.dep u
  let dep ← wr s.dep v (du + 1)
  return { s with dep := dep }

/-- Lines 159-175, with `rec` for the recursive call. -/
def ipBranch (rec : IP → Nat → M (IP × Nat)) (s : IP) (u v vu vv : Nat) : M (IP × Nat) :=
  if vv = vu then ipCycle s u v
  else if vv < vu then ipTail s u v
  else do
    let s ← ipDown s u v
    let r ← rec s v
    ipBack u v r

/-- The lambda `dfs` of `infinite_paths` — lines 156-177. -/
def ipDfs (nxt : Array Nat) (time : Nat) : Nat → IP → Nat → M (IP × Nat)
  | 0, _, _ => .error .diverge
  | fuel + 1, s, u => do
    let vis ← wr s.vis u time
    let s := { s with vis := vis }
    let v ← rd nxt u
    let vv ← rd s.vis v
    let vu ← rd s.vis u
    ipBranch (ipDfs nxt time fuel) s u v vu vv

/-- `if (vis[i] == _n) dfs(dfs, i)` with `time = i` — line 178. -/
def ipStart (nxt : Array Nat) (i : Nat) (s : IP) : M IP := do
  let x ← rd s.vis i
  if x = nxt.size then do
    let r ← ipDfs nxt i (nxt.size + 1) s i
    return r.1
  else return s

/-- `infinite_paths()` — lines 149-180. -/
def infinitePaths (nxt : Array Nat) : M (Array Path) := do
  let n := nxt.size
  let s ← forUp 0 n (⟨Array.replicate n ⟨0, 0, 0, 0⟩, Array.replicate n n, Array.replicate n 0⟩ : IP) (ipStart nxt)
  return s.res

/-- `forest_roots`, `forest`, `qs`. -/
structure KI where
  roots : List Nat
  forest : Array (List Nat)
  qs : Array (List (Int × Nat))

/-- Line 194. -/
def kiPlace (nxt : Array Nat) (s : KI) (p : Path) : M KI :=
  if p.headLen = 0 then return { s with roots := s.roots ++ [p.headV] }
  else do
    let w ← rd nxt p.headV
    let l ← rd s.forest w
    let f ← wr s.forest w (l ++ [p.headV])
    return { s with forest := f }

/-- Lines 195-196. -/
def kiQuery (k : Int) (s : KI) (p : Path) : M KI :=
  if (p.headLen : Int) ≥ k then return s
  else do
    let l ← rd s.qs p.loopV
    let q ← wr s.qs p.loopV (l ++ [(k - p.headLen, p.headV)])
    return { s with qs := q }

/-- Lines 193-196. -/
def kiPath (nxt : Array Nat) (k : Int) (s : KI) (p : Path) : M KI := do
  let s ← kiPlace nxt s p
  kiQuery k s p

/-- `dfs_path` and `res`. -/
abbrev KD := Array Nat × Array Nat

/-- `if (d >= k) res[u] = dfs_path[d - k]` — line 201. -/
def kdSet (k : Int) (s : KD) (u d : Nat) : M KD :=
  if (d : Int) ≥ k then do
    let x ← rd s.1 ((d : Int) - k).toNat
    let r ← wr s.2 u x
    return (s.1, r)
  else return s

/-- The lambda `dfs` of `kth_iterate` — lines 199-203. -/
def kdDfs (forest : Array (List Nat)) (k : Int) : Nat → KD → Nat → Nat → M KD
  | 0, _, _, _ => .error .diverge
  | fuel + 1, s, u, d => do
    let path ← wr s.1 d u
    let s ← kdSet k (path, s.2) u d
    let l ← rd forest u
    forEach l s fun s v => kdDfs forest k fuel s v (d + 1)

/-- `for (v = _nxt[root]; v != root; v = _nxt[v]) cycle.push_back(v)` — line 209. -/
def cycleStep (nxt : Array Nat) (root : Nat) (s : List Nat × Nat) : M (Option (List Nat × Nat)) :=
  if s.2 ≠ root then do
    let w ← rd nxt s.2
    return some (s.1 ++ [s.2], w)
  else return none

/-- Lines 214-216. -/
def kqOne (cycle : Array Nat) (i : Nat) (res : Array Nat) (q : Int × Nat) : M (Array Nat) := do
  let x ← i64 ((i : Int) + q.1)
  let y ← rd cycle (x.tmod cycle.size).toNat
  wr res q.2 y

/-- Lines 212-216: the state is `(seen, res)`. -/
def kqCycle (cycle : Array Nat) (qs : Array (List (Int × Nat))) (i : Nat) (s : Array Bool × Array Nat) : M (Array Bool × Array Nat) := do
  let v ← rd cycle i
  let seen ← wr s.1 v true
  let q ← rd qs v
  let res ← forEach q s.2 (kqOne cycle i)
  return (seen, res)

/-- Lines 208-217. -/
def kqRun (nxt : Array Nat) (qs : Array (List (Int × Nat))) (s : Array Bool × Array Nat) (root : Nat) : M (Array Bool × Array Nat) := do
  let v ← rd nxt root
  let c ← loop (cycleStep nxt root) nxt.size ([root], v)
  forUp 0 c.1.length s (kqCycle c.1.toArray qs)

/-- Lines 207-217. -/
def kqRoot (nxt : Array Nat) (qs : Array (List (Int × Nat))) (s : Array Bool × Array Nat) (root : Nat) : M (Array Bool × Array Nat) := do
  let b ← rd s.1 root
  if b then return s else kqRun nxt qs s root

/-- `kth_iterate(k)` — lines 186-220. -/
def kthIterate (nxt : Array Nat) (k : Int) : M (Array Nat) := do
  check (k ≥ 0)
  let n := nxt.size
  let paths ← infinitePaths nxt
  let s ← forEach paths.toList (⟨[], Array.replicate n [], Array.replicate n []⟩ : KI) (kiPath nxt k)
  let d ← forEach s.roots (Array.replicate n 0, Array.replicate n 0) fun d root => kdDfs s.forest k (n + 1) d root 0
  let r ← forEach s.roots (Array.replicate n false, d.2) (kqRoot nxt s.qs)
  return r.2

end FunctionalGraph
