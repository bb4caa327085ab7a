import Verif.Model.Machine

/-!
# Model of `library/tree/heavy_light_decomposition.hpp`

Vertices are natural numbers and `-1` is `none`; `time`, sizes and visit times are natural numbers (at most `n`), depths are 32 bit integers. The constructors reorder the adjacency lists of their argument; the new lists are part of the result.
-/

namespace HLD
open Cxx

/-- The arrays of the object and the graph — lines 153-154. -/
structure St where
  g : Array (List Nat)
  visit : Array Nat
  leave : Array Nat
  head : Array Nat
  ord : Array Nat
  siz : Array Nat
  par : Array (Option Nat)
  dep : Array Int

/-- `dep[v] = dep[u] + 1` — line 161. -/
def setDep (u v : Nat) (s : St) : M St := do
  let d ← rd s.dep u
  let d ← i32 (d + 1)
  let dep ← wr s.dep v d
  return { s with dep := dep }

/-- `siz[u] += x` — line 162. -/
def addSiz (u x : Nat) (s : St) : M St := do
  let a ← rd s.siz u
  let siz ← wr s.siz u (a + x)
  return { s with siz := siz }

/-- `std::swap(g[u].front(), v)` where `v` is `g[u][i]` — line 165. -/
def swapFront (u i : Nat) (s : St) : M St := do
  let a ← rd s.g u
  let x ← rd a.toArray 0
  let y ← rd a.toArray i
  let g ← wr s.g u ((a.set 0 y).set i x)
  return { s with g := g }

/-- Lines 163-166. -/
def heavy (u i v mx : Nat) (s : St) : M (Nat × St) := do
  let z ← rd s.siz v
  if mx < z then do
    let s ← swapFront u i s
    return (z, s)
  else return (mx, s)

/-- Loop body — lines 159-167; `rec` is `dfs`, which returns `siz[v]`. -/
def kid (rec : Nat → Option Nat → St → M (Nat × St)) (u : Nat) (p : Option Nat) (i : Nat) (q : Nat × St) : M (Nat × St) := do
  let a ← rd q.2.g u
  let v ← rd a.toArray i
  if some v = p then return q else do
  let s ← setDep u v q.2
  let (z, s) ← rec v (some u) s
  let s ← addSiz u z s
  heavy u i v q.1 s

/-- `par[u] = p; siz[u] = 1` — lines 156-157. -/
def enter (u : Nat) (p : Option Nat) (s : St) : M St := do
  let par ← wr s.par u p
  let siz ← wr s.siz u 1
  return { s with par := par, siz := siz }

/-- `dfs` — lines 155-169. -/
def dfs : Nat → Nat → Option Nat → St → M (Nat × St)
  | 0, _, _, _ => .error .diverge
  | fuel + 1, u, p, s => do
    let s ← enter u p s
    let a ← rd s.g u
    let (_, s) ← forUp 0 a.length (0, s) (kid (dfs fuel) u p)
    let z ← rd s.siz u
    return (z, s)

/-- The value of `head[u]`: `p >= 0 and g[p].front() == u ? head[p] : u` — line 172. -/
def headOf (u : Nat) (s : St) : Option Nat → M Nat
  | none => return u
  | some p => do
    let a ← rd s.g p
    let f ← rd a.toArray 0
    if f = u then rd s.head p else return u

/-- Lines 171-172; the first component is `time`. -/
def begin (u : Nat) (p : Option Nat) (q : Nat × St) : M (Nat × St) := do
  let visit ← wr q.2.visit u q.1
  let ord ← wr q.2.ord q.1 u
  let h ← headOf u q.2 p
  let head ← wr q.2.head u h
  return (q.1 + 1, { q.2 with visit := visit, ord := ord, head := head })

/-- `if (v != p) hld(g, v, u, time)` — line 174. -/
def kid2 (rec : Nat → Option Nat → Nat × St → M (Nat × St)) (u : Nat) (p : Option Nat) (q : Nat × St) (v : Nat) : M (Nat × St) :=
  if some v = p then return q else rec v (some u) q

/-- `leave[u] = time` — line 176. -/
def finish (u : Nat) (q : Nat × St) : M (Nat × St) := do
  let leave ← wr q.2.leave u q.1
  return (q.1, { q.2 with leave := leave })

/-- `hld` — lines 170-177. -/
def hld : Nat → Nat → Option Nat → Nat × St → M (Nat × St)
  | 0, _, _, _ => .error .diverge
  | fuel + 1, u, p, q => do
    let q ← begin u p q
    let a ← rd q.2.g u
    let q ← forEach a q (kid2 (hld fuel) u p)
    finish u q

/-- The initial values of the members — lines 22, 27. -/
def init (g : Array (List Nat)) : St :=
  ⟨g, Array.replicate g.size 0, Array.replicate g.size 0, Array.replicate g.size 0, Array.replicate g.size 0, Array.replicate g.size 0, Array.replicate g.size none, Array.replicate g.size 0⟩

/-- `dfs(g, i, -1)` ignoring the result — lines 23, 28. -/
def root1 (i : Nat) (s : St) : M St := do
  let (_, s) ← dfs (s.g.size + 1) i none s
  return s

/-- `if (par[i] < 0) dfs(g, i, -1)` — line 23. -/
def all1 (i : Nat) (s : St) : M St := do
  let p ← rd s.par i
  if p = none then root1 i s else return s

/-- `if (par[i] < 0) hld(g, i, -1, time)` — line 25. -/
def all2 (i : Nat) (q : Nat × St) : M (Nat × St) := do
  let p ← rd q.2.par i
  if p = none then hld (q.2.g.size + 1) i none q else return q

/-- The constructor without roots — lines 22-26. -/
def make (g : Array (List Nat)) : M St := do
  let s ← forUp 0 g.size (init g) all1
  let (_, s) ← forUp 0 g.size (0, s) all2
  return s

/-- The constructor with roots — lines 27-31. -/
def makeRoots (g : Array (List Nat)) (roots : List Nat) : M St := do
  let s ← forEach roots (init g) fun s i => root1 i s
  let (_, s) ← forEach roots (0, s) fun q i => hld (q.2.g.size + 1) i none q
  return s

/-- `if (visit[u] > visit[v]) std::swap(u, v)` — lines 37, 66, 99. -/
def order (t : St) (u v : Nat) : M (Nat × Nat) := do
  let a ← rd t.visit u
  let b ← rd t.visit v
  return if a > b then (v, u) else (u, v)

/-- `v = par[head[v]]`; `-1` is used as an index next, which is undefined behaviour — lines 36, 65, 98. -/
def up (t : St) (v : Nat) : M Nat := do
  let h ← rd t.head v
  let p ← rd t.par h
  match p with
  | none => .error .ub
  | some p => return p

/-- Loop body of `lca` — lines 36-39; the flag says that the loop is left. -/
def lcaStep (t : St) (s : Bool × Nat × Nat) : M (Option (Bool × Nat × Nat)) :=
  if s.1 then return none else do
  let (u, v) ← order t s.2.1 s.2.2
  let a ← rd t.head u
  let b ← rd t.head v
  if a = b then return some (true, u, v) else do
  let v ← up t v
  return some (false, u, v)

/-- `lca` — lines 35-40. -/
def lca (t : St) (u v : Nat) : M Nat := do
  let s ← loop (lcaStep t) (2 * t.visit.size + 2) (false, u, v)
  return s.2.1

/-- Loop body of `la`; the state is `u`, `k` and the result — lines 43-48. -/
def laStep (t : St) (s : Option Nat × Int × Option Nat) : M (Option (Option Nat × Int × Option Nat)) :=
  match s.1, s.2.2 with
  | none, _ => return none
  | some _, some _ => return none
  | some u, none => do
    let h ← rd t.head u
    let a ← rd t.visit u
    let b ← rd t.visit h
    let d ← i32 ((a : Int) - s.2.1)
    if d ≥ b then do
      let x ← rd t.ord d.toNat
      return some (some u, s.2.1, some x)
    else do
      let c ← i32 ((a : Int) - b + 1)
      let k ← i32 (s.2.1 - c)
      let p ← rd t.par h
      return some (p, k, none)

/-- `la` — lines 41-50; `none` is the default value. -/
def la (t : St) (u : Nat) (k : Int) : M (Option Nat) :=
  if k < 0 then return none else do
  let s ← loop (laStep t) (t.visit.size + 2) (some u, k, none)
  return s.2.2

/-- `jump` — lines 51-58; `none` is the default value. -/
def jump (t : St) (u v : Nat) (d : Int) : M (Option Nat) :=
  if d < 0 then return none else do
  let w ← lca t u v
  let du ← rd t.dep u
  let dw ← rd t.dep w
  let uw ← i32 (du - dw)
  if d ≤ uw then la t u d else do
  let dv ← rd t.dep v
  let vw ← i32 (dv - dw)
  let l ← i32 (uw + vw)
  if d ≤ l then do
    let k ← i32 (l - d)
    la t v k
  else return none

/-- `dist` — lines 59-61. -/
def dist (t : St) (u v : Nat) : M Int := do
  let a ← rd t.dep u
  let b ← rd t.dep v
  let w ← lca t u v
  let c ← rd t.dep w
  let x ← i32 (a + b)
  let y ← i32 (2 * c)
  i32 (x - y)

section path
variable {σ T : Type}

/-- Loop body of `update_path` and `fold_path`; `f l r` is the work done for the range `[l, r)` — lines 65-69, 98-102. -/
def pathStep (t : St) (f : Nat → Nat → σ → M σ) (s : Bool × Nat × Nat × σ) : M (Option (Bool × Nat × Nat × σ)) :=
  if s.1 then return none else do
  let (u, v) ← order t s.2.1 s.2.2.1
  let a ← rd t.head u
  let b ← rd t.head v
  if a = b then return some (true, u, v, s.2.2.2) else do
  let l ← rd t.visit b
  let r ← rd t.visit v
  let x ← f l (r + 1) s.2.2.2
  let v ← up t v
  return some (false, u, v, x)

/-- `update_path` — lines 97-104; also the control flow of `fold_path`. -/
def updatePath (t : St) (f : Nat → Nat → σ → M σ) (u v : Nat) (edge : Bool) (x : σ) : M σ := do
  let s ← loop (pathStep t f) (2 * t.visit.size + 2) (false, u, v, x)
  let l ← rd t.visit s.2.1
  let r ← rd t.visit s.2.2.1
  f (l + edge.toNat) (r + 1) s.2.2.2

/-- `fold_path` — lines 63-71. -/
def foldPath (t : St) (op : T → T → T) (q : Nat → Nat → M T) (u v : Nat) (e : T) (edge : Bool) : M T :=
  updatePath t (fun l r x => do
    let y ← q l r
    return op y x) u v edge e

/-- State of `fold_path_noncommutative`. -/
structure FS (T : Type) where
  u : Nat
  v : Nat
  ru : T
  rv : T

/-- Lines 81-87. -/
def ncMove (t : St) (op : T → T → T) (q q' : Nat → Nat → M T) (hu hv vu vv : Nat) (s : FS T) : M (FS T) :=
  if vu < vv then do
    let l ← rd t.visit hv
    let y ← q l (vv + 1)
    let v ← up t s.v
    return { s with v := v, rv := op y s.rv }
  else do
    let l ← rd t.visit hu
    let y ← q' l (vu + 1)
    let u ← up t s.u
    return { s with u := u, ru := op s.ru y }

/-- Loop body — lines 80-88. -/
def ncStep (t : St) (op : T → T → T) (q q' : Nat → Nat → M T) (s : FS T) : M (Option (FS T)) := do
  let hu ← rd t.head s.u
  let hv ← rd t.head s.v
  if hu ≠ hv then do
    let vu ← rd t.visit s.u
    let vv ← rd t.visit s.v
    let s ← ncMove t op q q' hu hv vu vv s
    return some s
  else return none

/-- Lines 89-94. -/
def ncEnd (op : T → T → T) (q q' : Nat → Nat → M T) (edge : Bool) (vu vv : Nat) (s : FS T) : M T :=
  if vu < vv then do
    let y ← q (vu + edge.toNat) (vv + 1)
    return op s.ru (op y s.rv)
  else do
    let y ← q' (vv + edge.toNat) (vu + 1)
    return op (op s.ru y) s.rv

/-- `fold_path_noncommutative` — lines 76-95. -/
def foldPathNC (t : St) (op : T → T → T) (q q' : Nat → Nat → M T) (u v : Nat) (e : T) (edge : Bool) : M T := do
  let s ← loop (ncStep t op q q') (2 * t.visit.size + 2) ⟨u, v, e, e⟩
  let vu ← rd t.visit s.u
  let vv ← rd t.visit s.v
  ncEnd op q q' edge vu vv s

/-- The range of `fold_subtree` and `update_subtree` — lines 106-112. -/
def subtreeRange (t : St) (u : Nat) (edge : Bool) : M (Nat × Nat) := do
  let l ← rd t.visit u
  let r ← rd t.leave u
  return (l + edge.toNat, r)

end path

/-- `inv_ids` — lines 121-125. -/
def invIds (t : St) : M (Array Nat) := forUp 0 t.visit.size (Array.replicate t.visit.size 0) fun i inv => do
  let k ← rd t.visit i
  wr inv k i

/-- `get_roots` — lines 147-151. -/
def getRoots (t : St) : M (List Nat) := forUp 0 t.par.size [] fun i res => do
  let p ← rd t.par i
  return if p = none then res ++ [i] else res

end HLD
