import Verif.Cxx

/-!
# Model of `library/graph/bipartite_matching.hpp`

`ABSENT` is `none`; `_f < 0` is `none`. The `int` values of `level` are integers.
-/

namespace BipartiteMatching
open Cxx

/-- bipartite_matching.hpp:177-180. -/
structure Obj where
  n : Nat
  m : Nat
  toR : Array (Option Nat)
  toL : Array (Option Nat)
  g : Array (Array Nat)
  f : Option Nat
  deriving DecidableEq

/-- The constructor — bipartite_matching.hpp:16, 180. -/
def Obj.new (n m : Nat) : Obj := ⟨n, m, Array.replicate n none, Array.replicate m none, Array.replicate (n + m) #[], some 0⟩

/-- `v[i].push_back(x)`. -/
def pushRow (g : Array (Array Nat)) (i x : Nat) : M (Array (Array Nat)) := do
  let row ← rd g i
  wr g i (row.push x)

/-- `add_edge(fr, to)` — bipartite_matching.hpp:18-20. -/
def Obj.addEdge (o : Obj) (fr to : Nat) : M Obj := do
  let g ← pushRow o.g fr to
  return { o with g := g, f := none }

/-- `reversed_graph()` — bipartite_matching.hpp:170-174. -/
def Obj.reversed (o : Obj) : M (Array (Array Nat)) := forUp 0 o.n (Array.replicate o.m #[]) fun i h => do
  let row ← rd o.g i
  forEach row.toList h fun h j => pushRow h j i

/-- The variables of `bfs`: `level`, `que` and `ok`. -/
structure BSt where
  level : Array Int
  que : List Nat
  ok : Bool

/-- The first loop of `bfs` — bipartite_matching.hpp:53-56. -/
def Obj.bfsInit (o : Obj) (level : Array Int) : M BSt := forUp 0 o.n ⟨level, [], false⟩ fun i t => do
  let r ← rd o.toR i
  match r with
  | none => do
    let level ← wr t.level i 0
    return { t with level := level, que := t.que ++ [i] }
  | some _ => do
    let level ← wr t.level i (-1)
    return { t with level := level }

/-- The body of the inner loop of `bfs` — bipartite_matching.hpp:62-67. -/
def Obj.scan (o : Obj) (l : Nat) (t : BSt) (r : Nat) : M BSt := do
  let a ← rd o.toR l
  if a = some r then return t
  else do
    let lr ← rd t.level (o.n + r)
    if lr < 0 then do
      let nl ← rd o.toL r
      let ll ← rd t.level l
      let level ← wr t.level (o.n + r) (ll + 1)
      match nl with
      | none => return { t with level := level, ok := true }
      | some x => do
        let lx ← rd level x
        if lx < 0 then do
          let level ← wr level x (ll + 2)
          return { t with level := level, que := t.que ++ [x] }
        else return { t with level := level }
    else return t

/-- One round of the outer loop of `bfs` — bipartite_matching.hpp:59-68. -/
def Obj.bfsStep (o : Obj) (t : BSt) : M (Option BSt) :=
  match t.que with
  | [] => return none
  | l :: que => do
    let row ← rd o.g l
    let t ← forEach row.toList { t with que := que } (o.scan l)
    return some t

/-- `bfs()` — bipartite_matching.hpp:52-70; the result is `level` and the value returned. -/
def Obj.bfs (o : Obj) (level : Array Int) : M (Array Int × Bool) := do
  let t ← o.bfsInit level
  let level ← forUp o.n (o.n + o.m) t.level fun i a => wr a i (-1)
  let t ← loop o.bfsStep o.n { t with level := level }
  return (t.level, t.ok)

/-- The variables that `dfs` changes. -/
structure DSt where
  toR : Array (Option Nat)
  toL : Array (Option Nat)
  level : Array Int
  iter : Array Nat

/-- `++i` in the loop of `dfs`, `i` being a reference to `iter[_n + r]` — bipartite_matching.hpp:75. -/
def DSt.bump (t : DSt) (x : Nat) : M DSt := do
  let i ← rd t.iter x
  let it ← wr t.iter x (i + 1)
  return { t with iter := it }

/-- `iter[l] = _m + 1, level[l] = _n + _m` — bipartite_matching.hpp:79, 88. -/
def DSt.kill (n m : Nat) (t : DSt) (l : Nat) : M DSt := do
  let it ← wr t.iter l (m + 1)
  let level ← wr t.level l ((n : Int) + m)
  return { t with iter := it, level := level }

/-- `_to_r[l] = r, _to_l[r] = l` — bipartite_matching.hpp:80, 85. -/
def DSt.pair (t : DSt) (l r : Nat) : M DSt := do
  let toR ← wr t.toR l (some r)
  let toL ← wr t.toL r (some l)
  return { t with toR := toR, toL := toL }

/-- The loop of `dfs(r)` from the state in which it is at `i = iter[_n + r]`; `lv` is `level_v` — bipartite_matching.hpp:74-91. The next round of the loop is a recursive
call, and the call of `dfs(nr)` begins with lines 72-73. The first argument bounds the depth. -/
def go (n m : Nat) (h : Array (Array Nat)) : Nat → Nat → Int → DSt → M (Bool × DSt)
  | 0, _, _, _ => .error .diverge
  | k + 1, r, lv, t => do
    let i ← rd t.iter (n + r)
    let row ← rd h r
    if i < row.size then do
      let l ← rd row i
      let ll ← rd t.level l
      let tl ← rd t.toL r
      let il ← rd t.iter l
      if lv ≤ ll ∨ tl = some l ∨ m < il then do
        let t ← t.bump (n + r)
        go n m h k r lv t
      else do
        let tr ← rd t.toR l
        match tr with
        | none => do
          let t ← t.kill n m l
          let t ← t.pair l r
          return (true, t)
        | some nr =>
          if il ≤ nr then do
            let it ← wr t.iter l (nr + 1)
            let t := { t with iter := it }
            let lnr ← rd t.level (n + nr)
            let res ← (if lnr < ll ∧ 0 ≤ lnr then go n m h k nr lnr t else return (false, t) : M (Bool × DSt))
            if res.1 then do
              let t ← res.2.pair l r
              return (true, t)
            else do
              let t ← res.2.kill n m l
              let t ← t.bump (n + r)
              go n m h k r lv t
          else do
            let t ← t.bump (n + r)
            go n m h k r lv t
    else do
      let level ← wr t.level (n + r) ((n : Int) + m)
      return (false, { t with level := level })

/-- The number of entries of all lists. -/
def total (h : Array (Array Nat)) : Nat := h.foldl (fun s r => s + r.size) 0

/-- `dfs(r)` — bipartite_matching.hpp:71-92. -/
def dfs (n m : Nat) (h : Array (Array Nat)) (r : Nat) (t : DSt) : M (Bool × DSt) := do
  let lv ← rd t.level (n + r)
  if lv < 0 then return (false, t) else go n m h (total h + n + m + 1) r lv t

/-- The loop over the right vertices — bipartite_matching.hpp:95; the state is `_f` and the variables of `dfs`. -/
def phase (n m : Nat) (h : Array (Array Nat)) (f : Nat) (t : DSt) : M (Nat × DSt) := forUp 0 m (f, t) fun j s => do
  let l ← rd s.2.toL j
  match l with
  | some _ => return s
  | none => do
    let res ← dfs n m h j s.2
    return (if res.1 then s.1 + 1 else s.1, res.2)

/-- One round of the outer loop of `solve()` — bipartite_matching.hpp:93-96; the state is the object, `_f` and `level`. -/
def solveStep (h : Array (Array Nat)) (s : Obj × Nat × Array Int) : M (Option (Obj × Nat × Array Int)) := do
  let b ← s.1.bfs s.2.2
  if b.2 then do
    let p ← phase s.1.n s.1.m h s.2.1 ⟨s.1.toR, s.1.toL, b.1, Array.replicate (s.1.n + s.1.m) 0⟩
    return some ({ s.1 with toR := p.2.toR, toL := p.2.toL }, p.1, p.2.level)
  else return none

/-- `solve()` — bipartite_matching.hpp:46-98; the result is the object and the value returned. -/
def Obj.solve (o : Obj) : M (Obj × Nat) :=
  match o.f with
  | some f => return (o, f)
  | none => do
    let h ← o.reversed
    let s ← loop (solveStep h) o.m (o, 0, Array.replicate (o.n + o.m) 0)
    return ({ s.1 with f := some s.2.1 }, s.2.1)

/-- `if (_f < 0) solve();` — bipartite_matching.hpp:101, 120. -/
def Obj.ensure (o : Obj) : M Obj :=
  match o.f with
  | some _ => return o
  | none => do
    let r ← o.solve
    return r.1

/-- `max_matching()` — bipartite_matching.hpp:100-106. -/
def Obj.maxMatching (o : Obj) : M (Obj × List (Nat × Nat)) := do
  let o ← o.ensure
  let res ← forUp 0 o.n [] fun i res => do
    let r ← rd o.toR i
    match r with
    | none => return res
    | some r => return res ++ [(i, r)]
  return (o, res)

/-- The body of the loops of `min_edge_cover()` — bipartite_matching.hpp:112-115; the state is `vl`, `vr` and `res`. -/
def coverStep (u : Nat) (s : Array Bool × Array Bool × List (Nat × Nat)) (v : Nat) : M (Array Bool × Array Bool × List (Nat × Nat)) := do
  let a ← rd s.1 u
  let b ← (if a then rd s.2.1 v else return false : M Bool)
  if b then return s
  else do
    let vr ← wr s.2.1 v true
    let vl ← wr s.1 u true
    return (vl, vr, s.2.2 ++ [(u, v)])

/-- `min_edge_cover()` — bipartite_matching.hpp:108-117. Both flag vectors have `_n` entries (line 110). -/
def Obj.minEdgeCover (o : Obj) : M (Obj × List (Nat × Nat)) := do
  let r ← o.maxMatching
  let o := r.1
  let fl ← forEach r.2 (Array.replicate o.n false, Array.replicate o.n false) fun s p => do
    let vr ← wr s.2 p.2 true
    let vl ← wr s.1 p.1 true
    return (vl, vr)
  let s ← forUp 0 o.n (fl.1, fl.2, r.2) fun u s => do
    let row ← rd o.g u
    forEach row.toList s (coverStep u)
  return (o, s.2.2)

/-- The body of the loops that build the graph — bipartite_matching.hpp:123-130; the state is `g` and `cl`. -/
def Obj.orient (o : Obj) (u : Nat) (s : Array (Array Nat) × Array Bool) (v : Nat) : M (Array (Array Nat) × Array Bool) := do
  let a ← rd o.toR u
  if a = some v then do
    let g ← pushRow s.1 (v + o.n) u
    let cl ← wr s.2 u false
    return (g, cl)
  else do
    let g ← pushRow s.1 u (v + o.n)
    return (g, s.2)

/-- The variables of the search of `min_vertex_cover()`: `cl`, `cr`, `vis` and `dq`. -/
structure VSt where
  cl : Array Bool
  cr : Array Bool
  vis : Array Bool
  dq : List Nat

/-- The body of the inner loop of the search — bipartite_matching.hpp:140-145. -/
def visit (n : Nat) (t : VSt) (v : Nat) : M VSt := do
  let b ← rd t.vis v
  if b then return t
  else do
    let vis ← wr t.vis v true
    if v < n then do
      let cl ← wr t.cl v true
      return { t with vis := vis, cl := cl, dq := t.dq ++ [v] }
    else do
      let cr ← wr t.cr (v - n) true
      return { t with vis := vis, cr := cr, dq := t.dq ++ [v] }

/-- One round of the search — bipartite_matching.hpp:137-146. -/
def visitStep (n : Nat) (g : Array (Array Nat)) (t : VSt) : M (Option VSt) :=
  match t.dq with
  | [] => return none
  | u :: dq => do
    let row ← rd g u
    let t ← forEach row.toList { t with dq := dq } (visit n)
    return some t

/-- `min_vertex_cover()` — bipartite_matching.hpp:119-151. -/
def Obj.minVertexCover (o : Obj) : M (Obj × List Nat) := do
  let o ← o.ensure
  let s ← forUp 0 o.n (Array.replicate (o.n + o.m) #[], Array.replicate o.n true) fun u s => do
    let row ← rd o.g u
    forEach row.toList s (o.orient u)
  let t ← forUp 0 o.n ⟨s.2, Array.replicate o.m false, Array.replicate (o.n + o.m) false, []⟩ fun i (t : VSt) => do
    let c ← rd t.cl i
    if c then do
      let vis ← wr t.vis i true
      return { t with vis := vis, dq := t.dq ++ [i] }
    else return t
  let t ← loop (visitStep o.n s.1) (o.n + o.m) t
  let res ← forUp 0 o.n [] fun i res => do
    let c ← rd t.cl i
    if c then return res else return res ++ [i]
  let res ← forUp 0 o.m res fun i res => do
    let c ← rd t.cr i
    if c then return res ++ [o.n + i] else return res
  return (o, res)

/-- `max_independent_set()` — bipartite_matching.hpp:153-159. -/
def Obj.maxIndependentSet (o : Obj) : M (Obj × List Nat) := do
  let c ← o.minVertexCover
  let use ← forEach c.2 (Array.replicate (o.n + o.m) true) fun a v => wr a v false
  let res ← forUp 0 (o.n + o.m) [] fun i res => do
    let b ← rd use i
    if b then return res ++ [i] else return res
  return (c.1, res)

end BipartiteMatching
