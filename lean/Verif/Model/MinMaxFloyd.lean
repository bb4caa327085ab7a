import Verif.Model.FunctionalGraph
import Verif.Model.Util

/-!
# Model of `library/graph/minmax_floyd_warshall.hpp`

64-bit words are naturals below `2^64`. `std::sort` is a parameter. `edges[i * n + j] = …` for consecutive positions is modelled by appending (the product `n * n` is assumed to fit an `int`). `T()` is the parameter `d`.
-/

namespace MinMaxFloyd
open Cxx FunctionalGraph

variable {α : Type}

/-- `G`, `rG`, `res` — lines 21-22. -/
structure St (α : Type) where
  G : Array (Array Nat)
  rG : Array (Array Nat)
  res : Array (Array α)

/-- `E` — line 24. -/
abbrev Ed (α : Type) := α × Nat × Nat

/-- `~x` on 64 bits. -/
def bnot (x : Nat) : Nat := 2 ^ 64 - 1 - x

/-- `add_edge` — lines 34-45. -/
def addEdge (cost : α) (u v : Nat) (s : St α) : M (St α × Bool) := do
  let x ← rd2 s.G u (v >>> 6)
  if (x >>> (v &&& 63)) &&& 1 = 1 then return (s, false)
  else do
    let res ← wr2 s.res u v cost
    let G ← wr2 s.G u (v >>> 6) (x ||| 1 <<< (v &&& 63))
    let y ← rd2 s.rG v (u >>> 6)
    let rG ← wr2 s.rG v (u >>> 6) (y ||| 1 <<< (u &&& 63))
    return (⟨G, rG, res⟩, true)

/-- Lines 50-54; `r` is the recursive call. -/
def fwdWord (r : Nat → Nat → St α → M (St α)) (cost : α) (u v i : Nat) (s : St α) : M (St α) := do
  let a ← rd2 s.G v i
  let b ← rd2 s.G u i
  let js ← SubsetIter.allSetbit 64 (a &&& bnot b)
  let s ← forEach js s fun s j => do
    let q ← addEdge cost u (i <<< 6 ||| j) s
    return q.1
  forEach js s fun s j => r u (i <<< 6 ||| j) s

/-- Lines 56-60. -/
def bwdWord (r : Nat → Nat → St α → M (St α)) (cost : α) (u v i : Nat) (s : St α) : M (St α) := do
  let a ← rd2 s.rG u i
  let b ← rd2 s.rG v i
  let js ← SubsetIter.allSetbit 64 (a &&& bnot b)
  let s ← forEach js s fun s j => do
    let q ← addEdge cost (i <<< 6 ||| j) v s
    return q.1
  forEach js s fun s j => r (i <<< 6 ||| j) v s

/-- `rec` — lines 47-62. -/
def recur (m : Nat) (cost : α) : Nat → Nat → Nat → St α → M (St α)
  | 0, _, _, _ => .error .diverge
  | f + 1, u, v, s => forUp 0 m s fun i s => do
    let s ← fwdWord (recur m cost f) cost u v i s
    bwdWord (recur m cost f) cost u v i s

/-- Lines 63-65. -/
def edgeStep (n m : Nat) (s : St α) (e : Ed α) : M (St α) := do
  let q ← addEdge e.1 e.2.1 e.2.2 s
  if q.2 then recur m e.1 (n * n + 1) e.2.1 e.2.2 q.1 else return q.1

/-- Line 27. -/
def cell (c : Array (Array α)) (i : Nat) (j : Nat) (es : List (Ed α)) : M (List (Ed α)) := do
  let x ← rd2 c i j
  return es ++ [(x, i, j)]

/-- `minmax_floyd_warshall` — lines 15-69. -/
def minmax (srt : List (Ed α) → List (Ed α)) (d : α) (c : Array (Array α)) : M (Array (Array α)) := do
  let n := c.size
  let m := (n + 64 - 1) >>> 6
  let es ← forUp 0 n [] fun i es => forUp 0 n es (cell c i)
  let s ← forEach (srt es) ⟨Array.replicate n (Array.replicate m 0), Array.replicate n (Array.replicate m 0), Array.replicate n (Array.replicate n d)⟩ (edgeStep n m)
  return s.res

end MinMaxFloyd
