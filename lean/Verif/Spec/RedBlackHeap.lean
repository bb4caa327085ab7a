import Verif.Model.RedBlackHeap

/-!
# Persistent red-black trees: specification

A history keeps all trees it has obtained (`vs`, versions) and may use each of them any number of times.
-/

namespace RedBlackHeap
open Cxx

variable {T : Type}

/-- The calls of the persistent API, except `erase` and `update_value` (and `apply`, which is not modelled). `leaf v` stands for `build({v})`. Trees are given by their positions in the list of versions. -/
inductive Call (T : Type)
  | leaf (v : T)
  | merge (l r : Nat)
  | split (t : Nat) (k : Int)
  | splitRange (t : Nat) (l r : Int)
  | insert (t : Nat) (k : Int) (v : T)
  | get (t : Nat) (k : Int)
  | prod (t : Nat) (l r : Int)
  | swap (t1 : Nat) (l1 r1 : Int) (t2 : Nat) (l2 r2 : Int)
  | cut (t : Nat) (l r : Int)
  | replace (src dst : Nat) (l r : Int)

/-- The `i`-th version; the null pointer beyond the end. -/
def ver (vs : List (Option Nat)) (i : Nat) : Option Nat := vs.getD i none

/-- One call: the new versions. -/
def step (C : Cls T) (fuel : Nat) (vs : List (Option Nat)) : Call T → H T (List (Option Nat))
  | .leaf v => do
    let t ← createLeaf v
    return vs ++ [t]
  | .merge l r => do
    let t ← mergeF C fuel true (ver vs l) (ver vs r)
    return vs ++ [t]
  | .split t k => do
    let a ← splitF C fuel (ver vs t) k
    return vs ++ [a.1, a.2]
  | .splitRange t l r => do
    let a ← splitRange C fuel (ver vs t) l r
    return vs ++ [a.1, a.2.1, a.2.2]
  | .insert t k v => do
    let a ← insert C fuel (ver vs t) k v
    return vs ++ [a]
  | .get t k => do
    let a ← get C fuel (ver vs t) k
    return vs ++ [a.1]
  | .prod t l r => do
    let a ← prod C fuel (ver vs t) l r
    return vs ++ [a.1]
  | .swap t1 l1 r1 t2 l2 r2 => do
    let a ← swap C fuel (ver vs t1) l1 r1 (ver vs t2) l2 r2
    return vs ++ [a.1, a.2]
  | .cut t l r => do
    let a ← cut C fuel (ver vs t) l r
    return vs ++ [a]
  | .replace s d l r => do
    let a ← replace C fuel (ver vs s) (ver vs d) l r
    return vs ++ [a]

/-- A history of calls. -/
def run (C : Cls T) (fuel : Nat) : List (Call T) → List (Option Nat) → H T (List (Option Nat))
  | [], vs => return vs
  | c :: cs, vs => do
    let vs ← step C fuel vs c
    run C fuel cs vs

end RedBlackHeap
