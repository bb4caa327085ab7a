import Verif.Model.PersistentArray

/-!
# Persistent arrays: specification

A history keeps every array it has obtained (the versions, numbered from 0) and may use each of them any number of times.
-/

namespace PersistentArray
open Cxx

variable {T : Type}

/-- The calls. `v` is the number of a version. -/
inductive Op (T : Type)
  /-- `PersistentArray(init)`: a new version. -/
  | make (init : Array T)
  /-- `versions[v].get(i)`. -/
  | get (v i : Nat)
  /-- `versions[v].set(i, x)`: a new version. -/
  | set (v i : Nat) (x : T)
  /-- `versions[v].clone()`: a new version. -/
  | clone (v : Nat)
  /-- `versions[v].mut_set(i, x)`. -/
  | mutSet (v i : Nat) (x : T)

/-- What a call returns. -/
inductive Out (T : Type)
  | unit
  | val (x : T)
  deriving DecidableEq

/-- One call on the pool and the roots of the versions. -/
def step (lg : Nat) (s : Heap T × List (Option Nat)) : Op T → M ((Heap T × List (Option Nat)) × Out T)
  | .make init => do
    let (h, r) ← build lg s.1 init
    return ((h, s.2 ++ [r]), .unit)
  | .get v i => do
    let x ← get lg s.1 (s.2.getD v none) i
    return (s, .val x)
  | .set v i x => do
    let (h, r) ← set lg s.1 (s.2.getD v none) i x
    return ((h, s.2 ++ [r]), .unit)
  | .clone v => do
    let (h, r) ← clone s.1 (s.2.getD v none)
    return ((h, s.2 ++ [r]), .unit)
  | .mutSet v i x => do
    let (h, y) ← mutSet lg s.1 (s.2.getD v none) i x
    return ((h, s.2), .val y)

/-- The number of nodes on the way to element `i`, the root not counted. -/
def depth (lg : Nat) (i : Nat) : Nat := if h : i = 0 then 0 else depth lg ((i - 1) / 2 ^ lg) + 1
termination_by i
decreasing_by exact Nat.lt_of_le_of_lt (Nat.div_le_self _ _) (by omega)

/-- What decides whether a call is allowed: the sizes of the versions and the number of pool nodes used. -/
structure Use where
  sizes : List Nat
  used : Nat

/-- The effect of a call on sizes and pool use. -/
def next (lg : Nat) (u : Use) : Op T → Use
  | .make init => ⟨u.sizes ++ [init.size], u.used + init.size⟩
  | .get _ _ => u
  | .set v i _ => ⟨u.sizes ++ [u.sizes.getD v 0], u.used + depth lg i + 1⟩
  | .clone v => ⟨u.sizes ++ [u.sizes.getD v 0], u.used + if u.sizes.getD v 0 = 0 then 0 else 1⟩
  | .mutSet _ _ _ => u

/-- Indices are in range and the pool is large enough. -/
def Pre (lg cap : Nat) (u : Use) : Op T → Prop
  | .make init => u.used + init.size ≤ cap
  | .get v i => v < u.sizes.length ∧ i < u.sizes.getD v 0
  | .set v i _ => v < u.sizes.length ∧ i < u.sizes.getD v 0 ∧ u.used + depth lg i + 1 ≤ cap
  | .clone v => v < u.sizes.length ∧ u.used + (if u.sizes.getD v 0 = 0 then 0 else 1) ≤ cap
  | .mutSet v i _ => v < u.sizes.length ∧ i < u.sizes.getD v 0

instance (lg cap : Nat) (u : Use) (op : Op T) : Decidable (Pre lg cap u op) := by
  cases op <;> unfold Pre <;> infer_instance

/-- The arrays before a call, its answer, the arrays afterwards. Only `mut_set` changes an existing version: element `i` of the version it is called on, possibly the same element of versions sharing it, and nothing else. -/
def Rel (vs : List (Array T)) : Op T → Out T → List (Array T) → Prop
  | .make init, o, vs' => o = .unit ∧ vs' = vs ++ [init]
  | .get v i, o, vs' => vs' = vs ∧ ∃ x, (vs.getD v #[])[i]? = some x ∧ o = .val x
  | .set v i x, o, vs' => o = .unit ∧ vs' = vs ++ [(vs.getD v #[]).setIfInBounds i x]
  | .clone v, o, vs' => o = .unit ∧ vs' = vs ++ [vs.getD v #[]]
  | .mutSet v i x, o, vs' => (∃ y, (vs.getD v #[])[i]? = some y ∧ o = .val y) ∧ vs'.length = vs.length ∧
      vs'.getD v #[] = (vs.getD v #[]).setIfInBounds i x ∧
      ∀ w, w < vs.length → vs'.getD w #[] = vs.getD w #[] ∨ vs'.getD w #[] = (vs.getD w #[]).setIfInBounds i x

end PersistentArray
