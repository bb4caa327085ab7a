import Verif.Model.PersistentTree
import Mathlib.Algebra.Group.Action.Defs
import Mathlib.Data.Nat.Log
import Mathlib.Logic.Function.Basic

/-!
# What the persistent segment trees are for

Every call makes a new version of an array and leaves the earlier ones alone. Versions are numbered in the order in which they are made. A version is its length and its elements.
-/

namespace PTree

variable {X Op : Type}

/-- A version: its length and its elements. -/
abbrev Ver (X : Type) := Nat × (Nat → X)

/-- What the calls of a class are for: when a call is allowed, which version it makes, and how many nodes of the pool it needs at most. -/
structure Calls (X Op : Type) where
  ok : List (Ver X) → Op → Prop
  make : List (Ver X) → Op → Ver X
  need : List (Ver X) → Op → Nat

/-- From the versions `vs` on all calls are allowed and a pool of `cap` nodes, `u` of them used, is large enough. -/
def ValidFrom (C : Calls X Op) (cap : Nat) : List (Ver X) → Nat → List Op → Prop
  | _, _, [] => True
  | vs, u, o :: ops => C.ok vs o ∧ u + C.need vs o ≤ cap ∧ ValidFrom C cap (vs ++ [C.make vs o]) (u + C.need vs o) ops

/-- The history is allowed with a pool of `cap` nodes. -/
def Valid (C : Calls X Op) (cap : Nat) (ops : List Op) : Prop := ValidFrom C cap [] 0 ops

/-- The versions that the history makes. -/
def versions (C : Calls X Op) (ops : List Op) : List (Ver X) := ops.foldl (fun vs o => vs ++ [C.make vs o]) []

/-- The template arguments of a lazy tree. -/
def prm (T F : Type) [Monoid T] [Monoid F] [MulAction F T] : Prm T F := ⟨(· * ·), 1, (· • ·), (· * ·), 1⟩

/-- The template arguments of a tree without maps. -/
def segPrm (T : Type) [Monoid T] : Prm T Unit := ⟨(· * ·), 1, fun _ x => x, fun _ _ => (), ()⟩

/-- The template arguments of a tree without products. -/
def dualPrm (F : Type) [Monoid F] : Prm Unit F := ⟨fun _ _ => (), (), fun _ x => x, (· * ·), 1⟩

/-- The elements of a vector. -/
def elems [One X] (a : Array X) : Ver X := (a.size, fun i => a[i]?.getD 1)

/-- Version number `v`. -/
def ver [One X] (vs : List (Ver X)) (v : Nat) : Ver X := vs.getD v (0, fun _ => 1)

/-- The version `a` after a change of element `i`. -/
def change (a : Ver X) (i : Int) (f : X → X) : Ver X := (a.1, Function.update a.2 i.toNat (f (a.2 i.toNat)))

/-- The version `a` after a change of the elements with `l ≤ i < r`. -/
def changeRange (a : Ver X) (l r : Int) (f : X → X) : Ver X := (a.1, fun i => if l ≤ i ∧ (i : Int) < r then f (a.2 i) else a.2 i)

end PTree

namespace PersistentSegmentTree
open PTree

/-- The calls of `PersistentSegmentTree`. -/
def calls (T : Type) [Monoid T] : Calls T (Op T) where
  ok vs
    | .dflt => True
    | .ofVec dat => 0 < dat.size
    | .ofSize n => 0 < n
    | .apply v i _ => v < vs.length ∧ 0 ≤ i ∧ i < (ver vs v).1
    | .set v i _ => v < vs.length ∧ 0 ≤ i ∧ i < (ver vs v).1
  make vs
    | .dflt => (0, fun _ => 1)
    | .ofVec dat => elems dat
    | .ofSize n => (n, fun _ => 1)
    | .apply v i f => change (ver vs v) i f
    | .set v i x => change (ver vs v) i fun _ => x
  need vs
    | .dflt => 0
    | .ofVec dat => 2 * dat.size - 1
    | .ofSize n => 2 * n - 1
    | .apply v _ _ => Nat.clog 2 (ver vs v).1 + 1
    | .set v _ _ => Nat.clog 2 (ver vs v).1 + 1

end PersistentSegmentTree

namespace PersistentLazySegmentTree
open PTree

/-- The calls of `PersistentLazySegmentTree`. -/
def calls (T F : Type) [Monoid T] [Monoid F] [MulAction F T] : Calls T (Op T F) where
  ok vs
    | .dflt => True
    | .ofVec dat => 0 < dat.size
    | .ofSize n => 0 < n
    | .applyAll v _ => v < vs.length
    | .apply v _ _ _ => v < vs.length
    | .applyAt v i _ => v < vs.length ∧ 0 ≤ i ∧ i < (ver vs v).1
    | .set v i _ => v < vs.length ∧ 0 ≤ i ∧ i < (ver vs v).1
  make vs
    | .dflt => (0, fun _ => 1)
    | .ofVec dat => elems dat
    | .ofSize n => (n, fun _ => 1)
    | .applyAll v f => ((ver vs v).1, fun i => f • (ver vs v).2 i)
    | .apply v l r f => changeRange (ver vs v) l r (f • ·)
    | .applyAt v i f => change (ver vs v) i f
    | .set v i x => change (ver vs v) i fun _ => x
  need vs
    | .dflt => 0
    | .ofVec dat => 2 * dat.size - 1
    | .ofSize n => 2 * n - 1
    | .applyAll _ _ => 1
    | .apply v _ _ _ => 8 * Nat.clog 2 (ver vs v).1 + 1
    | .applyAt v _ _ => 2 * Nat.clog 2 (ver vs v).1 + 1
    | .set v _ _ => 2 * Nat.clog 2 (ver vs v).1 + 1

end PersistentLazySegmentTree

namespace PersistentDualSegmentTree
open PTree

/-- The calls of `PersistentDualSegmentTree` (`comm` false) and of `PersistentCommutativeDualSegmentTree` (`comm` true, which needs half of the nodes). -/
def calls (F : Type) [Monoid F] (comm : Bool) : Calls F (Op F) where
  ok vs
    | .dflt => True
    | .ofSize _ => True
    | .applyAll v _ => v < vs.length
    | .apply v _ _ _ => v < vs.length
  make vs
    | .dflt => (0, fun _ => 1)
    | .ofSize n => (n, fun _ => 1)
    | .applyAll v f => ((ver vs v).1, fun i => f * (ver vs v).2 i)
    | .apply v l r f => changeRange (ver vs v) l r (f * ·)
  need vs
    | .dflt => 0
    | .ofSize n => 2 * n - 1 + (if n = 0 then 1 else 0)
    | .applyAll _ _ => 1
    | .apply v _ _ _ => (if comm then 4 else 8) * Nat.clog 2 (ver vs v).1 + 1

end PersistentDualSegmentTree
