import Verif.Model.UnionFindLazy
import Verif.Props.UnionFind
import Verif.Proof.ComponentSum
import Mathlib.Algebra.Group.Basic

/-!
# Values on connected components

The abstract state consists of the pairs merged so far and the current value of every vertex.
-/

namespace UnionFindLazy
open UnionFind (Connected)

/-- The requirements of the template arguments: a commutative group of values, a group of operators, which acts on values, and applied to a
sum of `k` values acts on all summands. -/
structure Lawful {T F : Type} [AddCommGroup T] [Group F] (fn : Fns T F) : Prop where
  mergeSum : ∀ a b, fn.mergeSum a b = a + b
  neg : ∀ a, fn.neg a = -a
  comp : ∀ f g, fn.comp f g = f * g
  ident : fn.ident = 1
  inv : ∀ f, fn.inv f = f⁻¹
  one : ∀ a, fn.mapping 1 a 1 = a
  mul : ∀ f g a, fn.mapping (f * g) a 1 = fn.mapping f (fn.mapping g a 1) 1
  add : ∀ f a b (j k : Nat), fn.mapping f (a + b) ((j + k : Nat) : Int) = fn.mapping f a j + fn.mapping f b k

variable {T F : Type}

/-- Merged pairs and values. -/
structure Abs (T : Type) where
  es : List (Nat × Nat)
  v : Nat → T

/-- All arguments are vertices. -/
def Pre (n : Nat) (_ : Abs T) : Op T F → Prop
  | .merge x y => x < n ∧ y < n
  | .same x y => x < n ∧ y < n
  | .size x => x < n
  | .component x => x < n
  | .getComponent x => x < n
  | .getPoint x => x < n
  | .applyComponent x _ => x < n
  | .applyPoint x _ => x < n
  | .setPoint x _ => x < n
  | .propagate x => x < n

open Classical in
/-- The effect of a call. -/
noncomputable def next (fn : Fns T F) (t : Abs T) : Op T F → Abs T
  | .merge x y => ⟨(x, y) :: t.es, t.v⟩
  | .applyComponent x f => ⟨t.es, fun y => if Connected t.es x y then fn.mapping f (t.v y) 1 else t.v y⟩
  | .applyPoint x f => ⟨t.es, fun y => if y = x then fn.mapping f (t.v y) 1 else t.v y⟩
  | .setPoint x a => ⟨t.es, fun y => if y = x then a else t.v y⟩
  | _ => t

/-- What a call returns. -/
def Ans [AddCommMonoid T] (n : Nat) (t : Abs T) : Op T F → Out T → Prop
  | .merge x y, .bool b => b = true ↔ ¬ Connected t.es x y
  | .same x y, .bool b => b = true ↔ Connected t.es x y
  | .size x, .int k => k = Set.ncard {y | y < n ∧ Connected t.es x y}
  | .component x, .list l => l.Nodup ∧ ∀ y, y ∈ l ↔ y < n ∧ Connected t.es x y
  | .getComponent x, .val a => a = ComponentSum.compSum n t.es t.v x
  | .getPoint x, .val a => a = t.v x
  | .applyComponent _ _, .unit => True
  | .applyPoint _ _, .unit => True
  | .setPoint _ _, .unit => True
  | .propagate _, .unit => True
  | _, _ => False

end UnionFindLazy
