import Verif.Proof.DualSegmentTree
import Verif.Props.LazySegmentTree

/-!
# CommutativeDualSegmentTree and DualSegmentTree: property C12

`mapping(f, x) = f • x`, `composition(f, g) = f * g`, `id() = 1`: any monoid acting on any type.  For `CommutativeDualSegmentTree` the
monoid is commutative.  Abstract state: the current array `f : Nat → T`.
-/

namespace DualSegmentTree
open Cxx

variable {T F : Type} [Monoid F] [MulAction F T]

/-- `apply(l, r, φ)` maps the elements of `[l, r)`. -/
def next (f : Nat → T) : Op F → Nat → T
  | .get _ => f
  | .apply l r φ => fun i => if l ≤ i ∧ i < r then φ • f i else f i

/-- In-range arguments. -/
def Pre (n : Nat) (_ : Nat → T) : Op F → Prop
  | .get i => i < n
  | .apply l r _ => l ≤ r ∧ r ≤ n

instance (n : Nat) (f : Nat → T) (c : Op F) : Decidable (Pre n f c) := by
  cases c <;> (unfold Pre; infer_instance)

/-- `get(i)` returns the current element. -/
def Ans (f : Nat → T) : Op F → Out T → Prop
  | .get i, o => o = .val (f i)
  | .apply _ _ _, o => o = .unit

theorem stepD_sim (n : Nat) (s : State T F) (f : Nat → T) (c : Op F) (h : ∃ m lg, Rep n m lg f s) (hp : Pre n f c) :
    Tot (stepD (prm T F) s c) fun r => (∃ m lg, Rep n m lg (next f c) r.1) ∧ Ans f c r.2 := by
  obtain ⟨m, lg, h⟩ := h
  cases c with
  | get i =>
    simp only [stepD, get_eq h hp, ok_bind]
    exact Tot.pure ⟨⟨m, lg, h⟩, rfl⟩
  | apply l r φ => exact Tot.bind (applyD_tot h hp.1 hp.2 φ) fun s' h' => Tot.pure ⟨⟨m, lg, h'⟩, rfl⟩

theorem stepC_sim {F : Type} [CommMonoid F] [MulAction F T] (n : Nat) (s : State T F) (f : Nat → T) (c : Op F) (h : ∃ m lg, Rep n m lg f s)
    (hp : Pre n f c) : Tot (stepC (prm T F) s c) fun r => (∃ m lg, Rep n m lg (next f c) r.1) ∧ Ans f c r.2 := by
  obtain ⟨m, lg, h⟩ := h
  cases c with
  | get i =>
    simp only [stepC, get_eq h hp, ok_bind]
    exact Tot.pure ⟨⟨m, lg, h⟩, rfl⟩
  | apply l r φ =>
    exact Tot.bind (applyC_tot h hp.1 hp.2 φ (fun _ => True) trivial (fun _ _ _ _ _ _ => trivial) (fun _ _ _ _ => mul_comm _ _))
      fun s' h' => Tot.pure ⟨⟨m, lg, h'⟩, rfl⟩

/-- **C12**, non-commutative maps. `f` is any description of the initial vector. -/
theorem dualSegmentTree_correct (a : Array T) (f : Nat → T) (hf : ∀ i, (h : i < a.size) → f i = a[i]) (ops : List (Op F))
    (hv : ValidOps (Pre a.size) next f ops) :
    ∃ s0 s outs, ofVector (prm T F) a = .ok s0 ∧ runOps (stepD (prm T F)) s0 ops = .ok (s, outs) ∧ TraceOk next Ans f ops outs := by
  obtain ⟨s0, e0, h0⟩ := ofVector_tot (F := F) a f hf
  obtain ⟨⟨s, outs⟩, e, -, h⟩ := refine (Sim := fun s f => ∃ m lg, Rep a.size m lg f s) (stepD_sim a.size) h0 hv
  exact ⟨s0, s, outs, e0, e, h⟩

/-- **C12**, commutative maps. -/
theorem commutativeDualSegmentTree_correct {F : Type} [CommMonoid F] [MulAction F T] (a : Array T) (f : Nat → T)
    (hf : ∀ i, (h : i < a.size) → f i = a[i]) (ops : List (Op F)) (hv : ValidOps (Pre a.size) next f ops) :
    ∃ s0 s outs, ofVector (prm T F) a = .ok s0 ∧ runOps (stepC (prm T F)) s0 ops = .ok (s, outs) ∧ TraceOk next Ans f ops outs := by
  obtain ⟨s0, e0, h0⟩ := ofVector_tot (F := F) a f hf
  obtain ⟨⟨s, outs⟩, e, -, h⟩ := refine (Sim := fun s f => ∃ m lg, Rep a.size m lg f s) (stepC_sim a.size) h0 hv
  exact ⟨s0, s, outs, e0, e, h⟩

/-! ### The hypotheses are met -/

open LazySegmentTree (Seg Aff) in
/-- Affine maps (not commutative) on five elements. -/
def demoOps : List (Op Aff) := [.apply 1 4 ⟨2, 1⟩, .apply 0 3 ⟨3, 0⟩, .apply 2 5 ⟨1, 7⟩, .get 2, .apply 0 5 ⟨0, 1⟩, .get 4]

open LazySegmentTree (Seg Aff demoInit) in
example : ValidOps (Pre (T := Seg) demoInit.size) next (fun i => demoInit[i]?.getD ⟨0, 0⟩) demoOps := by decide

open LazySegmentTree (Seg Aff demoInit) in
example : (ofVector (prm Seg Aff) demoInit >>= fun s => runOps (stepD (prm Seg Aff)) s demoOps >>= fun r => .ok r.2) =
    .ok [.unit, .unit, .unit, .val ⟨28, 1⟩, .unit, .val ⟨1, 1⟩] := by decide +kernel

end DualSegmentTree
