import Verif.Proof.UnionFindLazy
import Mathlib.Algebra.Group.TypeTags.Basic
import Mathlib.Algebra.Group.Int.Defs

/-!
# C119: `UnionFindLazy` keeps values of vertices and sums of components

The template arguments have to form a commutative group of values, a group of operators and an action (`Lawful`). Then for every history
of in-range calls `get_point(x)` is the value of `x` after all operators applied to `x` or to its component *at that time*, and
`get_component(x)` is the sum of the values of all vertices connected to `x`.
-/

namespace UnionFindLazy
open Cxx
open UnionFind (Connected)

variable {T F : Type} [AddCommGroup T] [Group F]

/-- Every history of in-range calls runs without undefined behaviour and every answer is right. -/
theorem history_correct {fn : Fns T F} (hf : Lawful fn) (a : Array T) (ops : List (Op T F))
    (hv : ValidOps (Pre a.size) (next fn) ⟨[], fun y => a[y]?.getD 0⟩ ops) :
    ∃ s outs, runOps (step fn) (init fn a) ops = .ok (s, outs) ∧ TraceOk (next fn) (Ans a.size) ⟨[], fun y => a[y]?.getD 0⟩ ops outs := by
  obtain ⟨⟨s, outs⟩, e, -, h⟩ := refine (step_sim hf a.size) (sim_init hf a) hv
  exact ⟨s, outs, e, h⟩

/-- After any history and `propagate(x)`, `raw_value(y)` is the value of `y` for every `y` connected to `x`. -/
theorem propagate_raw {fn : Fns T F} (hf : Lawful fn) (a : Array T) (ops : List (Op T F))
    (hv : ValidOps (Pre a.size) (next fn) ⟨[], fun y => a[y]?.getD 0⟩ ops) {x : Nat} (hx : x < a.size) :
    ∃ s outs s', runOps (step fn) (init fn a) ops = .ok (s, outs) ∧ propagate fn s x = .ok s' ∧
      ∀ y, y < a.size → Connected (ops.foldl (next fn) ⟨[], fun y => a[y]?.getD 0⟩).es x y →
        rawValue s' y = .ok ((ops.foldl (next fn) ⟨[], fun y => a[y]?.getD 0⟩).v y) := by
  obtain ⟨⟨s, outs⟩, e, ⟨R, rk, v, V, L, hG, hv', hR⟩, -⟩ := refine (step_sim hf a.size) (sim_init hf a) hv
  obtain ⟨s', e', V', L', hG', h'⟩ := propagate_tot hf hG hx
  refine ⟨s, outs, s', e, e', fun y hy hc => ?_⟩
  unfold rawValue
  rw [hG'.val.rd hy, h' y hy ((hR x y hx hy).mpr hc).symm, hv' y hy]

/-! ### The hypotheses are satisfiable -/

/-- Sums of integers, with addition of a constant to all values. -/
def addFns : Fns Int (Multiplicative Int) where
  mergeSum a b := a + b
  neg a := -a
  mapping f v k := v + f.toAdd * k
  comp f g := f * g
  ident := 1
  inv f := f⁻¹
  moved _ := -1000

theorem addFns_lawful : Lawful addFns where
  mergeSum _ _ := rfl
  neg _ := rfl
  comp _ _ := rfl
  ident := rfl
  inv _ := rfl
  one a := by simp [addFns]
  mul f g a := by simp only [addFns, toAdd_mul]; ring
  add f a b j k := by simp only [addFns]; push_cast; ring

/-- Merges between updates of points and components. -/
def sample : List (Op Int (Multiplicative Int)) :=
  [.applyComponent 0 (.ofAdd 5), .merge 0 1, .applyComponent 1 (.ofAdd 7), .merge 2 3, .setPoint 2 50, .merge 1 2, .applyPoint 3 (.ofAdd 1),
   .getPoint 0, .getPoint 1, .getPoint 2, .getPoint 3, .getComponent 3, .propagate 0, .size 2, .component 0]

example : ValidOps (Pre (#[1, 10, 100, (1000 : Int)]).size) (next addFns) ⟨[], fun y => #[1, 10, 100, (1000 : Int)][y]?.getD 0⟩ sample := by
  simp [sample, ValidOps, Pre]

example : (runOps (step addFns) (init addFns #[1, 10, 100, (1000 : Int)]) sample).toOption.map (·.2) =
    some [.unit, .bool true, .unit, .bool true, .unit, .bool true, .unit, .val 13, .val 17, .val 50, .val 1001, .val 1081, .unit, .int 4,
      .list [0, 3, 2, 1]] := by
  decide +kernel

end UnionFindLazy
