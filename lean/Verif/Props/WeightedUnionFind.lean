import Verif.Proof.WeightedUnionFind
import Mathlib.Tactic.Group
import Verif.Props.UnionFind

/-!
# WeightedUnionFind: property C04

Abstract state: the list of *accepted* constraints `(x, y, d)` meaning "potential of `y` = potential of `x` · `d`".
-/

namespace WeightedUnionFind
open Cxx
open UnionFind (Connected cls mem_cls link)

variable {G : Type} [Group G]

/-- The pairs joined by a list of constraints. -/
def pairs (t : List (Nat × Nat × G)) : List (Nat × Nat) := t.map fun c => (c.1, c.2.1)

/-- `P` is a potential function meeting all constraints. -/
def Sat (t : List (Nat × Nat × G)) (P : Nat → G) : Prop := ∀ x y d, (x, y, d) ∈ t → P y = P x * d

open Classical in
/-- A constraint is accepted iff it joins two components. -/
noncomputable def next (t : List (Nat × Nat × G)) : Op G → List (Nat × Nat × G)
  | .merge x y d => if Connected (pairs t) x y then t else (x, y, d) :: t
  | _ => t

/-- Vertices are in range; `diff` needs connected vertices (the code asserts it). -/
def Pre (n : Nat) (t : List (Nat × Nat × G)) : Op G → Prop
  | .root x => x < n
  | .merge x y _ => x < n ∧ y < n
  | .diff x y => x < n ∧ y < n ∧ Connected (pairs t) x y
  | .same x y => x < n ∧ y < n
  | .size x => x < n
  | .groups => True

/-- `diff x y` is the potential difference in *every* potential meeting the accepted constraints, and there is one. -/
def Ans (n : Nat) (t : List (Nat × Nat × G)) : Op G → Out G → Prop
  | .root x, .vertex r => r < n ∧ Connected (pairs t) x r
  | .merge x y _, .bool b => b = true ↔ ¬ Connected (pairs t) x y
  | .diff x y, .val v => (∃ P, Sat t P) ∧ ∀ P, Sat t P → v = (P x)⁻¹ * P y
  | .same x y, .bool b => b = true ↔ Connected (pairs t) x y
  | .size x, .nat k => k = Set.ncard {y | y < n ∧ Connected (pairs t) x y}
  | .groups, .groups gs =>
      (∀ g ∈ gs, g ≠ []) ∧ gs.flatten.Perm (List.range n) ∧
      ∀ g ∈ gs, ∀ x ∈ g, ∀ y < n, (y ∈ g ↔ Connected (pairs t) x y)
  | _, _ => False

/-- Simulation relation. -/
def Sim (n : Nat) (s : State G) (t : List (Nat × Nat × G)) : Prop :=
  ∃ R rk W, Inv n R rk W s ∧ (∀ x y, x < n → y < n → (R x = R y ↔ Connected (pairs t) x y)) ∧ Sat t W ∧
    ∀ x y d, (x, y, d) ∈ t → x < n ∧ y < n

theorem sat_unique {t : List (Nat × Nat × G)} {P Q : Nat → G} (hP : Sat t P) (hQ : Sat t Q) {x y : Nat}
    (h : Connected (pairs t) x y) : (P x)⁻¹ * P y = (Q x)⁻¹ * Q y := by
  induction h with
  | rel x y h =>
    obtain ⟨⟨a, b, d⟩, hc, e⟩ := List.mem_map.mp h
    simp only [Prod.mk.injEq] at e; obtain ⟨rfl, rfl⟩ := e
    rw [hP _ _ _ hc, hQ _ _ _ hc, inv_mul_cancel_left, inv_mul_cancel_left]
  | refl => simp
  | symm x y _ ih =>
    have := congrArg (·⁻¹) ih
    simpa [mul_inv_rev] using this
  | trans x y z _ _ ih1 ih2 =>
    calc (P x)⁻¹ * P z = ((P x)⁻¹ * P y) * ((P y)⁻¹ * P z) := by group
      _ = ((Q x)⁻¹ * Q y) * ((Q y)⁻¹ * Q z) := by rw [ih1, ih2]
      _ = _ := by group

theorem step_sim (n : Nat) (s : State G) (t : List (Nat × Nat × G)) (op : Op G) (hs : Sim n s t) (hp : Pre n t op) :
    Tot (step (· * ·) 1 (·⁻¹) s op) fun r => Sim n r.1 (next t op) ∧ Ans n t op r.2 := by
  obtain ⟨R, rk, W, hI, hR, hW, hb⟩ := hs
  cases op with
  | root x =>
    refine Tot.bind (root_tot hI hp) ?_
    rintro ⟨d, r⟩ ⟨h1, h2⟩
    simp only at h1 h2; subst h1
    exact Tot.pure ⟨⟨R, rk, W, h2, hR, hW, hb⟩, hI.lt x hp, (hR x _ hp (hI.lt x hp)).mp (hI.idem x hp).symm⟩
  | merge x y d =>
    obtain ⟨hx, hy⟩ := hp
    refine Tot.bind (merge_tot hI hx hy) ?_
    rintro ⟨s', b⟩ ⟨h1, h2⟩
    by_cases e : R x = R y
    · obtain ⟨hb', h1⟩ := h1 e
      have hc := (hR x y hx hy).mp e
      refine Tot.pure ⟨?_, ?_⟩
      · simp only [next, if_pos hc]; exact ⟨R, rk, W, h1, hR, hW, hb⟩
      · show b = true ↔ _
        simp [show b = false from hb', hc]
    · obtain ⟨hb', p, c, rk', r, hpc, h2⟩ := h2 e
      have hc := mt (hR x y hx hy).mpr e
      refine Tot.pure ⟨?_, ?_⟩
      · simp only [next, if_neg hc]
        refine ⟨_, rk', _, h2, fun z w hz hw => ?_, ?_, ?_⟩
        · show _ ↔ Connected ((x, y) :: pairs t) z w
          rw [UnionFind.connected_cons]
          exact UnionFind.link_iff hx hy hR (by rcases hpc with ⟨h1, h2, -⟩ | ⟨h1, h2, -⟩ <;> simp [h1, h2]) z w hz hw
        · intro u v d' hm
          rcases List.mem_cons.mp hm with hm | hm
          · simp only [Prod.mk.injEq] at hm
            obtain ⟨rfl, rfl, rfl⟩ := hm
            rcases hpc with ⟨rfl, rfl, rfl⟩ | ⟨rfl, rfl, rfl⟩
            · simp only [e, if_false, if_true]; group
            · simp only [Ne.symm e, if_false, if_true]; group
          · have := hW u v d' hm
            have huv : R u = R v := (hR u v (hb _ _ _ hm).1 (hb _ _ _ hm).2).mpr
              (.rel _ _ (List.mem_map.mpr ⟨_, hm, rfl⟩))
            simp only [huv]
            split
            · rw [this, mul_assoc]
            · exact this
        · intro u v d' hm
          rcases List.mem_cons.mp hm with hm | hm
          · simp only [Prod.mk.injEq] at hm
            obtain ⟨rfl, rfl, rfl⟩ := hm; exact ⟨hx, hy⟩
          · exact hb _ _ _ hm
      · show b = true ↔ _
        simp [show b = true from hb', hc]
  | diff x y =>
    obtain ⟨hx, hy, hc⟩ := hp
    refine Tot.bind (diff_tot hI hx hy ((hR x y hx hy).mpr hc)) ?_
    rintro ⟨s', v⟩ ⟨h1, h2⟩
    simp only at h1 h2; subst h1
    exact Tot.pure ⟨⟨R, rk, W, h2, hR, hW, hb⟩, ⟨W, hW⟩, fun P hP => sat_unique hW hP hc⟩
  | same x y =>
    obtain ⟨hx, hy⟩ := hp
    refine Tot.bind (same_tot hI hx hy) ?_
    rintro ⟨d, b⟩ ⟨h1, h2⟩
    refine Tot.pure ⟨⟨R, rk, W, h2, hR, hW, hb⟩, ?_⟩
    show b = true ↔ _
    rw [show b = decide (R x = R y) from h1, decide_eq_true_iff]; exact hR x y hx hy
  | size x =>
    refine Tot.bind (size_tot hI hp) ?_
    rintro ⟨d, k⟩ ⟨h1, h2⟩
    refine Tot.pure ⟨⟨R, rk, W, h2, hR, hW, hb⟩, ?_⟩
    have := UnionFind.size_ans hR hp
    show k = _
    rw [show k = _ from h1]; exact_mod_cast this
  | groups =>
    refine Tot.bind (groups_tot hI) ?_
    rintro ⟨d, gs⟩ ⟨h1, h2⟩
    exact Tot.pure ⟨⟨R, rk, W, h1, hR, hW, hb⟩, UnionFind.groups_ans hI.lt hR h2⟩

/-- **C04.** For every (possibly non-commutative) group, every history of in-range calls on `WeightedUnionFind(n)` is safe; `merge` accepts
exactly the constraints that join two components, the accepted constraints are consistent, and `diff(x, y)` is the
difference every potential meeting them has. -/
theorem weightedUnionFind_correct (n : Nat) (ops : List (Op G)) (hv : ValidOps (Pre n) next [] ops) :
    ∃ s outs, runOps (step (· * ·) 1 (·⁻¹)) (init 1 n) ops = .ok (s, outs) ∧ TraceOk next (Ans n) [] ops outs := by
  have h0 : Sim n (init (1 : G) n) [] := by
    refine ⟨id, _, _, inv_init n, fun x y hx hy => ?_, fun _ _ _ h => absurd h (by simp), fun _ _ _ h => absurd h (by simp)⟩
    exact UnionFind.connected_nil.symm
  obtain ⟨⟨s, outs⟩, e, -, h⟩ := refine (step_sim n) h0 hv
  exact ⟨s, outs, e, h⟩

/-- **C04**, the other case of `diff`: after every history of valid calls, `diff(x, y)` fails its assertion when no accepted constraints join `x` and `y`. -/
theorem diff_unconnected (n : Nat) (ops : List (Op G)) (hv : ValidOps (Pre n) next [] ops) (x y : Nat) (hx : x < n) (hy : y < n)
    (hc : ¬ Connected (pairs (ops.foldl next [])) x y) :
    ∃ s outs, runOps (step (· * ·) 1 (·⁻¹)) (init 1 n) ops = .ok (s, outs) ∧ step (· * ·) 1 (·⁻¹) s (.diff x y) = .error .assertion := by
  have h0 : Sim n (init (1 : G) n) [] := by
    refine ⟨id, _, _, inv_init n, fun x y hx hy => ?_, fun _ _ _ h => absurd h (by simp), fun _ _ _ h => absurd h (by simp)⟩
    exact UnionFind.connected_nil.symm
  obtain ⟨⟨s, outs⟩, e, ⟨R, rk, W, hI, hR, -, -⟩, -⟩ := refine (step_sim n) h0 hv
  refine ⟨s, outs, e, ?_⟩
  obtain ⟨⟨s', b⟩, e', hb, -⟩ := same_tot hI hx hy
  dsimp only at hb
  rw [decide_eq_false (fun h => hc ((hR x y hx hy).1 h))] at hb
  subst hb
  unfold step
  dsimp only
  unfold diff
  rw [e', ok_bind]
  dsimp only
  rw [check_false]
  rfl

example : (match runOps (step (· + ·) 0 (- ·)) (init (0 : Int) 4) [.merge 0 1 5, .diff 0 2] with | .error .assertion => true | _ => false) = true := by decide

example : ValidOps (Pre 4) next []
    [.merge 0 1 (Multiplicative.ofAdd (5 : Int)), .merge 2 1 (Multiplicative.ofAdd 3), .diff 0 2] := by
  have n1 : next [] (.merge 0 1 (Multiplicative.ofAdd (5 : Int))) = [(0, 1, Multiplicative.ofAdd 5)] :=
    if_neg fun h => absurd (UnionFind.connected_nil.mp h) (by decide)
  simp only [ValidOps, n1]
  have n2 : ∃ t, next [(0, 1, Multiplicative.ofAdd (5 : Int))] (.merge 2 1 (Multiplicative.ofAdd 3)) = t ∧
      Connected (pairs t) 0 2 := by
    refine ⟨_, rfl, ?_⟩
    simp only [next]
    split
    · rename_i h; exact (Relation.EqvGen.rel _ _ (by simp [pairs])).trans _ _ _ (.symm _ _ h)
    · exact (Relation.EqvGen.rel 0 1 (by simp [pairs])).trans _ _ _ (.symm _ _ (.rel 2 1 (by simp [pairs])))
  obtain ⟨t, ht, hc⟩ := n2
  rw [ht]
  simp only [Pre]
  exact ⟨⟨by decide, by decide⟩, ⟨by decide, by decide⟩, ⟨by decide, by decide, hc⟩, trivial⟩

example : (runOps (step (· + ·) 0 (- ·)) (init (0 : Int) 4)
    [.merge 0 1 5, .merge 2 1 3, .diff 0 2, .merge 0 2 100, .diff 2 0, .size 1]).toOption.map (·.2)
    = some [.bool true, .bool true, .val 2, .bool false, .val (-2), .nat 3] := by decide

end WeightedUnionFind
