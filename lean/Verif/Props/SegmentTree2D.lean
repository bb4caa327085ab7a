import Verif.Proof.SegmentTree2D
import Mathlib.Algebra.Group.Int.Defs
import Mathlib.Tactic.IntervalCases

/-!
# C181, C182: `SegmentTree2D`
-/

namespace SegmentTree2D
open Cxx

variable {T : Type} [CommMonoid T]

/-- The vector of rows is a table of `n` rows and `m` columns. -/
def IsTable (n m : Nat) (a : Array (Array T)) : Prop := a.size = n ∧ (∀ i, i < n → ∃ r, a[i]? = some r ∧ r.size = m) ∧ (n = 0 → m = 0)

theorem rp_ofRows {n m : Nat} {a : Array (Array T)} (h : IsTable n m a) : Rp n m a (Spec.ofRows a) := by
  obtain ⟨h1, h2, -⟩ := h
  refine ⟨h1, fun i hi => ?_⟩
  obtain ⟨r, e, hr⟩ := h2 i hi
  refine ⟨r, e, hr, fun j hj => ?_⟩
  unfold Spec.ofRows
  rw [e, Option.getD_some, Array.getElem?_eq_getElem (by omega), Option.getD_some]

theorem width_eq {n m : Nat} {a : Array (Array T)} (h : IsTable n m a) : width a = m := by
  obtain ⟨h1, h2, h3⟩ := h
  unfold width
  by_cases c : n = 0
  · rw [h3 c, Array.getElem?_eq_none (by omega)]
    rfl
  · obtain ⟨r, e, hr⟩ := h2 0 (by omega)
    rw [e, Option.getD_some, hr]

theorem step_sim (n m : Nat) (s : State T) (f : Nat → Nat → T) (c : Op T) (h : Rep n m f s) (hp : Spec.InRange n m c) :
    Tot (step (· * ·) 1 s c) fun r => Rep n m (Spec.next f c) r.1 ∧ Spec.Ans f c r.2 := by
  cases c with
  | set i j v =>
    obtain ⟨h1, h2, h3, h4⟩ := hp
    obtain ⟨i, rfl⟩ := Int.eq_ofNat_of_zero_le h1
    obtain ⟨j, rfl⟩ := Int.eq_ofNat_of_zero_le h3
    exact Tot.bind (set_tot h (by omega) (by omega) v) fun s' h' => Tot.pure ⟨h', rfl⟩
  | get i j =>
    obtain ⟨h1, h2, h3, h4⟩ := hp
    obtain ⟨i, rfl⟩ := Int.eq_ofNat_of_zero_le h1
    obtain ⟨j, rfl⟩ := Int.eq_ofNat_of_zero_le h3
    dsimp only [step]
    rw [get_tot h (by omega) (by omega), ok_bind]
    exact Tot.pure ⟨h, rfl⟩
  | prod u d l r =>
    obtain ⟨h1, h2, h3, h4, h5, h6⟩ := hp
    obtain ⟨u, rfl⟩ := Int.eq_ofNat_of_zero_le h1
    obtain ⟨d, rfl⟩ := Int.eq_ofNat_of_zero_le (h1.trans h2)
    obtain ⟨l, rfl⟩ := Int.eq_ofNat_of_zero_le h4
    obtain ⟨r, rfl⟩ := Int.eq_ofNat_of_zero_le (h4.trans h5)
    dsimp only [step]
    rw [prod_tot h (by omega) (by omega) (by omega) (by omega), ok_bind]
    exact Tot.pure ⟨h, rfl⟩

/-- **C181.** `SegmentTree2D(a)` for a table `a`, followed by any history of calls in range: all calls terminate normally, reads return the current values and queries the products over the rectangles. The operation is any commutative monoid. -/
theorem history (n m : Nat) (a : Array (Array T)) (ha : IsTable n m a) (ops : List (Op T)) (hv : ∀ c ∈ ops, Spec.InRange n m c) :
    ∃ s0 s outs, ofTable (· * ·) 1 a = .ok s0 ∧ runOps (step (· * ·) 1) s0 ops = .ok (s, outs) ∧ TraceOk Spec.next Spec.Ans (Spec.ofRows a) ops outs := by
  have h0 := ofTable_tot (a := a) (f := Spec.ofRows a) (by rw [width_eq ha, ha.1]; exact rp_ofRows ha)
  rw [width_eq ha, ha.1] at h0
  obtain ⟨s0, e0, h0⟩ := h0
  have hv' : ValidOps (fun _ c => Spec.InRange n m c) Spec.next (Spec.ofRows a) ops := by
    generalize Spec.ofRows a = f
    clear h0
    induction ops generalizing f with
    | nil => trivial
    | cons c cs ih => exact ⟨hv c (by simp), ih (fun c hc => hv c (by simp [hc])) _⟩
  obtain ⟨⟨s, outs⟩, e, -, h⟩ := refine (Sim := fun s f => Rep n m f s) (step_sim n m) h0 hv'
  exact ⟨s0, s, outs, e0, e, h⟩

/-- **C181.** After any such history a call that is out of range fails an assertion. -/
theorem out_of_range (n m : Nat) (a : Array (Array T)) (ha : IsTable n m a) (ops : List (Op T)) (hv : ∀ c ∈ ops, Spec.InRange n m c) (c : Op T) (hc : ¬ Spec.InRange n m c) :
    ∃ s0 s outs, ofTable (· * ·) 1 a = .ok s0 ∧ runOps (step (· * ·) 1) s0 ops = .ok (s, outs) ∧ step (· * ·) 1 s c = .error .assertion := by
  have h0 := ofTable_tot (a := a) (f := Spec.ofRows a) (by rw [width_eq ha, ha.1]; exact rp_ofRows ha)
  rw [width_eq ha, ha.1] at h0
  obtain ⟨s0, e0, h0⟩ := h0
  have hv' : ValidOps (fun _ c => Spec.InRange n m c) Spec.next (Spec.ofRows a) ops := by
    generalize Spec.ofRows a = f
    clear h0
    induction ops generalizing f with
    | nil => trivial
    | cons c cs ih => exact ⟨hv c (by simp), ih (fun c hc => hv c (by simp [hc])) _⟩
  obtain ⟨⟨s, outs⟩, e, ⟨h1, h2, -⟩, -⟩ := refine (Sim := fun s f => Rep n m f s) (step_sim n m) h0 hv'
  dsimp only at h1 h2
  refine ⟨s0, s, outs, e0, e, ?_⟩
  cases c <;> (
    dsimp only [Spec.InRange] at hc
    simp only [step, set, get, prod, h1, h2]
    rw [decide_eq_false hc]
    rfl)

/-- **C182** (what holds). `SegmentTree2D(n, m)` is a table of `2 n` rows and `2 m` columns of identities; so calls in range for `n` rows and `m` columns do what they should.
Missing: that there are only `n` rows and `m` columns (`sized_counterexample`). -/
theorem sized_partial (n m : Nat) (hnm : n = 0 → m = 0) (ops : List (Op T)) (hv : ∀ c ∈ ops, Spec.InRange (2 * n) (2 * m) c) :
    ∃ s0 s outs, init (· * ·) 1 n m = .ok s0 ∧ runOps (step (· * ·) 1) s0 ops = .ok (s, outs) ∧ TraceOk Spec.next Spec.Ans (fun _ _ => (1 : T)) ops outs := by
  have e : Spec.ofRows (Array.replicate (2 * n) (Array.replicate (2 * m) (1 : T))) = fun _ _ => 1 := by
    funext i j
    unfold Spec.ofRows
    rw [Array.getElem?_replicate]
    split
    · rw [Option.getD_some, Array.getElem?_replicate]
      split <;> rfl
    · rfl
  have := history (2 * n) (2 * m) (Array.replicate (2 * n) (Array.replicate (2 * m) (1 : T))) ⟨by simp, fun i hi => ⟨Array.replicate (2 * m) 1, by simp [hi], by simp⟩, by omega⟩ ops hv
  rwa [e] at this

/-- **C182 fails.** A table constructed with one row and one column has a second row: `get(1, 0)` and `set(1, 0, x)` do not fail the assertion, and a query over "all" rows up to 2 sees the value. -/
theorem sized_counterexample :
    ¬ Spec.InRange (T := Int) 1 1 (.set 1 0 5) ∧
    (init (· + ·) (0 : Int) 1 1 >>= fun s => runOps (step (· + ·) 0) s [.get 1 0, .set 1 0 5, .prod 0 2 0 1]).map (·.2) = .ok [.val 0, .unit, .val 5] := by
  refine ⟨?_, by decide +kernel⟩
  rintro ⟨-, h, -⟩
  exact absurd h (by decide)

/-- A table of three rows and two columns: not powers of two. -/
example : (ofTable (· + ·) (0 : Int) #[#[1, 2], #[3, 4], #[5, 6]] >>= fun s => runOps (step (· + ·) 0) s [.prod 0 3 0 2, .set 1 1 40, .prod 1 3 1 2, .prod 0 2 0 2, .get 1 1, .prod 1 1 0 2]).map (·.2) =
    .ok [.val 21, .unit, .val 46, .val 46, .val 40, .val 0] := by decide +kernel

example : IsTable 3 2 #[#[(1 : Int), 2], #[3, 4], #[5, 6]] :=
  ⟨rfl, fun i hi => by interval_cases i <;> exact ⟨_, rfl, rfl⟩, by decide⟩

example : ∀ c ∈ [Op.prod 0 3 0 2, .set 1 1 (40 : Int), .prod 1 3 1 2, .get 1 1, .prod 1 1 0 2], Spec.InRange 3 2 c := by
  simp [Spec.InRange]

end SegmentTree2D
