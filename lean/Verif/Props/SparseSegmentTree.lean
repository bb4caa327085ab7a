import Verif.Proof.SparseSegmentTree
import Verif.Props.LazySegmentTree

/-!
# Sparse segment trees: properties C175 and C176

The specification is in `Verif/Spec/SparseSegmentTree.lean`. The pool is the one at the start of the program, and the history contains the calls on all objects with the same template arguments.
-/

namespace SparseSegmentTree
open Cxx

variable {T : Type} [Monoid T]

/-- The template arguments are those of the monoid with the initial values `x`. -/
structure Args (P : Prm T) (x : Nat → T) : Prop where
  op : ∀ a b, P.op a b = a * b
  e : P.e = 1
  init : ∀ l r, l ≤ r → P.init l r = Spec.prodOf x l r

theorem Args.lawful {P : Prm T} {x : Nat → T} (h : Args P x) : Lawful P x := ⟨h.op, h.e, h.init⟩

/-- C175. -/
theorem history {P : Prm T} {x : Nat → T} (hP : Args P x) (ops : List (Op T)) (hv : ValidOps (Spec.Pre P.max) (Spec.next x) Spec.start ops) :
    ∃ s outs, runOps (step P) ⟨pool0 P, #[]⟩ ops = .ok (s, outs) ∧ TraceOk (Spec.next x) Spec.Ans Spec.start ops outs := by
  obtain ⟨⟨s, outs⟩, e, h⟩ := Cxx.refine (step_tot hP.lawful) (sim_start P x) hv
  exact ⟨s, outs, e, h.2⟩

/-- C175: indices outside of the array fail an assertion. -/
theorem out_of_range (P : Prm T) (h : Pool T) (o : Obj) :
    (∀ i : Int, ¬ (0 ≤ i ∧ i < o.n) → get P h o i = .error .assertion ∧ (∀ f, applyFun P h o i f = .error .assertion) ∧ ∀ v, set P h o i v = .error .assertion) ∧
      ∀ l r : Int, ¬ (0 ≤ l ∧ l ≤ r ∧ r ≤ o.n) → prod P h o l r = .error .assertion := by
  refine ⟨fun i hi => ⟨?_, fun f => ?_, fun v => ?_⟩, fun l r hlr => ?_⟩
  · unfold get; rw [decide_eq_false hi]; rfl
  · unfold applyFun; rw [decide_eq_false hi]; rfl
  · unfold set applyFun; rw [decide_eq_false hi]; rfl
  · unfold prod; rw [decide_eq_false hlr]; rfl

/-! ## Copies -/

/-- The objects with arrays of their own. -/
def asSt (t : Spec.Own T) : Spec.St T := ⟨t.used, t.arrs, List.range t.arrs.length⟩

theorem asSt_arr {t : Spec.Own T} {o : Nat} (h : o < t.arrs.length) : (asSt t).arr o = t.arr o := by
  simp [asSt, Spec.St.arr, Spec.Own.arr, List.getD, h]

theorem asSt_change {t : Spec.Own T} {o i : Nat} (h : o < t.arrs.length) (f : T → T) : (asSt t).change o i f = asSt (t.change o i f) := by
  unfold Spec.St.change Spec.Own.change
  rw [asSt_arr h]
  simp [asSt, List.getD, h]

/-- C176, without copies: the objects are independent. Missing: copies, which share their nodes with the original. -/
theorem copy_partial {P : Prm T} {x : Nat → T} (hP : Args P x) (ops : List (Op T))
    (hv : ValidOps (fun t i => Spec.OwnPre P.max t i ∧ Spec.NoCopy i) (Spec.ownNext x) ⟨1, []⟩ ops) :
    ∃ s outs, runOps (step P) ⟨pool0 P, #[]⟩ ops = .ok (s, outs) ∧ TraceOk (Spec.ownNext x) Spec.OwnAns ⟨1, []⟩ ops outs := by
  have key : ∀ (s : State T) (t : Spec.Own T) (i : Op T), Sim P x s (asSt t) → Spec.OwnPre P.max t i ∧ Spec.NoCopy i →
      Tot (step P s i) fun r => Sim P x r.1 (asSt (Spec.ownNext x t i)) ∧ Spec.OwnAns t i r.2 := by
    intro s t i S hp
    have hl : (asSt t).objs.length = t.arrs.length := by simp [asSt]
    have hpre : Spec.Pre P.max (asSt t) i := by
      cases i <;> simp only [Spec.Pre, Spec.OwnPre, hl, Spec.NoCopy] at hp ⊢
      case get => rw [asSt_arr hp.1.1]; exact hp.1
      case applyFun => rw [asSt_arr hp.1.1]; exact hp.1
      case set => rw [asSt_arr hp.1.1]; exact hp.1
      case prod => rw [asSt_arr hp.1.1]; exact hp.1
      all_goals first | exact hp.1 | exact hp.2.elim
    refine (step_tot hP.lawful s (asSt t) i S hpre).mono ?_
    rintro r ⟨r1, r2⟩
    cases i with
    | make n =>
      refine ⟨?_, r2⟩
      have : Spec.next x (asSt t) (.make n) = asSt (Spec.ownNext x t (.make n)) := by simp [asSt, Spec.next, Spec.ownNext, List.range_succ]
      rw [← this]; exact r1
    | copy o => exact hp.2.elim
    | get o i => exact ⟨r1, by simpa [Spec.Ans, Spec.OwnAns, asSt_arr hp.1.1] using r2⟩
    | applyFun o i g => exact ⟨by rw [Spec.ownNext, ← asSt_change hp.1.1]; exact r1, r2⟩
    | set o i v => exact ⟨by rw [Spec.ownNext, ← asSt_change hp.1.1]; exact r1, r2⟩
    | prod o l r' => exact ⟨r1, by simpa [Spec.Ans, Spec.OwnAns, asSt_arr hp.1.1] using r2⟩
    | prodAll o => exact ⟨r1, by simpa [Spec.Ans, Spec.OwnAns, asSt_arr (show o < t.arrs.length from hp.1)] using r2⟩
  obtain ⟨⟨s, outs⟩, e, h⟩ := Cxx.refine (s := ⟨pool0 P, #[]⟩) (t := (⟨1, []⟩ : Spec.Own T)) key (sim_start P x) hv
  exact ⟨s, outs, e, h.2⟩

/-! ## Examples -/

/-- Sums of integers with initial values 0. -/
def exPrm : Prm (Multiplicative Int) := ⟨2 ^ 31 - 1, (· * ·), 1, fun _ _ => 1⟩

theorem exArgs : Args exPrm fun _ => 1 := ⟨fun _ _ => rfl, rfl, fun l r _ => by simp [exPrm, Spec.prodOf]⟩

/-- C176: a change of a copy changes the original. -/
theorem copy_counterexample : ∃ ops : List (Op (Multiplicative Int)), ValidOps (Spec.OwnPre exPrm.max) (Spec.ownNext fun _ => 1) ⟨1, []⟩ ops ∧
    ∃ s outs, runOps (step exPrm) ⟨pool0 exPrm, #[]⟩ ops = .ok (s, outs) ∧ ¬ TraceOk (Spec.ownNext fun _ => 1) Spec.OwnAns ⟨1, []⟩ ops outs := by
  refine ⟨[.make 1, .copy 0, .set 1 0 (Multiplicative.ofAdd 5), .get 0 0], ?_, ?_⟩
  · simp [ValidOps, Spec.OwnPre, Spec.ownNext, Spec.Own.arr, Spec.Own.change, exPrm]
  · obtain ⟨⟨s, outs⟩, e, -⟩ : ∃ r, runOps (step exPrm) ⟨pool0 exPrm, #[]⟩ [.make 1, .copy 0, .set 1 0 (Multiplicative.ofAdd 5), .get 0 0] = .ok r ∧ True := ⟨_, rfl, trivial⟩
    refine ⟨s, outs, e, ?_⟩
    have e2 : runOps (step exPrm) ⟨pool0 exPrm, #[]⟩ [.make 1, .copy 0, .set 1 0 (Multiplicative.ofAdd 5), .get 0 0] = .ok (_, [none, none, none, some (Multiplicative.ofAdd 5)]) := rfl
    rw [e] at e2
    cases e2
    rintro ⟨-, -, -, h, -⟩
    revert h
    simp [Spec.OwnAns, Spec.ownNext, Spec.Own.arr, Spec.Own.change]

/-- Affine maps, a monoid that is not commutative, with initial values that depend on the position. -/
def exAff : Prm LazySegmentTree.Aff := ⟨2 ^ 63 - 1, (· * ·), 1, fun l r => Spec.prodOf (fun i => ⟨2, i⟩) l r⟩

example : Args exAff fun i => ⟨2, i⟩ := ⟨fun _ _ => rfl, rfl, fun _ _ _ => rfl⟩

example : ValidOps (Spec.Pre exAff.max) (Spec.next fun i => (⟨2, i⟩ : LazySegmentTree.Aff)) Spec.start
    [.make (10 ^ 18), .set 0 (10 ^ 17) (⟨3, 1⟩ : LazySegmentTree.Aff), .copy 0, .make 7, .applyFun 1 5 (· * (⟨1, 4⟩ : LazySegmentTree.Aff)), .get 0 5, .prod 2 3 6, .prodAll 1] := by
  have c : Nat.clog 2 1000000000000000000 ≤ 60 := Nat.clog_le_of_le_pow (by decide)
  simp [ValidOps, Spec.Pre, Spec.next, Spec.start, Spec.St.arr, Spec.St.change, exAff]
  omega

example : ValidOps (fun t i => Spec.OwnPre exPrm.max t i ∧ Spec.NoCopy i) (Spec.ownNext fun _ => 1) ⟨1, []⟩
    [.make 1, .make 1, .set 1 0 (Multiplicative.ofAdd 5), .get 0 0] := by
  simp [ValidOps, Spec.OwnPre, Spec.ownNext, Spec.Own.arr, Spec.Own.change, exPrm, Spec.NoCopy]

end SparseSegmentTree
