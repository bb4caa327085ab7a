import Verif.Proof.SparseLazySegmentTree
import Mathlib.Algebra.Group.TypeTags.Basic
import Mathlib.Algebra.Group.Int.Defs
import Mathlib.Algebra.Ring.Int.Defs

/-!
# Sparse lazy segment trees: properties C177 to C179

The specification is in `Verif/Spec/SparseLazySegmentTree.lean`. The pool is the one at the start of the program, and the history contains the calls on all objects with the same template arguments.
-/

namespace SparseLazySegmentTree
open Cxx

variable {T F : Type} [Monoid T]

/-- The laws of the template arguments, on intervals that are not empty: the monoid, the initial values `x`, and maps that act on products of intervals. -/
structure Args (P : Prm T F) (x : Nat → T) : Prop where
  op : ∀ a b, P.op a b = a * b
  e : P.e = 1
  init : ∀ l r, l ≤ r → P.init l r = Spec.prodOf x l r
  map_id : ∀ v l r, l < r → P.map P.id v l r = v
  map_comp : ∀ f g v l r, l < r → P.map (P.comp f g) v l r = P.map f (P.map g v l r) l r
  map_mul : ∀ f v w l m r, l < m → m < r → P.map f (v * w) l r = P.map f v l m * P.map f w m r

theorem Args.lawful {P : Prm T F} {x : Nat → T} (h : Args P x) : Lawful P x := ⟨h.op, h.e, h.init, h.map_id, h.map_comp, h.map_mul⟩

/-- What the map `f` makes of the value `v` at position `k`. -/
def act (P : Prm T F) (f : F) (v : T) (k : Nat) : T := P.map f v k (k + 1)

/-- C177. -/
theorem history {P : Prm T F} {x : Nat → T} (hP : Args P x) (ops : List (Op T F)) (hv : ValidOps (Spec.Pre P.max) (Spec.next x (act P)) Spec.start ops) :
    ∃ s outs, runOps (step P) ⟨pool0 P, #[]⟩ ops = .ok (s, outs) ∧ TraceOk (Spec.next x (act P)) Spec.Ans Spec.start ops outs := by
  obtain ⟨⟨s, outs⟩, e, h⟩ := Cxx.refine (step_tot hP.lawful) (sim_start P x) hv
  exact ⟨s, outs, e, h.2⟩

/-- C177: indices outside of the array fail an assertion. -/
theorem out_of_range (P : Prm T F) (h : Pool T F) (o : Obj) :
    (∀ i : Int, ¬ (0 ≤ i ∧ i < o.n) → get P h o i = .error .assertion ∧ (∀ f, applyFun P h o i f = .error .assertion) ∧ (∀ v, set P h o i v = .error .assertion) ∧ ∀ f, applyAt P h o i f = .error .assertion) ∧
      ∀ l r : Int, ¬ (0 ≤ l ∧ l ≤ r ∧ r ≤ o.n) → prod P h o l r = .error .assertion ∧ ∀ f, apply P h o l r f = .error .assertion := by
  refine ⟨fun i hi => ⟨?_, fun f => ?_, fun v => ?_, fun f => ?_⟩, fun l r hlr => ⟨?_, fun f => ?_⟩⟩
  · unfold get; rw [decide_eq_false hi]; rfl
  · unfold applyFun; rw [decide_eq_false hi]; rfl
  · unfold set applyFun; rw [decide_eq_false hi]; rfl
  · unfold applyAt applyFun; rw [decide_eq_false hi]; rfl
  · unfold prod; rw [decide_eq_false hlr]; rfl
  · unfold apply; rw [decide_eq_false hlr]; rfl

/-! ## Copies -/

/-- The objects with arrays of their own. -/
def asSt (t : Spec.Own T) : Spec.St T := ⟨t.used, t.arrs, List.range t.arrs.length⟩

theorem asSt_arr {t : Spec.Own T} {o : Nat} (h : o < t.arrs.length) : (asSt t).arr o = t.arr o := by
  simp [asSt, Spec.St.arr, Spec.Own.arr, List.getD, h]

theorem asSt_change {t : Spec.Own T} {o c : Nat} (h : o < t.arrs.length) (g : Nat → T → T) : (asSt t).change o c g = asSt (t.change o c g) := by
  unfold Spec.St.change Spec.Own.change
  rw [asSt_arr h]
  simp [asSt, List.getD, h]

theorem asSt_next {x : Nat → T} {ac : F → T → Nat → T} {max : Nat} {t : Spec.Own T} {i : Op T F} (h1 : Spec.OwnPre max t i) (h2 : Spec.NoCopy i) :
    Spec.next x ac (asSt t) i = asSt (Spec.ownNext x ac t i) := by
  cases i with
  | make n => simp [asSt, Spec.next, Spec.ownNext, List.range_succ]
  | copy o => exact h2.elim
  | get o i => rfl
  | prodAll o => rfl
  | prod o l r =>
    simp only [Spec.next, Spec.ownNext, asSt_arr h1.1]
    rfl
  | applyFun o i g => simp only [Spec.next, Spec.ownNext, asSt_arr h1.1, asSt_change h1.1]
  | set o i g => simp only [Spec.next, Spec.ownNext, asSt_arr h1.1, asSt_change h1.1]
  | applyAt o i g => simp only [Spec.next, Spec.ownNext, asSt_arr h1.1, asSt_change h1.1]
  | apply o l r g => simp only [Spec.next, Spec.ownNext, asSt_arr h1.1, asSt_change h1.1]
  | applyAll o g => simp only [Spec.next, Spec.ownNext, asSt_change h1.1]

/-- C178, without copies: the objects are independent. Missing: copies, which share their nodes with the original. -/
theorem copy_partial {P : Prm T F} {x : Nat → T} (hP : Args P x) (ops : List (Op T F))
    (hv : ValidOps (fun t i => Spec.OwnPre P.max t i ∧ Spec.NoCopy i) (Spec.ownNext x (act P)) ⟨1, []⟩ ops) :
    ∃ s outs, runOps (step P) ⟨pool0 P, #[]⟩ ops = .ok (s, outs) ∧ TraceOk (Spec.ownNext x (act P)) Spec.OwnAns ⟨1, []⟩ ops outs := by
  have key : ∀ (s : State T F) (t : Spec.Own T) (i : Op T F), Sim P x s (asSt t) → Spec.OwnPre P.max t i ∧ Spec.NoCopy i →
      Tot (step P s i) fun r => Sim P x r.1 (asSt (Spec.ownNext x (act P) t i)) ∧ Spec.OwnAns t i r.2 := by
    intro s t i S hp
    have hl : (asSt t).objs.length = t.arrs.length := by simp [asSt]
    have hpre : Spec.Pre P.max (asSt t) i := by
      cases i with
      | make n => exact hp.1
      | copy o => exact hp.2.elim
      | prodAll o => simp only [Spec.Pre, hl]; exact hp.1
      | get o i => simp only [Spec.Pre, hl, asSt_arr hp.1.1]; exact hp.1
      | applyFun o i g => simp only [Spec.Pre, hl, asSt_arr hp.1.1]; exact hp.1
      | set o i v => simp only [Spec.Pre, hl, asSt_arr hp.1.1]; exact hp.1
      | applyAt o i f => simp only [Spec.Pre, hl, asSt_arr hp.1.1]; exact hp.1
      | prod o l r => simp only [Spec.Pre, hl, asSt_arr hp.1.1]; exact hp.1
      | apply o l r f => simp only [Spec.Pre, hl, asSt_arr hp.1.1]; exact hp.1
      | applyAll o f => simp only [Spec.Pre, hl, asSt_arr hp.1.1]; exact hp.1
    refine (step_tot hP.lawful s (asSt t) i S hpre).mono ?_
    rintro r ⟨r1, r2⟩
    refine ⟨by rw [← asSt_next hp.1 hp.2]; exact r1, ?_⟩
    cases i with
    | copy o => exact hp.2.elim
    | get o i => simpa [Spec.Ans, Spec.OwnAns, asSt_arr hp.1.1] using r2
    | prod o l r' => simpa [Spec.Ans, Spec.OwnAns, asSt_arr hp.1.1] using r2
    | prodAll o => simpa [Spec.Ans, Spec.OwnAns, asSt_arr (show o < t.arrs.length from hp.1)] using r2
    | _ => exact r2
  obtain ⟨⟨s, outs⟩, e, h⟩ := Cxx.refine (s := ⟨pool0 P, #[]⟩) (t := (⟨1, []⟩ : Spec.Own T)) key (sim_start P x) hv
  exact ⟨s, outs, e, h.2⟩

/-! ## Examples -/

/-- Sums of integers under `v ↦ a v + b`, with initial values `3`. -/
def exPrm : Prm (Multiplicative Int) (Int × Int) where
  max := 2 ^ 63 - 1
  op := (· * ·)
  e := 1
  map f v l r := Multiplicative.ofAdd (f.1 * v.toAdd + f.2 * (r - l : Int))
  comp f g := (f.1 * g.1, f.1 * g.2 + f.2)
  id := (1, 0)
  init l r := Multiplicative.ofAdd (3 * (r - l : Int))

theorem exArgs : Args exPrm fun _ => Multiplicative.ofAdd 3 where
  op _ _ := rfl
  e := rfl
  init l r h := by
    show Multiplicative.ofAdd _ = _
    simp only [Spec.prodOf, List.map_const', List.prod_replicate, List.length_range', ← ofAdd_nsmul]
    congr 1
    rw [nsmul_eq_mul, Nat.cast_sub h]
    ring
  map_id v l r _ := by
    show Multiplicative.ofAdd _ = _
    simp [exPrm]
  map_comp f g v l r _ := by
    show Multiplicative.ofAdd _ = Multiplicative.ofAdd _
    congr 1
    simp only [exPrm, toAdd_ofAdd]
    ring
  map_mul f v w l m r _ _ := by
    show Multiplicative.ofAdd _ = Multiplicative.ofAdd _
    congr 1
    simp only [exPrm, toAdd_ofAdd, toAdd_mul]
    ring

example : ValidOps (Spec.Pre exPrm.max) (Spec.next (fun _ => Multiplicative.ofAdd 3) (act exPrm)) Spec.start
    [.make (10 ^ 18), .apply 0 5 (10 ^ 17) (2, 7), .copy 0, .make 7, .applyAll 1 (1, 4), .applyAt 2 5 (5, 6), .set 2 3 (Multiplicative.ofAdd 9), .applyFun 0 9 (· * Multiplicative.ofAdd 1), .get 0 5, .prod 2 3 6,
      .prodAll 1] := by
  have c : Nat.clog 2 1000000000000000000 ≤ 60 := Nat.clog_le_of_le_pow (by decide)
  have d : Nat.clog 2 7 ≤ 3 := Nat.clog_le_of_le_pow (by decide)
  simp [ValidOps, Spec.Pre, Spec.next, Spec.start, Spec.St.arr, Spec.St.change, Spec.cost, exPrm]
  omega

example : ValidOps (fun t i => Spec.OwnPre exPrm.max t i ∧ Spec.NoCopy i) (Spec.ownNext (fun _ => Multiplicative.ofAdd 3) (act exPrm)) ⟨1, []⟩
    [.make 1, .make 1, .set 1 0 (Multiplicative.ofAdd 5), .get 0 0] := by
  simp [ValidOps, Spec.OwnPre, Spec.ownNext, Spec.Own.arr, Spec.Own.change, Spec.cost, exPrm, Spec.NoCopy]

/-- C178: a change of a copy changes the original. -/
theorem copy_counterexample : ∃ ops : List (Op (Multiplicative Int) (Int × Int)), ValidOps (Spec.OwnPre exPrm.max) (Spec.ownNext (fun _ => Multiplicative.ofAdd 3) (act exPrm)) ⟨1, []⟩ ops ∧
    ∃ s outs, runOps (step exPrm) ⟨pool0 exPrm, #[]⟩ ops = .ok (s, outs) ∧ ¬ TraceOk (Spec.ownNext (fun _ => Multiplicative.ofAdd 3) (act exPrm)) Spec.OwnAns ⟨1, []⟩ ops outs := by
  refine ⟨[.make 1, .copy 0, .set 1 0 (Multiplicative.ofAdd 5), .get 0 0], ?_, ?_⟩
  · simp [ValidOps, Spec.OwnPre, Spec.ownNext, Spec.Own.arr, Spec.Own.change, Spec.cost, exPrm]
  · obtain ⟨⟨s, outs⟩, e, -⟩ : ∃ r, runOps (step exPrm) ⟨pool0 exPrm, #[]⟩ [.make 1, .copy 0, .set 1 0 (Multiplicative.ofAdd 5), .get 0 0] = .ok r ∧ True := ⟨_, rfl, trivial⟩
    refine ⟨s, outs, e, ?_⟩
    have e2 : runOps (step exPrm) ⟨pool0 exPrm, #[]⟩ [.make 1, .copy 0, .set 1 0 (Multiplicative.ofAdd 5), .get 0 0] = .ok (_, [none, none, none, some (Multiplicative.ofAdd 5)]) := rfl
    rw [e] at e2
    cases e2
    rintro ⟨-, -, -, h, -⟩
    revert h
    simp [Spec.OwnAns, Spec.ownNext, Spec.Own.arr, Spec.Own.change]

/-! ## `apply_all` on an empty tree -/

/-- C179, on arrays that are not empty: `apply_all(f)` followed by `prod_all()` on a new tree. Missing: the empty array. -/
theorem applyAll_partial {P : Prm T F} {x : Nat → T} (hP : Args P x) {n : Nat} (hn : 0 < n) (hm : 2 * n ≤ P.max + 1) (f : F) :
    ∃ s, runOps (step P) ⟨pool0 P, #[]⟩ [.make n, .applyAll 0 f, .prodAll 0] = .ok (s, [none, none, some (Spec.prodOf (fun k => act P f (x k) k) 0 n)]) := by
  obtain ⟨s, outs, e, h⟩ := history hP [.make n, .applyAll 0 f, .prodAll 0] (by simp [ValidOps, Spec.Pre, Spec.next, Spec.start, Spec.St.arr, Spec.St.change, hm, hn])
  refine ⟨s, ?_⟩
  rw [e]
  match outs, h with
  | [a, b, c], h =>
    obtain ⟨h1, h2, h3, -⟩ := h
    simp only [Spec.Ans, Spec.next, Spec.start, Spec.St.arr, Spec.St.change] at h1 h2 h3
    rw [h1, h2, h3]
    simp

/-- Maxima, of natural numbers, as a monoid. -/
structure MaxN where
  v : Nat
  deriving DecidableEq

instance : Monoid MaxN where
  mul a b := ⟨max a.v b.v⟩
  one := ⟨0⟩
  mul_assoc a b c := by
    show MaxN.mk _ = MaxN.mk _
    congr 1
    exact Nat.max_assoc _ _ _
  one_mul a := by
    show MaxN.mk (max 0 a.v) = a
    rw [Nat.zero_max]
  mul_one a := by
    show MaxN.mk (max a.v 0) = a
    rw [Nat.max_zero]

/-- Maxima under assignment. -/
def exMax : Prm MaxN (Option Nat) where
  max := 2 ^ 31 - 1
  op := (· * ·)
  e := 1
  map f v _ _ := f.elim v MaxN.mk
  comp f g := f <|> g
  id := none
  init _ _ := 1

theorem exMaxArgs : Args exMax fun _ => 1 where
  op _ _ := rfl
  e := rfl
  init l r h := by simp [exMax, Spec.prodOf]
  map_id v l r _ := rfl
  map_comp f g v l r _ := by cases f <;> rfl
  map_mul f v w l m r _ _ := by
    cases f with
    | none => rfl
    | some a =>
      show MaxN.mk a = MaxN.mk (max a a)
      rw [Nat.max_self]

/-- C179: `prod_all()` after `apply_all(f)` on an empty tree is not the identity. -/
theorem applyAll_counterexample : ∃ (P : Prm MaxN (Option Nat)) (f : Option Nat), Args P (fun _ => 1) ∧
    ∃ s, runOps (step P) ⟨pool0 P, #[]⟩ [.make 0, .applyAll 0 f, .prodAll 0] = .ok (s, [none, none, some ⟨5⟩]) ∧ Spec.prodOf (fun k => act P f 1 k) 0 0 = ⟨0⟩ :=
  ⟨exMax, some 5, exMaxArgs, _, rfl, rfl⟩

end SparseLazySegmentTree
