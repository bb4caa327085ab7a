import Verif.Proof.Fenwick
import Mathlib.Tactic.IntervalCases

/-!
# FenwickTree, FenwickTreePrefix, FenwickTree2D: properties C05, C07, C08

Specification: the abstract state is the current array `f : Nat → T` (only `f 0, …, f (n-1)` matter).
-/

namespace FenwickTree
open Cxx
open Fenwick (Rep)

variable {T : Type} [AddCommGroup T]

/-- What the calls do to the array. -/
def next (f : Nat → T) : Op T → Nat → T
  | .add i v => Function.update f i (f i + v)
  | .sub i v => Function.update f i (f i - v)
  | .modify i h => Function.update f i (h (f i))
  | _ => f

/-- Indices are in range. -/
def Pre (n : Nat) (_ : Nat → T) : Op T → Prop
  | .add i _ => i < n
  | .sub i _ => i < n
  | .modify i _ => i < n
  | .get i => i < n
  | .sum l r => l ≤ r ∧ r ≤ n

/-- Reads return the current values and their range sums. -/
def Ans (f : Nat → T) : Op T → Option T → Prop
  | .get i, o => o = some (f i)
  | .sum l r, o => o = some (∑ i ∈ Finset.Ico l r, f i)
  | _, o => o = none

theorem sum_eq {n : Nat} {f : Nat → T} {d : Array T} (h : Rep 1 n f d) {l r : Nat} (hl : l ≤ r) (hr : r ≤ n) :
    sum d l r = .ok (∑ i ∈ Finset.Ico l r, f i) := by
  unfold sum prefixSum
  rw [Fenwick.sumLoop_tot h _ hr, ok_bind, Fenwick.sumLoop_tot h _ (hl.trans hr), ok_bind, pure_eq,
    Finset.sum_Ico_eq_sub _ hl, zero_add, zero_add]

theorem add_tot {n : Nat} {f : Nat → T} {d : Array T} (h : Rep 1 n f d) (i : Nat) (v : T) :
    Tot (add d i v) (Rep 1 n (Function.update f i (f i + v))) := by
  unfold add
  rw [show d.size = n by simpa using h.1]
  refine (Fenwick.addLoop_tot le_rfl h i v).mono fun d' h' => ?_
  convert h' using 1
  funext k
  by_cases e : k = i
  · subst e; simp
  · simp [e]

theorem step_sim (n : Nat) (d : Array T) (f : Nat → T) (op : Op T) (h : Rep 1 n f d) (hp : Pre n f op) :
    Tot (step d op) fun r => Rep 1 n (next f op) r.1 ∧ Ans f op r.2 := by
  cases op with
  | add i v => exact Tot.bind (add_tot h i v) fun d' h' => Tot.pure ⟨h', rfl⟩
  | sub i v =>
    refine Tot.bind (add_tot h i (-v)) fun d' h' => Tot.pure ⟨?_, rfl⟩
    simpa only [next, sub_eq_add_neg] using h'
  | modify i g =>
    simp only [step, sum_eq h (Nat.le_succ i) hp, ok_bind]
    refine Tot.bind (add_tot h i _) fun d' h' => Tot.pure ⟨?_, rfl⟩
    simpa [next] using h'
  | get i =>
    simp only [step, sum_eq h (Nat.le_succ i) hp, ok_bind]
    exact Tot.pure ⟨h, by simp [Ans]⟩
  | sum l r =>
    simp only [step, sum_eq h hp.1 hp.2, ok_bind]
    exact Tot.pure ⟨h, rfl⟩

/-- **C05 (default construction).** Every in-range history on `FenwickTree(n)` behaves as the array, starting from zeros. -/
theorem fenwickTree_correct (n : Nat) (ops : List (Op T)) (hv : ValidOps (Pre n) next (fun _ => 0) ops) :
    ∃ d outs, runOps step (init n) ops = .ok (d, outs) ∧ TraceOk next Ans (fun _ => 0) ops outs := by
  have h0 : Rep 1 n (fun _ => (0 : T)) (init n) := by simpa [init] using Fenwick.rep_init (T := T) le_rfl n
  obtain ⟨⟨s, outs⟩, e, -, h⟩ := refine (Sim := fun d f => Rep 1 n f d) (step_sim n) h0 hv
  exact ⟨s, outs, e, h⟩

/-- **C05 (construction from a vector).** Every in-range history on `FenwickTree(a)` behaves as the array, starting from
the contents of `a`. -/
theorem fenwickTree_ofVector_correct (a : Array T) (ops : List (Op T))
    (hv : ValidOps (Pre a.size) next (fun i => a[i]?.getD 0) ops) :
    ∃ d0 d outs, ofVector a = .ok d0 ∧ runOps step d0 ops = .ok (d, outs) ∧
      TraceOk next Ans (fun i => a[i]?.getD 0) ops outs := by
  obtain ⟨d0, e0, h0⟩ := Fenwick.build_tot (off := 1) (n := a.size) le_rfl (f := fun i => a[i]?.getD 0) (data := a) (by simp)
    (fun j h1 h2 => by simp [show j - 1 < a.size by omega])
  obtain ⟨⟨s, outs⟩, e, -, h⟩ := refine (Sim := fun d f => Rep 1 a.size f d) (step_sim a.size) h0 hv
  exact ⟨d0, s, outs, e0, e, h⟩

example : ValidOps (Pre 6) next (fun _ => (0 : Int)) [.add 2 5, .modify 5 (· * 3), .sub 0 4, .sum 1 6, .sum 3 3, .get 2] := by
  simp [ValidOps, Pre]

example : ((ofVector #[1, 2, 3, 4, (5 : Int)]).bind fun d =>
    runOps step d [.sum 0 5, .add 2 10, .sum 1 3, .modify 4 (· * 7), .get 4, .sum 3 5]).toOption.map (·.2)
    = some [some 15, none, some 15, none, some 35, some 39] := by decide

end FenwickTree

namespace FenwickTreePrefix
open Cxx
open Fenwick (Rep)

variable {T : Type} [AddCommMonoid T]

/-- Abstract array: `apply` combines at one position. -/
def next (f : Nat → T) : Op T → Nat → T
  | .apply i v => Function.update f i (f i + v)
  | _ => f

/-- Indices are in range. -/
def Pre (n : Nat) (_ : Nat → T) : Op T → Prop
  | .apply i _ => i < n
  | .query r => r ≤ n

/-- `prefix_query(r)` is the fold of the first `r` values. -/
def Ans (f : Nat → T) : Op T → Option T → Prop
  | .query r, o => o = some (∑ i ∈ Finset.range r, f i)
  | _, o => o = none

theorem step_sim (n : Nat) (d : Array T) (f : Nat → T) (op : Op T) (h : Rep 0 n f d) (hp : Pre n f op) :
    Tot (step (· + ·) 0 d op) fun r => Rep 0 n (next f op) r.1 ∧ Ans f op r.2 := by
  cases op with
  | apply i v =>
    simp only [step, apply, show d.size - 1 = n by have := h.1; omega]
    refine Tot.bind (Fenwick.addLoop_tot (by omega) h i v) fun d' h' => Tot.pure ⟨?_, rfl⟩
    convert h' using 1
    funext k
    by_cases e : k = i
    · subst e; simp [next]
    · simp [next, e]
  | query r =>
    simp only [step, prefixQuery, Fenwick.sumLoop_tot h _ hp, ok_bind]
    exact Tot.pure ⟨h, by simp [Ans]⟩

/-- **C07 (default construction).** For every commutative monoid, every in-range history on `FenwickTreePrefix(n)`. -/
theorem fenwickTreePrefix_correct (n : Nat) (ops : List (Op T)) (hv : ValidOps (Pre n) next (fun _ => 0) ops) :
    ∃ d outs, runOps (step (· + ·) 0) (init 0 n) ops = .ok (d, outs) ∧ TraceOk next Ans (fun _ => (0 : T)) ops outs := by
  have h0 : Rep 0 n (fun _ => (0 : T)) (init 0 n) := by simpa [init] using Fenwick.rep_init (T := T) (Nat.zero_le 1) n
  obtain ⟨⟨s, outs⟩, e, -, h⟩ := refine (Sim := fun d f => Rep 0 n f d) (step_sim n) h0 hv
  exact ⟨s, outs, e, h⟩

example : ValidOps (Pre 6) next (fun _ => (0 : Nat)) [.apply 2 5, .apply 5 1, .query 3, .query 6, .query 0] := by
  simp [ValidOps, Pre]

/-- The full statement of C07 for the vector constructor. -/
def VectorCtorCorrect (T : Type) [AddCommMonoid T] : Prop :=
  ∀ (a : Array T) (r : Nat), r ≤ a.size →
    ∃ d, ofVector (· + ·) 0 a = .ok d ∧ prefixQuery (· + ·) 0 d r = .ok (∑ i ∈ Finset.range r, a[i]?.getD 0)

/-- **C07 fails for the vector constructor**: it runs the accumulation loop from the largest index downwards, so node 4 misses
`a[0]` — `FenwickTreePrefix({1,1,1,1}).prefix_query(4)` is 3. -/
theorem vectorCtor_incorrect : ¬ VectorCtorCorrect Nat := by
  intro h
  obtain ⟨d, h1, h2⟩ := h #[1, 1, 1, 1] 4 (by decide)
  have e : ofVector (· + ·) 0 #[1, 1, 1, 1] = .ok #[0, 1, 2, 1, 3] := by decide
  rw [e] at h1
  cases h1
  exact absurd h2 (by decide)

/-- **C07 (vector constructor), partial**: it is right for vectors of at most three elements. Missing: larger vectors,
where `vectorCtor_incorrect` shows it is wrong. -/
theorem vectorCtor_partial (a : Array T) (ha : a.size ≤ 3) (ops : List (Op T))
    (hv : ValidOps (Pre a.size) next (fun i => a[i]?.getD 0) ops) :
    ∃ d0 d outs, ofVector (· + ·) 0 a = .ok d0 ∧ runOps (step (· + ·) 0) d0 ops = .ok (d, outs) ∧
      TraceOk next Ans (fun i => a[i]?.getD 0) ops outs := by
  have h0 : Tot (ofVector (· + ·) 0 a) (Rep 0 a.size fun i => a[i]?.getD 0) := by
    obtain ⟨l⟩ := a
    match l, ha with
    | [], _ => exact ⟨#[0], rfl, rfl, fun j h1 h2 => by simp at h2; omega⟩
    | [x], _ =>
      refine ⟨#[0, 0 + x], by simp [ofVector, forDown, forN, ctorStep, Fenwick.buildStep, rd, wr, init, Bits.lowbit]; try rfl, rfl, fun j h1 h2 => ?_⟩
      have : j = 1 := by simp at h2; omega
      subst this; simp [Fenwick.node, show Bits.lowbit 1 = 1 from rfl]
    | [x, y], _ =>
      refine ⟨#[0, 0 + x, 0 + y + (0 + x)], by simp [ofVector, forDown, forN, ctorStep, Fenwick.buildStep, rd, wr, init, Bits.lowbit]; try rfl, rfl, fun j h1 h2 => ?_⟩
      have : j = 1 ∨ j = 2 := by simp at h2; omega
      rcases this with rfl | rfl
      · simp [Fenwick.node, show Bits.lowbit 1 = 1 from rfl]
      · simp [Fenwick.node, show Bits.lowbit 2 = 2 from rfl, Finset.sum_range_succ, add_comm]
    | [x, y, z], _ =>
      refine ⟨#[0, 0 + x, 0 + y + (0 + x), 0 + z], by simp [ofVector, forDown, forN, ctorStep, Fenwick.buildStep, rd, wr, init, Bits.lowbit]; try rfl, rfl, fun j h1 h2 => ?_⟩
      have : j = 1 ∨ j = 2 ∨ j = 3 := by simp at h2; omega
      rcases this with rfl | rfl | rfl
      · simp [Fenwick.node, show Bits.lowbit 1 = 1 from rfl]
      · simp [Fenwick.node, show Bits.lowbit 2 = 2 from rfl, Finset.sum_range_succ, add_comm]
      · simp [Fenwick.node, show Bits.lowbit 3 = 1 from rfl, Finset.sum_Ico_succ_top]
    | _ :: _ :: _ :: _ :: _, ha => simp at ha; omega
  obtain ⟨d0, e0, h0⟩ := h0
  obtain ⟨⟨s, outs⟩, e, -, h⟩ := refine (Sim := fun d f => Rep 0 a.size f d) (step_sim a.size) h0 hv
  exact ⟨d0, s, outs, e0, e, h⟩

example : (#[3, 1, 4] : Array Nat).size ≤ 3 ∧ ValidOps (Pre 3) next (fun i => (#[3, 1, 4] : Array Nat)[i]?.getD 0)
    [.query 2, .apply 1 5, .query 3] := by simp [ValidOps, Pre]

end FenwickTreePrefix

namespace FenwickTree2D
open Cxx

variable {T : Type} [AddCommGroup T]

/-- What the calls do to the matrix. -/
def next (f : Nat → Nat → T) : Op T → Nat → Nat → T
  | .add i j v => fun a b => if a = i ∧ b = j then f i j + v else f a b
  | .sub i j v => fun a b => if a = i ∧ b = j then f i j - v else f a b
  | .modify i j h => fun a b => if a = i ∧ b = j then h (f i j) else f a b
  | _ => f

/-- Indices are in range. -/
def Pre (n m : Nat) (_ : Nat → Nat → T) : Op T → Prop
  | .add i j _ => i < n ∧ j < m
  | .sub i j _ => i < n ∧ j < m
  | .modify i j _ => i < n ∧ j < m
  | .get i j => i < n ∧ j < m
  | .sum xl xr yl yr => xl ≤ xr ∧ xr ≤ n ∧ yl ≤ yr ∧ yr ≤ m

/-- Reads return the current entries and their rectangle sums. -/
def Ans (f : Nat → Nat → T) : Op T → Option T → Prop
  | .get i j, o => o = some (f i j)
  | .sum xl xr yl yr, o => o = some (∑ i ∈ Finset.Ico xl xr, ∑ j ∈ Finset.Ico yl yr, f i j)
  | _, o => o = none

theorem step_sim (n m : Nat) (s : State T) (f : Nat → Nat → T) (op : Op T) (h : Rep2 n m f s) (hp : Pre n m f op) :
    Tot (step s op) fun r => Rep2 n m (next f op) r.1 ∧ Ans f op r.2 := by
  have hadd : ∀ (i j : Nat) (v w : T), f i j + v = w →
      Tot (add s i j v) (Rep2 n m fun a b => if a = i ∧ b = j then w else f a b) := by
    intro i j v w hw
    refine (add_tot h i j v).mono fun s' h' => ?_
    convert h' using 1
    funext a b
    by_cases e : a = i ∧ b = j
    · obtain ⟨rfl, rfl⟩ := e; simp [hw]
    · simp [e]
  cases op with
  | add i j v => exact Tot.bind (hadd i j v _ rfl) fun d' h' => Tot.pure ⟨h', rfl⟩
  | sub i j v => exact Tot.bind (hadd i j (-v) _ (sub_eq_add_neg _ _).symm) fun d' h' => Tot.pure ⟨h', rfl⟩
  | modify i j g =>
    simp only [step, sum_eq h (Nat.le_succ i) hp.1 (Nat.le_succ j) hp.2, ok_bind]
    exact Tot.bind (hadd i j _ (g (f i j)) (by simp)) fun d' h' => Tot.pure ⟨h', rfl⟩
  | get i j =>
    simp only [step, sum_eq h (Nat.le_succ i) hp.1 (Nat.le_succ j) hp.2, ok_bind]
    exact Tot.pure ⟨h, by simp [Ans]⟩
  | sum xl xr yl yr =>
    simp only [step, sum_eq h hp.1 hp.2.1 hp.2.2.1 hp.2.2.2, ok_bind]
    exact Tot.pure ⟨h, rfl⟩

/-- **C08.** Every in-range history on `FenwickTree2D(n, m)` behaves as the matrix. -/
theorem fenwickTree2D_correct (n m : Nat) (ops : List (Op T)) (hv : ValidOps (Pre n m) next (fun _ _ => 0) ops) :
    ∃ s outs, runOps step (init n m) ops = .ok (s, outs) ∧ TraceOk next Ans (fun _ _ => 0) ops outs := by
  obtain ⟨⟨s, outs⟩, e, -, h⟩ := refine (Sim := fun s f => Rep2 n m f s) (step_sim n m) (rep2_init n m) hv
  exact ⟨s, outs, e, h⟩

example : ValidOps (Pre 3 5) next (fun _ _ => (0 : Int)) [.add 1 2 5, .modify 2 4 (· - 3), .sum 0 3 1 5, .get 1 2] := by
  simp [ValidOps, Pre]

example : (runOps step (init 3 5 : State Int) [.add 1 2 5, .modify 2 4 (· - 3), .sum 0 3 1 5, .sum 0 2 0 5, .get 2 4]).toOption.map (·.2)
    = some [none, none, some 2, some 5, some (-3)] := by decide

end FenwickTree2D
