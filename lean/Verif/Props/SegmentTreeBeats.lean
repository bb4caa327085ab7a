import Verif.Proof.RangeChMinMaxAdd

/-!
# SegmentTreeBeats and RangeChMinMaxAddRangeSum: properties C202 and C203

Abstract state: the current array of integers (only the indices below `n` matter).
-/

namespace Beats
open Cxx

variable {T F V : Type} {p : Params T F} {In : V → Prop} {act : F → V → V} {Ok : F → Prop} {Desc : T → List V → Prop}

/-- The calls of the generic structure. -/
inductive Op (F : Type) where
  | apply (l r : Nat) (f : F)
  | prod (l r : Nat)

/-- One call — lazy_segment_tree.hpp:21-29, 34-45. -/
def step (p : Params T F) (s : State T F) : Op F → M (State T F × Option T)
  | .apply l r f => do let s ← apply p s l r f; return (s, none)
  | .prod l r => do let (s, x) ← prod p s l r; return (s, some x)

variable (act) in
/-- `apply` maps the values of a range. -/
def next (a : Nat → V) : Op F → Nat → V
  | .apply l r f => fun i => if l ≤ i ∧ i < r then act f (a i) else a i
  | .prod _ _ => a

variable (act In Ok) in
/-- Ranges are valid, maps are admissible and lead to admissible values. -/
def Pre (n : Nat) (a : Nat → V) : Op F → Prop
  | .apply l r f => l ≤ r ∧ r ≤ n ∧ Ok f ∧ ∀ i, l ≤ i → i < r → In (act f (a i))
  | .prod l r => l ≤ r ∧ r ≤ n

variable (Desc) in
/-- `prod` returns a summary that describes the values of the range. -/
def Ans (a : Nat → V) : Op F → Option T → Prop
  | .apply _ _ _, o => o = none
  | .prod l r, o => ∃ x, o = some x ∧ Desc x ((List.range' l (r - l)).map a)

/-- **C202.** `SegmentTreeBeats(a)` followed by any history of range updates and range queries: provided the template parameters obey
`Law` (a summary may report failure of a map, except on single values), all calls terminate normally, and the queries describe
the values that the updates have produced one by one. -/
theorem beats_correct (L : Law p In act Ok Desc) (a : Array T) (f : Nat → V) (hin : ∀ i, i < a.size → In (f i))
    (ha : ∀ i x, a[i]? = some x → Desc x [f i]) (ops : List (Op F)) (hv : ValidOps (Pre In act Ok a.size) (next act) f ops) :
    ∃ s0 s outs, ofVector p a = .ok s0 ∧ runOps (step p) s0 ops = .ok (s, outs) ∧ TraceOk (next act) (Ans Desc) f ops outs := by
  have ha' : ∀ i, i < a.size → Desc (at' p.e a i) [f i] := by
    intro i hi
    refine ha i _ ?_
    unfold at'
    rw [Array.getElem?_eq_getElem hi]; rfl
  obtain ⟨s0, e0, m, lg, h0⟩ := ofVector_tot L a f hin ha'
  have hs : ∀ (s : State T F) (b : Nat → V) (c : Op F), (∃ g, Rep p In act Ok Desc (fun _ => False) a.size m lg g s ∧ ∀ i, g (i + m) = b i) → Pre In act Ok a.size b c →
      Tot (step p s c) fun r => (∃ g, Rep p In act Ok Desc (fun _ => False) a.size m lg g r.1 ∧ ∀ i, g (i + m) = next act b c i) ∧ Ans Desc b c r.2 := by
    rintro s b c ⟨g, hg, hb⟩ hp
    cases c with
    | apply l r φ =>
      obtain ⟨p1, p2, p3, p4⟩ := hp
      refine Tot.bind (apply_tot L hg p1 p2 p3 fun x x1 x2 => ?_) fun s' h' => Tot.pure ⟨⟨_, h', fun i => ?_⟩, rfl⟩
      · have := hb (x - m)
        rw [show x - m + m = x by omega] at this
        rw [this]
        exact p4 _ (by omega) (by omega)
      · dsimp only [next]
        rw [hb]
        congr 1
        simp only [eq_iff_iff]
        omega
    | prod l r =>
      refine Tot.bind (prod_tot L hg hp.1 hp.2) ?_
      rintro ⟨s', x⟩ ⟨h1, h2⟩
      refine Tot.pure ⟨⟨g, h1, hb⟩, x, rfl, ?_⟩
      have e : rl g (l + m) (r + m) = (List.range' l (r - l)).map b := by
        unfold rl
        rw [show r + m - (l + m) = r - l by omega, Nat.add_comm l m, List.range'_eq_map_range, List.range'_eq_map_range, List.map_map, List.map_map]
        refine List.map_congr_left fun x _ => ?_
        show g (m + l + x) = b (l + x)
        rw [← hb]
        congr 1
        omega
      rw [← e]
      exact h2
  obtain ⟨⟨s, outs⟩, e, -, h⟩ := refine (Sim := fun s b => ∃ g, Rep p In act Ok Desc (fun _ => False) a.size m lg g s ∧ ∀ i, g (i + m) = b i) hs
    ⟨_, h0, fun i => by rw [Nat.add_sub_cancel]⟩ hv
  exact ⟨s0, s, outs, e0, e, h⟩

end Beats

namespace RangeChMinMaxAdd
open Cxx Beats.Spec

/-- What the calls do to the array. -/
def next (a : Nat → Int) : Op → Nat → Int
  | .chmin l r x => fun i => if l ≤ i ∧ i < r then min (a i) x else a i
  | .chmax l r x => fun i => if l ≤ i ∧ i < r then max (a i) x else a i
  | .update l r x => fun i => if l ≤ i ∧ i < r then x else a i
  | .add l r x => fun i => if l ≤ i ∧ i < r then a i + x else a i
  | _ => a

/-- Ranges are valid and all values stay strictly between `-inf` and `inf`; the bounds of `chmin` and `chmax` are sane. -/
def Pre (inf : Int) (n : Nat) (a : Nat → Int) (c : Op) : Prop :=
  (∀ i, i < n → -inf < next a c i ∧ next a c i < inf) ∧
  match c with
  | .chmin l r x => l ≤ r ∧ r ≤ n ∧ -inf ≤ x
  | .chmax l r x => l ≤ r ∧ r ≤ n ∧ x ≤ inf
  | .update l r _ => l ≤ r ∧ r ≤ n
  | .add l r _ => l ≤ r ∧ r ≤ n
  | .max l r => l ≤ r ∧ r ≤ n
  | .min l r => l ≤ r ∧ r ≤ n
  | .sum l r => l ≤ r ∧ r ≤ n
  | .prod l r => l ≤ r ∧ r ≤ n

/-- The values `a[l], …, a[r-1]`. -/
def range (a : Nat → Int) (l r : Nat) : List Int := (List.range' l (r - l)).map a

/-- What the queries return. -/
def Ans (inf : Int) (a : Nat → Int) : Op → Out → Prop
  | .max l r, o => ∃ v, o = .val v ∧ ((range a l r = [] ∧ v = -inf) ∨ (v ∈ range a l r ∧ ∀ w ∈ range a l r, w ≤ v))
  | .min l r, o => ∃ v, o = .val v ∧ ((range a l r = [] ∧ v = inf) ∨ (v ∈ range a l r ∧ ∀ w ∈ range a l r, v ≤ w))
  | .sum l r, o => o = .val (range a l r).sum
  | .prod l r, o => ∃ d, o = .data d ∧ IsLo inf (range a l r) d.lo d.lo2 ∧ IsHi inf (range a l r) d.hi d.hi2 ∧ d.sum = (range a l r).sum ∧
      d.numLo = (range a l r).count d.lo ∧ d.numHi = (range a l r).count d.hi
  | _, o => o = .unit

/-- The array given to the constructor. -/
def ofArray (init : Array Int) (i : Nat) : Int := init[i]?.getD 0

theorem build_tot (inf : Int) (init : Array Int) :
    Tot (forUp 0 init.size (Array.replicate init.size (e inf)) fun i a => do wr a i (mk inf (← rd init i) 1)) fun a =>
      a.size = init.size ∧ ∀ i, i < init.size → at' (e inf) a i = mk inf (ofArray init i) 1 := by
  refine (Tot.forUp (P := fun i (a : Array Data) => a.size = init.size ∧ ∀ j, j < i → at' (e inf) a j = mk inf (ofArray init j) 1) (Nat.zero_le _)
    ⟨by simp, fun j hj => by omega⟩ ?_).mono fun a h => h
  rintro i a - h2 ⟨h3, h4⟩
  rw [rd_at 0 h2, ok_bind, wr_eq (by omega)]
  refine Tot.pure ⟨by simpa using h3, fun j hj => ?_⟩
  rw [at_set (e inf) (by omega)]
  split
  next c => rw [← c]; rfl
  next c => exact h4 j (by omega)

/-- The tree represents the array. -/
def Sim (inf : Int) (n m lg : Nat) (s : Beats.State Data Fn) (b : Nat → Int) : Prop :=
  ∃ g, Beats.Rep (prm inf) (In inf) act (fun f => f.lb ≤ f.ub) (Desc inf) (fun _ => False) n m lg g s ∧ ∀ i, g (i + m) = b i

theorem apply_sim {inf : Int} (h0 : 0 ≤ inf) {n m lg l r : Nat} {s : Beats.State Data Fn} {b b' : Nat → Int} (h : Sim inf n m lg s b) (hl : l ≤ r)
    (hr : r ≤ n) {φ : Fn} (ok : φ.lb ≤ φ.ub) (hb : ∀ i, i < n → -inf < b i → b i < inf → b' i = if l ≤ i ∧ i < r then act φ (b i) else b i)
    (hbn : ∀ i, n ≤ i → b' i = b i) (hin : ∀ i, i < n → -inf < b' i ∧ b' i < inf) : Tot (Beats.apply (prm inf) s l r φ) fun s' => Sim inf n m lg s' b' := by
  obtain ⟨g, hg, hgb⟩ := h
  have hb' : ∀ i, b' i = if l ≤ i ∧ i < r then act φ (b i) else b i := by
    intro i
    rcases Nat.lt_or_ge i n with hi | hi
    · have := hg.inr (x := i + m) (by omega) (by omega)
      rw [hgb] at this
      exact hb i hi this.1 this.2
    · rw [hbn i hi, if_neg (by omega)]
  refine (Beats.apply_tot (law h0) hg hl hr ok fun x x1 x2 => ?_).mono fun s' h' => ⟨_, h', fun i => ?_⟩
  · have e := hgb (x - m)
    rw [show x - m + m = x by omega] at e
    have := hin (x - m) (by omega)
    rw [hb', if_pos (by omega)] at this
    rw [e]
    exact this
  · rw [hgb, hb']
    congr 1
    simp only [eq_iff_iff]
    omega

theorem prod_sim {inf : Int} (h0 : 0 ≤ inf) {n m lg l r : Nat} {s : Beats.State Data Fn} {b : Nat → Int} (h : Sim inf n m lg s b) (hl : l ≤ r)
    (hr : r ≤ n) : Tot (Beats.prod (prm inf) s l r) fun q => Sim inf n m lg q.1 b ∧ Desc inf q.2 (range b l r) := by
  obtain ⟨g, hg, hgb⟩ := h
  refine (Beats.prod_tot (law h0) hg hl hr).mono ?_
  rintro ⟨s', x⟩ ⟨h1, h2⟩
  refine ⟨⟨g, h1, hgb⟩, ?_⟩
  have e : Beats.rl g (l + m) (r + m) = range b l r := by
    unfold Beats.rl range
    rw [show r + m - (l + m) = r - l by omega, Nat.add_comm l m, List.range'_eq_map_range, List.range'_eq_map_range, List.map_map, List.map_map]
    refine List.map_congr_left fun x _ => ?_
    show g (m + l + x) = b (l + x)
    rw [← hgb]
    congr 1
    omega
  rw [← e]
  exact h2

theorem step_sim {inf : Int} (h0 : 0 ≤ inf) {n m lg : Nat} (s : Beats.State Data Fn) (b : Nat → Int) (c : Op) (h : Sim inf n m lg s b) (hp : Pre inf n b c) :
    Tot (step inf s c) fun r => Sim inf n m lg r.1 (next b c) ∧ Ans inf b c r.2 := by
  obtain ⟨hin, hp⟩ := hp
  cases c with
  | chmin l r x =>
    refine Tot.bind (apply_sim h0 h hp.1 hp.2.1 (φ := chminQuery inf x) hp.2.2 (fun i _ i1 i2 => ?_) (fun i hi => ?_) hin) fun s' h' => Tot.pure ⟨h', rfl⟩
    · have := hp.2.2
      simp only [next, act, chminQuery]
      split_ifs <;> omega
    · simp only [next]
      rw [if_neg (by omega)]
  | chmax l r x =>
    refine Tot.bind (apply_sim h0 h hp.1 hp.2.1 (φ := chmaxQuery inf x) hp.2.2 (fun i _ i1 i2 => ?_) (fun i hi => ?_) hin) fun s' h' => Tot.pure ⟨h', rfl⟩
    · have := hp.2.2
      simp only [next, act, chmaxQuery]
      split_ifs <;> omega
    · have := hp.2.1
      simp only [next]
      rw [if_neg (by omega)]
  | update l r x =>
    refine Tot.bind (apply_sim h0 h hp.1 hp.2 (φ := updateQuery x) le_rfl (fun i _ i1 i2 => ?_) (fun i hi => ?_) hin) fun s' h' => Tot.pure ⟨h', rfl⟩
    · simp only [next, act, updateQuery]
      split_ifs <;> omega
    · have := hp.2
      simp only [next]
      rw [if_neg (by omega)]
  | add l r x =>
    refine Tot.bind (apply_sim h0 h hp.1 hp.2 (φ := addQuery inf x) (by show -inf ≤ inf; omega) (fun i _ i1 i2 => ?_) (fun i hi => ?_) hin) fun s' h' => Tot.pure ⟨h', rfl⟩
    · simp only [next, act, addQuery]
      split_ifs <;> omega
    · have := hp.2
      simp only [next]
      rw [if_neg (by omega)]
  | max l r =>
    refine Tot.bind (prod_sim h0 h hp.1 hp.2) ?_
    rintro ⟨s', d⟩ ⟨h1, h2⟩
    exact Tot.pure ⟨h1, _, rfl, h2.hi.1⟩
  | min l r =>
    refine Tot.bind (prod_sim h0 h hp.1 hp.2) ?_
    rintro ⟨s', d⟩ ⟨h1, h2⟩
    exact Tot.pure ⟨h1, _, rfl, h2.lo.1⟩
  | sum l r =>
    refine Tot.bind (prod_sim h0 h hp.1 hp.2) ?_
    rintro ⟨s', d⟩ ⟨h1, h2⟩
    exact Tot.pure ⟨h1, congrArg Out.val h2.sum⟩
  | prod l r =>
    refine Tot.bind (prod_sim h0 h hp.1 hp.2) ?_
    rintro ⟨s', d⟩ ⟨h1, h2⟩
    exact Tot.pure ⟨h1, d, rfl, h2.lo, h2.hi, h2.sum, h2.numLo, h2.numHi⟩

/-- **C203.** `RangeChMinMaxAddRangeSum(init)` followed by any history of `chmin`, `chmax`, `update`, `add` and queries during which the
values stay strictly between `-inf` and `inf`: all calls terminate normally, and the queries return the extrema, the second
extrema, their numbers and the sum of the current values. -/
theorem rangeChMinMaxAdd_correct (inf : Int) (h0 : 0 ≤ inf) (init : Array Int)
    (hin : ∀ i, i < init.size → -inf < ofArray init i ∧ ofArray init i < inf) (ops : List Op) (hv : ValidOps (Pre inf init.size) next (ofArray init) ops) :
    ∃ s0 s outs, ofVector inf init = .ok s0 ∧ runOps (step inf) s0 ops = .ok (s, outs) ∧ TraceOk next (Ans inf) (ofArray init) ops outs := by
  obtain ⟨a, ea, ha1, ha2⟩ := build_tot inf init
  obtain ⟨s0, e0, m, lg, hs⟩ := Beats.ofVector_tot (law h0) a (ofArray init) (by rw [ha1]; exact hin)
    (by
      intro i hi
      show Desc inf (at' (e inf) a i) _
      rw [ha2 i (by omega)]
      exact mk_desc (by simp) (by simp) rfl)
  rw [ha1] at hs
  obtain ⟨⟨s, outs⟩, e', -, h⟩ := refine (Sim := Sim inf init.size m lg) (step_sim h0) ⟨_, hs, fun i => by rw [Nat.add_sub_cancel]⟩ hv
  exact ⟨s0, s, outs, by unfold ofVector; rw [ea]; exact e0, e', h⟩

/-- The hypotheses are met by a history in which some map fails on an inner node: `chmin` with 3 on the values 1, 5, 3, 7. -/
example : ValidOps (Pre 1000 4) next (ofArray #[1, 5, 3, 7]) [.chmin 0 4 3, .add 1 3 2, .chmax 0 4 4, .sum 0 4, .prod 1 3] := by
  have key : ∀ (P : Nat → Prop), P 0 → P 1 → P 2 → P 3 → ∀ i, i < 4 → P i := by
    intro P h0 h1 h2 h3 i hi
    rcases (show i = 0 ∨ i = 1 ∨ i = 2 ∨ i = 3 by omega) with rfl | rfl | rfl | rfl <;> assumption
  refine ⟨⟨key _ ?_ ?_ ?_ ?_, by decide⟩, ⟨key _ ?_ ?_ ?_ ?_, by decide⟩, ⟨key _ ?_ ?_ ?_ ?_, by decide⟩, ⟨key _ ?_ ?_ ?_ ?_, by decide⟩,
    ⟨key _ ?_ ?_ ?_ ?_, by decide⟩, trivial⟩ <;> decide +kernel

/-- The hypothesis of `beats_correct` is met by this instantiation. -/
example : Beats.Law (prm 1000) (In 1000) act (fun f => f.lb ≤ f.ub) (Desc 1000) := law (by decide)

/-- Some map of that history fails at the root and is pushed down: the recursion of `all_apply` is exercised. -/
example : (match mapping 1000 (chminQuery 1000 3) ⟨false, 1, 3, 7, 5, 16, 4, 1, 1⟩ with | .ok d => d.fail | _ => false) = true := by decide +kernel

end RangeChMinMaxAdd
