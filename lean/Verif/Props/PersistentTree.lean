import Verif.Proof.PersistentDual
import Verif.Props.SegmentTree
import Verif.Props.LazySegmentTree

/-!
# Persistent segment trees: properties C164 to C168

The specification is in `Verif/Spec/PersistentTree.lean`. The pool is any pool none of whose nodes is in use, whatever is stored in its nodes: a new one, or one after `clear_pool`.
-/

namespace PTree
open Cxx SegmentTree

/-- The queries of an object of a class with products return what they have to for the version `a`, and fail an assertion outside of it. -/
structure Answers {T : Type} [Monoid T] (a : Ver T) (get : Int → M T) (prod : Int → Int → M T) (prodAll : M T) (maxRight minLeft : Int → (T → Bool) → M Nat) : Prop where
  get_in : ∀ i : Nat, i < a.1 → get i = .ok (a.2 i)
  get_out : ∀ i : Int, ¬ (0 ≤ i ∧ i < a.1) → get i = .error .assertion
  prod_in : ∀ l r : Nat, l ≤ r → r ≤ a.1 → prod l r = .ok (rangeProd a.2 l r)
  prod_out : ∀ l r : Int, ¬ (0 ≤ l ∧ l ≤ r ∧ r ≤ a.1) → prod l r = .error .assertion
  all : prodAll = .ok (rangeProd a.2 0 a.1)
  max_in : ∀ (l : Nat) (g : T → Bool), l ≤ a.1 → g 1 = true → ∃ r, maxRight l g = .ok r ∧ IsMaxRight a.1 a.2 l g r
  max_out : ∀ (l : Int) (g : T → Bool), ¬ (0 ≤ l ∧ l ≤ a.1) ∨ g 1 = false → maxRight l g = .error .assertion
  min_in : ∀ (r : Nat) (g : T → Bool), r ≤ a.1 → g 1 = true → ∃ l, minLeft r g = .ok l ∧ IsMinLeft a.2 r g l
  min_out : ∀ (r : Int) (g : T → Bool), ¬ (0 ≤ r ∧ r ≤ a.1) ∨ g 1 = false → minLeft r g = .error .assertion

theorem empty_build {T F : Type} (P : Prm T F) (lz : Bool) : ∀ (k : Nat) (h : Heap T F), h.nodes.size - h.top < k → buildRec P lz #[] k h 0 0 = .error .ub := by
  intro k
  induction k with
  | zero => intros; omega
  | succ k ih =>
    intro h hk
    unfold buildRec alloc
    by_cases c : h.top < h.nodes.size
    · rw [if_pos c]
      rw [Cxx.pure_eq, ok_bind]
      dsimp only
      rw [if_neg (by omega)]
      show (buildRec P lz #[] k { h with top := h.top + 1 } 0 0 >>= _) = _
      rw [ih _ (by dsimp only; omega)]
      rfl
    · rw [if_neg c]
      rfl

theorem ofVec_empty {T F : Type} (P : Prm T F) (lz : Bool) (h : Heap T F) : ofVec P lz h #[] = .error .ub := by
  unfold ofVec
  have := empty_build P lz ((#[] : Array T).size + h.nodes.size + 1) h (by omega)
  show (buildRec P lz #[] ((#[] : Array T).size + h.nodes.size + 1) h 0 0 >>= _) = _
  rw [this]
  rfl

end PTree

namespace PersistentLazySegmentTree
open Cxx PTree SegTree SegmentTree

variable {T F : Type} [Monoid T] [Monoid F] [MulAction F T]

theorem answers (hd : ∀ (φ : F) (a b : T), φ • (a * b) = φ • a * φ • b) {lf : Option Nat → Prop} {h : Heap T F} {o : Obj} {a : Ver T} (hr : Rep (lazySem T F lf) False h o a) :
    Answers a (get (prm T F) h o) (prod (prm T F) h o) (prodAll (prm T F) h o) (maxRight (prm T F) h o) (minLeft (prm T F) h o) where
  get_in i hi := get_eq hr (by omega) (by omega)
  get_out i hi := by
    unfold get
    rw [hr.1, decide_eq_false hi]
    rfl
  prod_in l r h1 h2 := prod_eq hd hr h1 h2
  prod_out l r hlr := by
    unfold prod
    rw [hr.1, decide_eq_false hlr]
    rfl
  all := prodAll_eq hr
  max_in l g h1 h2 := by
    obtain ⟨r, e, r1, r2, r3, r4⟩ := maxRight_tot hd hr h1 h2
    exact ⟨r, e, isMaxRight_of r1 r2 r3 r4⟩
  max_out l g hl := by
    unfold maxRight
    rw [hr.1]
    by_cases c : 0 ≤ l ∧ l ≤ a.1
    · rw [decide_eq_true c, check_true, ok_bind, show g (prm T F).e = false from hl.resolve_left (fun h => h c)]
      rfl
    · rw [decide_eq_false c]
      rfl
  min_in r g h1 h2 := by
    obtain ⟨l, e, r1, r2, r3⟩ := minLeft_tot hd hr h1 h2
    exact ⟨l, e, isMinLeft_of r1 r2 r3⟩
  min_out r g hl := by
    unfold minLeft
    rw [hr.1]
    by_cases c : 0 ≤ r ∧ r ≤ a.1
    · rw [decide_eq_true c, check_true, ok_bind, show g (prm T F).e = false from hl.resolve_left (fun h => h c)]
      rfl
    · rw [decide_eq_false c]
      rfl

/-- **C165, part.** Every history of allowed calls, on any pool that is large enough, makes its versions without failure, and after the last call all versions still have their own elements: `get`, `prod`, `prod_all`, `max_right` and `min_left` of each return what they have to. Missing: the constructors from an empty vector and from the length 0, see `empty_counterexample`. -/
theorem history_partial (hd : ∀ (φ : F) (a b : T), φ • (a * b) = φ • a * φ • b) (h : Heap T F) (h0 : h.top = 0) (ops : List (Op T F)) (hv : Valid (calls T F) h.nodes.size ops) :
    ∃ h' objs, run (prm T F) h ops = .ok (h', objs) ∧ objs.length = ops.length ∧ ∀ k < ops.length,
      let o := objs.getD k dflt
      Answers (ver (versions (calls T F) ops) k) (get (prm T F) h' o) (prod (prm T F) h' o) (prodAll (prm T F) h' o) (maxRight (prm T F) h' o) (minLeft (prm T F) h' o) := by
  obtain ⟨⟨h', objs⟩, e, s, hl⟩ := run_tot hd h0 hv
  dsimp only at s hl
  exact ⟨h', objs, e, hl, fun k hk => answers hd (s.get (by rw [← s.len]; omega))⟩

/-- **C165.** Point updates outside of the array fail an assertion. -/
theorem update_out (P : Prm T F) (h : Heap T F) (o : Obj) (i : Int) (hi : ¬ (0 ≤ i ∧ i < o.n)) (f : T → T) (x : T) : applyAt P h o i f = .error .assertion ∧ set P h o i x = .error .assertion := by
  unfold set applyAt
  rw [decide_eq_false hi]
  exact ⟨rfl, rfl⟩

/-- **C165 (violated for empty arrays).** The constructors from an empty vector and from the length 0 use up the pool, however large it is. -/
theorem empty_counterexample (P : Prm T F) (h : Heap T F) : ofVec P true h #[] = .error .ub ∧ ofSize P true h 0 = .error .ub :=
  ⟨ofVec_empty P true h, ofVec_empty P true h⟩

end PersistentLazySegmentTree

namespace PersistentSegmentTree
open Cxx PTree SegTree SegmentTree

variable {T : Type} [Monoid T]

theorem answers {lf : Option Nat → Prop} {h : Heap T Unit} {o : Obj} {a : Ver T} (hr : Rep (segSem T lf) False h o a) :
    Answers a (get h o) (prod (segPrm T) h o) (prodAll (segPrm T) h o) (maxRight (segPrm T) h o) (minLeft (segPrm T) h o) := by
  letI := unitAct T
  have key := PersistentLazySegmentTree.answers (T := T) (F := Unit) (fun _ _ _ => rfl) hr
  have e1 : get h o = PersistentLazySegmentTree.get (prm T Unit) h o := funext fun i => get_lazy h o i
  have e2 : prod (segPrm T) h o = PersistentLazySegmentTree.prod (prm T Unit) h o := by
    funext l r
    unfold prod
    rw [prodRec_lazy h l r (segPrm T).id]
    rfl
  have e3 : maxRight (segPrm T) h o = PersistentLazySegmentTree.maxRight (prm T Unit) h o := by
    funext l g
    unfold maxRight
    rw [maxRightRec_lazy h l.toNat g (segPrm T).id]
    rfl
  have e4 : minLeft (segPrm T) h o = PersistentLazySegmentTree.minLeft (prm T Unit) h o := by
    funext r g
    unfold minLeft
    rw [minLeftRec_lazy h r.toNat g (segPrm T).id]
    rfl
  rw [e1, e2, e3, e4]
  exact key

/-- **C164, part.** Every history of allowed calls, on any pool that is large enough, makes its versions without failure, and after the last call all versions still have their own elements: `get`, `prod`, `prod_all`, `max_right` and `min_left` of each return what they have to. Missing: the constructors from an empty vector and from the length 0, see `empty_counterexample`. -/
theorem history_partial (h : Heap T Unit) (h0 : h.top = 0) (ops : List (Op T)) (hv : Valid (calls T) h.nodes.size ops) :
    ∃ h' objs, run (segPrm T) h ops = .ok (h', objs) ∧ objs.length = ops.length ∧ ∀ k < ops.length,
      let o := objs.getD k dflt
      Answers (ver (versions (calls T) ops) k) (get h' o) (prod (segPrm T) h' o) (prodAll (segPrm T) h' o) (maxRight (segPrm T) h' o) (minLeft (segPrm T) h' o) := by
  obtain ⟨⟨h', objs⟩, e, s, hl⟩ := run_tot (lf := fun _ => True) h0 (fun _ _ _ => trivial) hv
  dsimp only at s hl
  exact ⟨h', objs, e, hl, fun k hk => answers (s.get (by rw [← s.len]; omega))⟩

/-- **C164.** Updates outside of the array fail an assertion. -/
theorem update_out (P : Prm T Unit) (h : Heap T Unit) (o : Obj) (i : Int) (hi : ¬ (0 ≤ i ∧ i < o.n)) (f : T → T) (x : T) : apply P h o i f = .error .assertion ∧ set P h o i x = .error .assertion := by
  unfold set apply
  rw [decide_eq_false hi]
  exact ⟨rfl, rfl⟩

/-- **C164 (violated for empty arrays).** The constructors from an empty vector and from the length 0 use up the pool, however large it is. -/
theorem empty_counterexample (P : Prm T Unit) (h : Heap T Unit) : ofVec P false h #[] = .error .ub ∧ ofSize P false h 0 = .error .ub :=
  ⟨ofVec_empty P false h, ofVec_empty P false h⟩

/-- **C168, part.** In every history that starts with a new pool (`init_pool`), `dump` of every version lists its elements. Missing: histories after `clear_pool`, see `dump_counterexample`. -/
theorem dump_partial (siz : Nat) (ops : List (Op T)) (hv : Valid (calls T) siz ops) :
    ∃ h' objs, run (segPrm T) (initPool (segPrm T) siz) ops = .ok (h', objs) ∧ objs.length = ops.length ∧ ∀ k < ops.length,
      dump h' (objs.getD k dflt) = .ok ((List.range (ver (versions (calls T) ops) k).1).map (ver (versions (calls T) ops) k).2) := by
  have hsz : (initPool (segPrm T) siz).nodes.size = siz := Array.size_replicate
  obtain ⟨⟨h', objs⟩, e, s, hl⟩ := run_tot (lf := (· = none)) (h := initPool (segPrm T) siz) rfl (fun i x hx => by
    have : x = ⟨none, none, (segPrm T).e, (segPrm T).id⟩ := by
      unfold initPool at hx
      rw [Array.getElem?_replicate] at hx
      split at hx
      · cases hx
        rfl
      · cases hx
    rw [this]) (by rw [hsz]; exact hv)
  dsimp only at s hl
  refine ⟨h', objs, e, hl, fun k hk => ?_⟩
  obtain ⟨-, r1, ⟨z, c | ⟨⟨⟩, -⟩⟩ | ⟨p, t, c1, c2, c3, c4⟩⟩ := s.get (v := k) (by rw [← s.len]; omega)
  · unfold dump
    rw [c, z]
    rfl
  · unfold dump
    rw [c1]
    have := dumpRec_eq (k := h'.nodes.size + 1) (by omega) c3 c4
    rw [Nat.sub_zero] at this
    rw [List.range_eq_range']
    exact this

/-- **C168 (violated after `clear_pool`).** A leaf of a tree that is built after `clear_pool` still has the children that its node had before, and `dump` goes on with them: the tree of `{5}` is dumped as `{2, 3}`. -/
theorem dump_counterexample : ∃ h1 o1 h2 o2, run (segPrm Nat) (initPool (segPrm Nat) 8) [.ofVec #[2, 3]] = .ok (h1, [o1]) ∧ run (segPrm Nat) (clearPool h1) [.ofVec #[5]] = .ok (h2, [o2]) ∧
    get h2 o2 0 = .ok 5 ∧ dump h2 o2 = .ok [2, 3] :=
  ⟨_, _, _, _, rfl, rfl, rfl, rfl⟩

theorem clog3 : Nat.clog 2 3 = 2 := by rw [Nat.clog_of_two_le (by omega) (by omega), Nat.clog_of_two_le (by omega) (by omega), Nat.clog_of_right_le_one (by omega)]

/-- The hypotheses of `history_partial` hold for a history with two versions made from one. -/
example : Valid (calls Nat) 20 [.ofVec #[2, 3, 5], .set 0 1 7, .apply 0 2 (· + 1), .ofSize 3, .dflt] := by
  simp [Valid, ValidFrom, calls, ver, elems, change, clog3]

example : versions (calls Nat) [.ofVec #[2, 3, 5], .set 0 1 7] = [elems #[2, 3, 5], change (elems #[2, 3, 5]) 1 fun _ => 7] := rfl

end PersistentSegmentTree

namespace PersistentLazySegmentTree
open Cxx PTree LazySegmentTree

/-- **C168 (violated for the lazy tree).** On a new pool `dump` of the tree of two elements lists three values: the product of all comes first. -/
theorem dump_counterexample : ∃ h o, run (prm Seg Aff) (initPool (prm Seg Aff) 8) [.ofVec #[⟨1, 1⟩, ⟨2, 1⟩]] = .ok (h, [o]) ∧ dump (prm Seg Aff) h o = .ok [⟨3, 2⟩, ⟨1, 1⟩, ⟨2, 1⟩] :=
  ⟨_, _, rfl, rfl⟩

set_option maxRecDepth 100000 in
/-- **C168 (violated for the lazy tree).** `dump` also combines the pending maps in the wrong order: after `apply(0, 2, x ↦ 2x)` and `apply_all(x ↦ x + 1)` on `{1, 2, 3, 4}` the first element is 3, `dump` has 4. -/
theorem dump_order_counterexample : ∃ h o0 o1 o2, run (prm Seg Aff) (initPool (prm Seg Aff) 20) [.ofVec #[⟨1, 1⟩, ⟨2, 1⟩, ⟨3, 1⟩, ⟨4, 1⟩], .apply 0 0 2 ⟨2, 0⟩, .applyAll 1 ⟨1, 1⟩] = .ok (h, [o0, o1, o2]) ∧
    get (prm Seg Aff) h o2 0 = .ok ⟨3, 1⟩ ∧ dump (prm Seg Aff) h o2 = .ok [⟨17, 4⟩, ⟨8, 2⟩, ⟨4, 1⟩, ⟨6, 1⟩, ⟨9, 2⟩, ⟨4, 1⟩, ⟨5, 1⟩] :=
  ⟨_, _, _, _, rfl, rfl, rfl⟩

/-- The hypotheses of `history_partial` hold for a history with several versions made from one. -/
example : (∀ (φ : Aff) (a b : Seg), φ • (a * b) = φ • a * φ • b) ∧
    Valid (calls Seg Aff) 60 [.ofVec #[⟨1, 1⟩, ⟨2, 1⟩, ⟨3, 1⟩], .apply 0 0 2 ⟨2, 0⟩, .applyAll 1 ⟨1, 1⟩, .set 0 1 ⟨7, 1⟩, .ofSize 3, .dflt, .apply 5 (-1) 3 ⟨2, 0⟩] := by
  refine ⟨aff_dist, ?_⟩
  simp [Valid, ValidFrom, calls, ver, elems, change, changeRange, PersistentSegmentTree.clog3]

end PersistentLazySegmentTree

namespace PersistentDualSegmentTree
open Cxx PTree LazySegmentTree

variable {F : Type}

/-- **C166.** Every history of allowed calls of `PersistentDualSegmentTree`, on any pool that is large enough, makes its versions without failure, and after the last call all versions still have their own elements. -/
theorem history [Monoid F] (h : Heap Unit F) (h0 : h.top = 0) (ops : List (Op F)) (hv : Valid (calls F false) h.nodes.size ops) :
    ∃ h' objs, run (dualPrm F) false h ops = .ok (h', objs) ∧ objs.length = ops.length ∧ ∀ k < ops.length,
      let o := objs.getD k dflt
      let a := ver (versions (calls F false) ops) k
      (∀ i : Nat, i < a.1 → get (dualPrm F) h' o i = .ok (a.2 i)) ∧ ∀ i : Int, ¬ (0 ≤ i ∧ i < a.1) → get (dualPrm F) h' o i = .error .assertion := by
  obtain ⟨⟨h', objs⟩, e, s, hl⟩ := run_tot false (fun h => by cases h) h0 hv
  dsimp only at s hl
  refine ⟨h', objs, e, hl, fun k hk => ?_⟩
  have hr := s.get (v := k) (by rw [← s.len]; omega)
  refine ⟨fun i hi => get_eq hr (by omega) (by omega), fun i hi => ?_⟩
  unfold get
  rw [hr.1, decide_eq_false hi]
  rfl

/-- **C167.** Every history of allowed calls of `PersistentCommutativeDualSegmentTree` with maps that commute, on any pool that is large enough, makes its versions without failure, and after the last call all versions still have their own elements. -/
theorem commutative_history [CommMonoid F] (h : Heap Unit F) (h0 : h.top = 0) (ops : List (Op F)) (hv : Valid (calls F true) h.nodes.size ops) :
    ∃ h' objs, run (dualPrm F) true h ops = .ok (h', objs) ∧ objs.length = ops.length ∧ ∀ k < ops.length,
      let o := objs.getD k dflt
      let a := ver (versions (calls F true) ops) k
      (∀ i : Nat, i < a.1 → get (dualPrm F) h' o i = .ok (a.2 i)) ∧ ∀ i : Int, ¬ (0 ≤ i ∧ i < a.1) → get (dualPrm F) h' o i = .error .assertion := by
  obtain ⟨⟨h', objs⟩, e, s, hl⟩ := run_tot true (fun _ => mul_comm) h0 hv
  dsimp only at s hl
  refine ⟨h', objs, e, hl, fun k hk => ?_⟩
  have hr := s.get (v := k) (by rw [← s.len]; omega)
  refine ⟨fun i hi => get_eq hr (by omega) (by omega), fun i hi => ?_⟩
  unfold get
  rw [hr.1, decide_eq_false hi]
  rfl

/-- The hypotheses of `history` hold for maps that do not commute. -/
example : Valid (calls Aff false) 60 [.ofSize 3, .apply 0 0 2 ⟨2, 0⟩, .applyAll 1 ⟨1, 1⟩, .apply 0 1 3 ⟨5, 0⟩, .dflt, .ofSize 0] := by
  simp [Valid, ValidFrom, calls, ver, changeRange, PersistentSegmentTree.clog3]

/-- The hypotheses of `commutative_history` hold. -/
example : Valid (calls Nat true) 30 [.ofSize 3, .apply 0 0 2 2, .applyAll 1 3, .apply 0 1 3 5, .dflt, .ofSize 0] := by
  simp [Valid, ValidFrom, calls, ver, changeRange, PersistentSegmentTree.clog3]

end PersistentDualSegmentTree
