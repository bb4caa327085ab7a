import Verif.Proof.RangeSetComposite

/-!
# C154: `RangeSetRangeComposite`

For every monoid, every initial sequence and every history of `set` and `prod`, `prod(l, r)` is the product of the elements `l, …, r - 1` in order.
The constructor from a length and a value never succeeds.
-/

namespace RangeSetComposite
open Cxx

/-- **C154** (constructor from a vector) Every history of calls with ranges inside the sequence runs without undefined behaviour and every answer is right. -/
theorem history_correct_partial {α : Type} [Monoid α] (a : List α) (ops : List (Op α)) (hv : ValidOps Pre next a ops) :
    ∃ o s os, ofVector a = .ok o ∧ runOps (step (· * ·) 1) o ops = .ok (s, os) ∧ TraceOk next Ans a ops os := by
  obtain ⟨o, e1, h0⟩ := ofVector_tot a
  obtain ⟨r, e, -, h⟩ := Cxx.refine (Sim := Sim) (step := step (· * ·) 1) (Pre := Pre) (next := next) (Ans := Ans) (fun s t i hs hp => step_tot hs i hp) h0 hv
  exact ⟨o, r.1, r.2, e1, e, h⟩

/-- **C154** A call with a range that is not inside the sequence fails the assertion. -/
theorem range_refused {α : Type} [Monoid α] (a : List α) (ops : List (Op α)) (hv : ValidOps Pre next a ops) (l r : Int) (f : α) (hlr : ¬ (0 ≤ l ∧ l ≤ r ∧ r ≤ a.length)) :
    ∃ o s os, ofVector a = .ok o ∧ runOps (step (· * ·) 1) o ops = .ok (s, os) ∧ step (· * ·) 1 s (.set l r f) = .error .assertion ∧ step (· * ·) 1 s (.prod l r) = .error .assertion := by
  obtain ⟨o, e1, h0⟩ := ofVector_tot a
  obtain ⟨q, e, hs, -⟩ := Cxx.refine (Sim := fun s t => Sim s t ∧ t.length = a.length) (step := step (· * ·) 1) (Pre := Pre) (next := next) (Ans := Ans)
    (fun s t i hs hp => (step_tot hs.1 i hp).mono fun r hr => ⟨⟨hr.1, by rw [← hs.2]; cases i <;> simp [next]⟩, hr.2⟩) ⟨h0, rfl⟩ hv
  refine ⟨o, q.1, q.2, e1, e, ?_, ?_⟩
  · obtain ⟨⟨S, h⟩, hl⟩ := hs
    show (set (· * ·) 1 q.1 l r f >>= fun s => (.ok (s, .unit) : M (State α × Out α))) = _
    unfold set
    rw [h.hn, hl, decide_eq_false hlr, check_false, err_bind, err_bind]
  · obtain ⟨⟨S, h⟩, hl⟩ := hs
    show (prod (· * ·) 1 q.1 l r >>= fun v => (.ok (q.1, .val v) : M (State α × Out α))) = _
    unfold prod
    rw [h.hn, hl, decide_eq_false hlr, check_false, err_bind, err_bind]

/-- The constructor `RangeSetRangeComposite(n, val)` (and with it the default constructor) fails an assertion for every `n` and `val`: it inserts into a set over an empty universe. -/
theorem ofVal_counterexample {α : Type} (op : α → α → α) (e : α) (n : Nat) (val : α) : ofVal op e n val = .error .assertion := rfl

/-! ### The hypotheses are satisfiable -/

/-- Affine maps `x ↦ a x + b`, applied from left to right: a monoid that is not commutative. -/
structure Aff where
  a : Int
  b : Int
deriving DecidableEq, Repr

instance : Monoid Aff where
  mul f g := ⟨g.a * f.a, g.a * f.b + g.b⟩
  one := ⟨1, 0⟩
  mul_assoc f g h := by
    show Aff.mk _ _ = Aff.mk _ _
    congr 1
    · exact (Int.mul_assoc _ _ _).symm
    · show h.a * (g.a * f.b + g.b) + h.b = h.a * g.a * f.b + (h.a * g.b + h.b)
      rw [Int.mul_add, Int.mul_assoc, Int.add_assoc]
  one_mul f := by
    show Aff.mk _ _ = _
    obtain ⟨a, b⟩ := f
    congr 1
    · exact Int.mul_one _
    · show a * 0 + b = b
      rw [Int.mul_zero, Int.zero_add]
  mul_one f := by
    show Aff.mk _ _ = _
    obtain ⟨a, b⟩ := f
    congr 1
    · exact Int.one_mul _
    · show 1 * b + 0 = b
      rw [Int.one_mul, Int.add_zero]

/-- A sequence. -/
def sampleSeq : List Aff := [⟨1, 2⟩, ⟨3, 4⟩, ⟨0, 1⟩, ⟨2, 2⟩, ⟨1, 1⟩]
/-- Calls that cut runs in the middle and join them again. -/
def sample : List (Op Aff) := [.prod 1 4, .set 1 5 ⟨2, 1⟩, .prod 0 5, .set 2 3 ⟨0, 7⟩, .prod 2 5, .set 0 4 ⟨1, 1⟩, .prod 1 4, .prod 0 5, .set 3 3 ⟨5, 5⟩, .prod 2 2]

example : ValidOps Pre next sampleSeq sample := by decide +kernel

example : (do
    let o ← ofVector sampleSeq
    let r ← runOps (step (· * ·) 1) o sample
    return r.2 : M (List (Out Aff))) = .ok [.val ⟨0, 4⟩, .unit, .val ⟨16, 47⟩, .unit, .val ⟨0, 31⟩, .unit, .val ⟨1, 3⟩, .val ⟨2, 9⟩, .unit, .val ⟨1, 0⟩] := by
  decide +kernel

end RangeSetComposite
