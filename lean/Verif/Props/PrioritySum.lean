import Verif.Proof.PrioritySum
import Mathlib.Algebra.Order.Group.Int
import Mathlib.Order.OrderDual
import Mathlib.Algebra.Order.Group.Synonym

/-! # C163: sum of the first k elements -/

namespace PrioritySum
open Cxx

/-- **C163 (part).** For every `k ≥ 0` and every history of `insert`, `set_k` with `k ≥ 0` and `erase` of the greatest of the first `k` elements, no call fails,
`get_sum()` is the sum of the first `k` elements in increasing order (of all of them if there are fewer), `get_k()` is `k` and `size()` is the number of elements.
Missing: `erase` of other elements, which is wrong (`erase_counterexample`). -/
theorem run_partial {α : Type*} [LinearOrder α] [AddCommGroup α] {k : Int} (hk : 0 ≤ k) (ops : List (Op α)) (h : ValidFrom ((k, 0) : Abs α) ops) :
    ∃ s, run k ops = .ok s ∧ getSum s = (Abs.run k ops).first.sum ∧ s.k = (Abs.run k ops).1 ∧ size s = (Abs.run k ops).2.card := by
  obtain ⟨s, hs, hr⟩ := run_tot hk ops h
  refine ⟨s, hs, ?_, hr.base.k, ?_⟩
  · rw [first_eq hr, List.sum_reverse]
    exact hr.base.sum
  · unfold size
    rw [hr.base.dh, hr.base.dt, ← hr.base.ms, Multiset.coe_card, List.length_append]
    simp

/-- Non-vacuity: a history with all three calls. -/
example : ValidFrom ((1, 0) : Abs Int) [.insert 3, .insert 1, .insert 2, .setK 2] ∧ (run (1 : Int) [Op.insert (3 : Int), .insert 1, .insert 2, .setK 2, .erase 2]).toOption.map getSum = some 4 := by
  refine ⟨⟨trivial, trivial, trivial, ?_, trivial⟩, by decide +kernel⟩
  show (0 : Int) ≤ 2
  omega

example (x : Int) : ValidFrom ((1, 0) : Abs Int) [.insert x, .erase x] := by
  refine ⟨trivial, ?_, trivial⟩
  show (((x ::ₘ 0 : Multiset Int).sort (· ≤ ·)).take 1).getLast? = some x
  simp

/-- The theorem for the reversed order, that is for `MinimumPrioritySum`: the first `k` elements are the greatest ones. -/
example (ops : List (Op Intᵒᵈ)) (h : ValidFrom ((2, 0) : Abs Intᵒᵈ) ops) : ∃ s, run 2 ops = .ok s ∧ getSum s = (Abs.run 2 ops).first.sum :=
  let ⟨s, h1, h2, _⟩ := run_partial (by omega) ops h
  ⟨s, h1, h2⟩

/-- **C163 fails for `erase`.** Erasing the lesser of two elements leaves it in the sum (2 is right), and erasing an element outside of the first `k` takes it from the sum (1 is right). -/
theorem erase_counterexample :
    (run (2 : Int) [Op.insert (1 : Int), .insert 2, .erase 1]).toOption.map getSum = some 3 ∧
    (run (1 : Int) [Op.insert (1 : Int), .insert 2, .insert 3, .erase 3]).toOption.map getSum = some 0 := by
  decide +kernel

/-- `decr_k()` at `k = 0` takes the top of an empty queue. -/
theorem negative_counterexample : run (0 : Int) [Op.setK (α := Int) (-1)] = .error .ub := by
  rfl

end PrioritySum
