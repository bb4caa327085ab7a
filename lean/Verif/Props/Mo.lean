import Verif.Proof.Mo
import Mathlib.Algebra.BigOperators.Group.Finset.Basic
import Mathlib.Algebra.BigOperators.Intervals
import Mathlib.Tactic.Ring

/-!
Property C133: Mo's algorithm.
-/

namespace Mo.Props
open Cxx

/-- The comparison passed to `std::sort` is a strict weak ordering for every bucket size. -/
theorem order_valid (b : Nat) (qs : Array (Nat × Nat)) : StrictWeak (less b qs) := less_strictWeak b qs

/-- Let `Rep l r s` say that the state `s` of the caller describes the range `[l, r)`. If adding and deleting at either end of valid ranges inside
`[0, n)` does what it should, then `solve` succeeds and every query `[l, r)` with `l ≤ r ≤ n` gets an answer evaluated for exactly this range,
whatever order the sort chooses and whatever the bucket size is. -/
theorem answers (S T : Type) (n : Nat) (c : Callbacks S T) (Rep : Nat → Nat → S → Prop) (Ans : Nat → Nat → T → Prop) (h : Ok n c Rep Ans)
    (srt : (Nat → Nat → Bool) → List Nat → List Nat) (hsrt : ∀ lt l, StrictWeak lt → (srt lt l).Perm l) (b : Nat)
    (qs : Array (Nat × Nat)) (hq : ∀ q ∈ qs, q.1 ≤ q.2 ∧ q.2 ≤ n) (x0 : T) (s0 : S) (h0 : Rep 0 0 s0) :
    Tot (solve srt b qs c x0 s0) fun o => o.2.size = qs.size ∧ ∀ (i : Nat) (q : Nat × Nat), qs[i]? = some q → ∃ x, o.2[i]? = some x ∧ Ans q.1 q.2 x :=
  (solve_tot h hsrt b hq x0 h0).mono fun _ h => h.2

/-- Callbacks that keep the sum of a range of an array. -/
def sumCallbacks (a : Array Int) : Callbacks Int Int :=
  ⟨fun s => return s, fun l _ s => do return s + (← rd a l), fun l _ s => do return s - (← rd a l), fun _ r s => do return s + (← rd a r), fun _ r s => do return s - (← rd a r)⟩

theorem sum_ok (a : Array Int) : Ok a.size (sumCallbacks a) (fun l r s => s = ∑ i ∈ Finset.Ico l r, at' 0 a i) (fun l r s => s = ∑ i ∈ Finset.Ico l r, at' 0 a i) := by
  refine ⟨?_, ?_, ?_, ?_, ?_⟩
  · rintro l r s h1 h2 rfl
    show Tot (rd a l >>= fun x => pure (_ + x)) _
    rw [rd_at 0 (by omega), ok_bind]
    exact Tot.pure (by rw [Finset.sum_eq_sum_Ico_succ_bot h1, add_comm])
  · rintro l r s h1 h2 rfl
    show Tot (rd a l >>= fun x => pure (_ - x)) _
    rw [rd_at 0 (by omega), ok_bind]
    exact Tot.pure (by rw [Finset.sum_eq_sum_Ico_succ_bot h1]; ring)
  · rintro l r s h1 h2 rfl
    show Tot (rd a r >>= fun x => pure (_ + x)) _
    rw [rd_at 0 (by omega), ok_bind]
    exact Tot.pure (by rw [Finset.sum_Ico_succ_top h1])
  · rintro l r s h1 h2 rfl
    show Tot (rd a r >>= fun x => pure (_ - x)) _
    rw [rd_at 0 (by omega), ok_bind]
    exact Tot.pure (by rw [Finset.sum_Ico_succ_top h1]; ring)
  · rintro l r s h1 h2 rfl
    exact Tot.pure rfl

example : Ok 3 (sumCallbacks #[5, -2, 7]) (fun l r s => s = ∑ i ∈ Finset.Ico l r, at' 0 #[5, -2, 7] i) (fun l r s => s = ∑ i ∈ Finset.Ico l r, at' 0 #[5, -2, 7] i) ∧
    (∀ (lt : Nat → Nat → Bool) (l : List Nat), StrictWeak lt → List.Perm ((fun (_ : Nat → Nat → Bool) (l : List Nat) => l) lt l) l) ∧ (∀ q ∈ #[(1, 3), (0, 0), (2, 2)], q.1 ≤ q.2 ∧ q.2 ≤ 3) :=
  ⟨sum_ok #[5, -2, 7], fun _ l _ => List.Perm.refl l, by simp⟩

end Mo.Props
