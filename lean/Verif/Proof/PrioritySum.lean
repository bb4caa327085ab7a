import Verif.Spec.PrioritySum
import Mathlib.Tactic.Abel

/-! # Proofs for `library/datastructure/util/priority_sum.hpp` -/

namespace PrioritySum
open Cxx

variable {α : Type*} [LinearOrder α] [AddCommGroup α]

/-- The invariant inside of `fix`. -/
structure Base (a : Abs α) (s : State α) : Prop where
  k : s.k = a.1
  k0 : 0 ≤ a.1
  dh : s.delHead = []
  dt : s.delTail = []
  hs : s.head.Pairwise (· ≥ ·)
  ts : s.tail.Pairwise (· ≤ ·)
  ms : ((s.head ++ s.tail : List α) : Multiset α) = a.2
  sum : s.sum = s.head.sum

/-- All elements of the first queue come before those of the second. -/
def Full (s : State α) : Prop := ∀ x ∈ s.head, ∀ y ∈ s.tail, x ≤ y

/-- The top of the first queue may be out of place if the queue is too long. -/
def Near (s : State α) : Prop := Full s ∨ ((∀ x ∈ s.head.tail, ∀ y ∈ s.tail, x ≤ y) ∧ (s.head.length : Int) > s.k)

/-- The object describes the abstract state. -/
structure Rep (a : Abs α) (s : State α) : Prop where
  base : Base a s
  full : Full s
  le : (s.head.length : Int) ≤ s.k
  fill : (s.head.length : Int) < s.k → s.tail = []

theorem pushHead_sorted {l : List α} (h : l.Pairwise (· ≥ ·)) (x : α) : (pushHead x l).Pairwise (· ≥ ·) := List.Pairwise.orderedInsert x l h

theorem pushTail_sorted {l : List α} (h : l.Pairwise (· ≤ ·)) (x : α) : (pushTail x l).Pairwise (· ≤ ·) := List.Pairwise.orderedInsert x l h

theorem pushHead_perm (x : α) (l : List α) : (pushHead x l).Perm (x :: l) := List.perm_orderedInsert _ x l

theorem pushTail_perm (x : α) (l : List α) : (pushTail x l).Perm (x :: l) := List.perm_orderedInsert _ x l

theorem fill_tot {a : Abs α} {s : State α} (h : Base a s) (hn : Near s) :
    Tot (fillStep s) fun r => match r with
      | none => (Base a s ∧ Near s) ∧ ((s.head.length : Int) < s.k → s.tail = [])
      | some s' => (Base a s' ∧ Near s') ∧ s'.tail.length < s.tail.length := by
  unfold fillStep
  have e : headSize s = s.head.length := by unfold headSize; rw [h.dh]; simp
  rw [e]
  by_cases c : (s.head.length : Int) < s.k
  · rw [if_pos c]
    have hf : Full s := by
      rcases hn with hn | hn
      · exact hn
      · omega
    cases ht : s.tail with
    | nil => exact Tot.pure ⟨⟨h, hn⟩, fun _ => rfl⟩
    | cons v tl =>
      dsimp only
      rw [h.dt, if_neg (by simp)]
      have ts := h.ts
      rw [ht, List.pairwise_cons] at ts
      refine Tot.pure ⟨⟨⟨h.k, h.k0, h.dh, rfl, pushHead_sorted h.hs v, ts.2, ?_, ?_⟩, Or.inl ?_⟩, ?_⟩
      · dsimp only
        rw [← h.ms, ht, Multiset.coe_eq_coe]
        exact ((pushHead_perm v s.head).append_right tl).trans (List.perm_middle.symm)
      · dsimp only
        rw [(pushHead_perm v s.head).sum_eq, List.sum_cons, h.sum]
        abel
      · intro x hx y hy
        dsimp only at hx hy
        rcases List.mem_cons.mp ((pushHead_perm v s.head).mem_iff.mp hx) with rfl | hx
        · exact ts.1 y hy
        · exact hf x hx y (by rw [ht]; exact List.mem_cons_of_mem _ hy)
      · simp
  · rw [if_neg c]
    exact Tot.pure ⟨⟨h, hn⟩, fun h => absurd h c⟩

theorem drain_tot {a : Abs α} {s : State α} (h : Base a s) (hn : Near s) (hE : (s.head.length : Int) < s.k → s.tail = []) :
    Tot (drainStep s) fun r => match r with
      | none => Rep a s
      | some s' => (Base a s' ∧ Near s' ∧ ((s'.head.length : Int) < s'.k → s'.tail = [])) ∧ s'.head.length < s.head.length := by
  unfold drainStep
  have e : headSize s = s.head.length := by unfold headSize; rw [h.dh]; simp
  rw [e]
  by_cases c : (s.head.length : Int) > s.k
  · rw [if_pos c]
    cases hh : s.head with
    | nil =>
      rw [hh] at c
      have := h.k0
      have := h.k
      simp only [List.length_nil] at c
      omega
    | cons v tl =>
      dsimp only
      rw [h.dh, if_neg (by simp)]
      have hs := h.hs
      rw [hh, List.pairwise_cons] at hs
      have hw : ∀ x ∈ tl, ∀ y ∈ s.tail, x ≤ y := by
        rcases hn with hn | hn
        · intro x hx y hy
          exact hn x (by rw [hh]; exact List.mem_cons_of_mem _ hx) y hy
        · have := hn.1
          rw [hh] at this
          exact this
      refine Tot.pure ⟨⟨⟨h.k, h.k0, rfl, h.dt, hs.2, pushTail_sorted h.ts v, ?_, ?_⟩, Or.inl ?_, ?_⟩, ?_⟩
      · dsimp only
        rw [← h.ms, hh, Multiset.coe_eq_coe]
        exact (List.Perm.append_left tl (pushTail_perm v s.tail)).trans List.perm_middle
      · dsimp only
        rw [h.sum, hh, List.sum_cons]
        abel
      · intro x hx y hy
        dsimp only at hx hy
        rcases List.mem_cons.mp ((pushTail_perm v s.tail).mem_iff.mp hy) with rfl | hy
        · exact hs.1 x hx
        · exact hw x hx y hy
      · intro hlt
        dsimp only at hlt
        rw [hh] at c
        simp only [List.length_cons] at c
        omega
      · simp
  · rw [if_neg c]
    refine Tot.pure ⟨h, ?_, by omega, hE⟩
    rcases hn with hn | hn
    · exact hn
    · exact absurd hn.2 c

theorem fix_tot {a : Abs α} {s : State α} (h : Base a s) (hn : Near s) : Tot (fix s) (Rep a) := by
  unfold fix
  refine Tot.bind (Tot.loop (P := fun s => Base a s ∧ Near s) (Q := fun s => (Base a s ∧ Near s) ∧ ((s.head.length : Int) < s.k → s.tail = [])) (fun s => s.tail.length)
    (fun s h => (fill_tot h.1 h.2).mono (by rintro (_ | _) h <;> exact h)) ⟨h, hn⟩ (le_refl _)) ?_
  rintro s ⟨⟨h1, h2⟩, h3⟩
  exact Tot.loop (P := fun s => Base a s ∧ Near s ∧ ((s.head.length : Int) < s.k → s.tail = [])) (Q := Rep a) (fun s => s.head.length)
    (fun s h => (drain_tot h.1 h.2.1 h.2.2).mono (by rintro (_ | _) h <;> exact h)) ⟨h1, h2, h3⟩ (le_refl _)

theorem insert_tot {a : Abs α} {s : State α} (h : Rep a s) (v : α) : Tot (insert s v) (Rep (a.step (.insert v))) := by
  unfold insert
  refine fix_tot ⟨h.base.k, h.base.k0, h.base.dh, h.base.dt, pushHead_sorted h.base.hs v, h.base.ts, ?_, ?_⟩ ?_
  · show _ = v ::ₘ a.2
    rw [← h.base.ms, Multiset.cons_coe, Multiset.coe_eq_coe]
    exact (pushHead_perm v s.head).append_right s.tail
  · dsimp only
    rw [(pushHead_perm v s.head).sum_eq, List.sum_cons, h.base.sum]
    abel
  · by_cases c : (s.head.length : Int) < s.k
    · refine Or.inl ?_
      intro x _ y hy
      dsimp only at hy
      rw [h.fill c] at hy
      cases hy
    · refine Or.inr ⟨?_, ?_⟩
      · intro x hx y hy
        dsimp only at hx hy
        have hf := h.full
        unfold pushHead at hx
        cases hh : s.head with
        | nil =>
          rw [hh] at hx
          simp at hx
        | cons t tl =>
          rw [hh, List.orderedInsert_cons] at hx
          by_cases ct : v ≥ t
          · rw [if_pos ct] at hx
            exact hf x (by rw [hh]; exact hx) y hy
          · rw [if_neg ct] at hx
            rcases List.mem_cons.mp ((List.perm_orderedInsert _ v tl).mem_iff.mp hx) with rfl | hx
            · exact (le_of_lt (not_le.mp ct)).trans (hf t (by rw [hh]; exact List.mem_cons_self) y hy)
            · exact hf x (by rw [hh]; exact List.mem_cons_of_mem _ hx) y hy
      · dsimp only
        rw [(pushHead_perm v s.head).length_eq, List.length_cons]
        omega

theorem setK_tot {a : Abs α} {s : State α} (h : Rep a s) {k : Int} (hk : 0 ≤ k) : Tot (setK s k) (Rep (a.step (.setK k))) := by
  unfold setK
  exact fix_tot ⟨rfl, hk, h.base.dh, h.base.dt, h.base.hs, h.base.ts, h.base.ms, h.base.sum⟩ (Or.inl h.full)

theorem sort_eq {a : Abs α} {s : State α} (h : Rep a s) : a.2.sort (· ≤ ·) = s.head.reverse ++ s.tail := by
  refine List.Perm.eq_of_pairwise (le := (· ≤ ·)) (fun _ _ _ _ h1 h2 => le_antisymm h1 h2) (Multiset.pairwise_sort _ _) ?_ ?_
  · rw [List.pairwise_append]
    refine ⟨List.pairwise_reverse.mpr h.base.hs, h.base.ts, fun x hx y hy => h.full x (List.mem_reverse.mp hx) y hy⟩
  · rw [← Multiset.coe_eq_coe, Multiset.sort_eq, ← h.base.ms, Multiset.coe_eq_coe]
    exact (List.reverse_perm s.head).symm.append_right s.tail

theorem first_eq {a : Abs α} {s : State α} (h : Rep a s) : a.first = s.head.reverse := by
  unfold Abs.first
  rw [sort_eq h]
  have hk := h.base.k
  have h0 := h.base.k0
  have hle := h.le
  by_cases c : (s.head.length : Int) < s.k
  · rw [h.fill c, List.append_nil, List.take_of_length_le (by rw [List.length_reverse]; omega)]
  · rw [List.take_left' (by rw [List.length_reverse]; omega)]

theorem erase_tot {a : Abs α} {s : State α} (h : Rep a s) {v : α} (hv : a.first.getLast? = some v) : Tot (erase s v) (Rep (a.step (.erase v))) := by
  rw [first_eq h, List.getLast?_reverse] at hv
  unfold erase
  cases hh : s.head with
  | nil =>
    rw [hh] at hv
    cases hv
  | cons t tl =>
    rw [hh, List.head?_cons, Option.some.injEq] at hv
    subst hv
    dsimp only
    rw [if_pos rfl]
    have hs := h.base.hs
    rw [hh, List.pairwise_cons] at hs
    refine fix_tot ⟨h.base.k, h.base.k0, h.base.dh, h.base.dt, hs.2, h.base.ts, ?_, ?_⟩ (Or.inl ?_)
    · show _ = a.2.erase t
      rw [← h.base.ms, hh]
      simp
    · dsimp only
      rw [h.base.sum, hh, List.sum_cons]
      abel
    · intro x hx y hy
      exact h.full x (by rw [hh]; exact List.mem_cons_of_mem _ hx) y hy

theorem step_tot {a : Abs α} {s : State α} (h : Rep a s) {o : Op α} (ho : a.Ok o) : Tot (step s o) (Rep (a.step o)) := by
  cases o with
  | insert v => exact insert_tot h v
  | erase v => exact erase_tot h ho
  | setK k => exact setK_tot h ho

theorem init_rep {k : Int} (hk : 0 ≤ k) : Rep ((k, 0) : Abs α) (init k) := by
  refine ⟨⟨rfl, hk, rfl, rfl, List.Pairwise.nil, List.Pairwise.nil, rfl, rfl⟩, ?_, ?_, ?_⟩
  · intro x hx
    cases hx
  · show ((0 : Nat) : Int) ≤ k
    omega
  · intro _
    rfl

theorem run_tot {k : Int} (hk : 0 ≤ k) (ops : List (Op α)) (h : ValidFrom ((k, 0) : Abs α) ops) : Tot (run k ops) (Rep (Abs.run k ops)) := by
  unfold run Abs.run
  generalize hs : (init k : State α) = s
  generalize ha : ((k, 0) : Abs α) = a at h ⊢
  have hr : Rep a s := by
    rw [← hs, ← ha]
    exact init_rep hk
  clear hs ha
  induction ops generalizing a s with
  | nil => exact Tot.pure hr
  | cons o ops ih =>
    rw [List.foldlM_cons]
    exact Tot.bind (step_tot hr h.1) fun s' hs' => ih _ _ h.2 hs'

end PrioritySum
