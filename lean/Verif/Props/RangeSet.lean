import Verif.Proof.RangeSet

/-!
# RangeSet represents a set of integers

The abstract state is a finite set of integers.  `insert` returns the number of newly added integers, `erase` the number of removed
ones.  The stored ranges are non-empty, ordered, disjoint (separated by a gap when merging is on) and cover exactly the set.
-/

namespace RangeSet
open Cxx

/-- `m` is a decomposition of the set `S` into ranges: increasing, non-empty, disjoint, and non-adjacent if `merge`. -/
structure Decomposes (merge : Bool) (m : List (Int × Int)) (S : Finset Int) : Prop where
  nonempty : ∀ p ∈ m, p.1 ≤ p.2
  ordered : m.Pairwise fun p q => if merge then p.2 + 1 < q.1 else p.2 < q.1
  covers : ∀ x, x ∈ S ↔ ∃ p ∈ m, p.1 ≤ x ∧ x ≤ p.2

/-- Effect on the set of integers. -/
def next (S : Finset Int) : Op → Finset Int
  | .insert l r => S ∪ Finset.Icc l r
  | .erase l r => S \ Finset.Icc l r
  | _ => S

/-- The mex-type queries are declared for the merging variant only (`static_assert`, range_set.hpp:101,108). -/
def Pre (merge : Bool) : Op → Prop
  | .minimumExcluded _ | .maximumExcluded _ => merge = true
  | _ => True

instance (merge : Bool) : ∀ op, Decidable (Pre merge op)
  | .minimumExcluded _ | .maximumExcluded _ => inferInstanceAs (Decidable (merge = true))
  | .insert _ _ | .erase _ _ | .contains _ | .findRange _ | .size | .numberOfRanges | .ranges => inferInstanceAs (Decidable True)

/-- What each call must answer on the set `S`. -/
def Ans (merge : Bool) (S : Finset Int) : Op → Out → Prop
  | .insert l r, o => o = .int (Finset.Icc l r \ S).card
  | .erase l r, o => o = .int (S ∩ Finset.Icc l r).card
  | .contains x, o => o = .bool (decide (x ∈ S))
  | .findRange x, o => (x ∉ S ∧ o = .range none) ∨ ∃ l r, o = .range (some (l, r)) ∧ l ≤ x ∧ x ≤ r ∧ (∀ y, l ≤ y → y ≤ r → y ∈ S) ∧
      (merge = true → l - 1 ∉ S ∧ r + 1 ∉ S)
  | .size, o => o = .int S.card
  | .numberOfRanges, o => ∃ m : List (Int × Int), Decomposes merge m S ∧ o = .int m.length
  | .ranges, o => ∃ m, Decomposes merge m S ∧ o = .list m
  | .minimumExcluded x, o => ∃ y, o = .int y ∧ x ≤ y ∧ y ∉ S ∧ ∀ z, x ≤ z → z < y → z ∈ S
  | .maximumExcluded x, o => ∃ y, o = .int y ∧ y ≤ x ∧ y ∉ S ∧ ∀ z, y < z → z ≤ x → z ∈ S

theorem Inv.decomposes {merge : Bool} {s : State} {S : Finset Int} (h : Inv merge s S) : Decomposes merge s.m S := by
  refine ⟨h.ok.ne, h.ok.sep.imp fun {p q} hpq => ?_, h.mem⟩
  cases merge <;> simp [gap] at hpq ⊢ <;> omega

theorem step_spec {merge : Bool} {s : State} {S : Finset Int} (h : Inv merge s S) (op : Op) (hp : Pre merge op) :
    Tot (step merge s op) fun q => Inv merge q.1 (next S op) ∧ Ans merge S op q.2 := by
  cases op with
  | insert l r => exact Tot.pure ⟨(insert_spec h l r).1, by rw [(insert_spec h l r).2]; rfl⟩
  | erase l r => exact Tot.pure ⟨(erase_spec h l r).1, by rw [(erase_spec h l r).2]; rfl⟩
  | contains x => exact Tot.pure ⟨h, by rw [contains_eq h]; rfl⟩
  | findRange x =>
    refine Tot.pure ⟨h, ?_⟩
    rcases findRange_eq h x with ⟨e, hx⟩ | ⟨p, hp, e, h1, h2⟩
    · left; exact ⟨hx, by rw [e]⟩
    · right
      exact ⟨p.1, p.2, by rw [e], h1, h2, (range_spec h hp).1, (range_spec h hp).2⟩
  | size => exact Tot.pure ⟨h, by rw [h.size]; rfl⟩
  | numberOfRanges => exact Tot.pure ⟨h, s.m, h.decomposes, rfl⟩
  | ranges => exact Tot.pure ⟨h, s.m, h.decomposes, rfl⟩
  | minimumExcluded x =>
    refine Tot.pure ⟨h, ?_⟩
    unfold minimumExcluded
    rcases findRange_eq h x with ⟨e, hx⟩ | ⟨p, hp', e, h1, h2⟩
    · rw [e]; exact ⟨x, rfl, le_rfl, hx, fun z _ _ => by omega⟩
    · rw [e]
      obtain ⟨r1, r2⟩ := range_spec h hp'
      exact ⟨p.2 + 1, rfl, by omega, (r2 hp).2, fun z z1 z2 => r1 z (by omega) (by omega)⟩
  | maximumExcluded x =>
    refine Tot.pure ⟨h, ?_⟩
    unfold maximumExcluded
    rcases findRange_eq h x with ⟨e, hx⟩ | ⟨p, hp', e, h1, h2⟩
    · rw [e]; exact ⟨x, rfl, le_rfl, hx, fun z _ _ => by omega⟩
    · rw [e]
      obtain ⟨r1, r2⟩ := range_spec h hp'
      exact ⟨p.1 - 1, rfl, by omega, (r2 hp).1, fun z z1 z2 => r1 z (by omega) (by omega)⟩

/-- **C16.** Every history of calls on `RangeSet`, starting from the empty one, is answered as for a finite set of integers. -/
theorem rangeSet_correct (merge : Bool) (ops : List Op) (hv : ∀ op ∈ ops, Pre merge op) :
    ∃ s outs, runOps (step merge) init ops = .ok (s, outs) ∧ TraceOk next (Ans merge) ∅ ops outs := by
  have hv' : ∀ S, ValidOps (fun (_ : Finset Int) op => Pre merge op) next S ops := by
    intro S
    induction ops generalizing S with
    | nil => trivial
    | cons op ops ih => exact ⟨hv op (by simp), ih (fun o ho => hv o (by simp [ho])) _⟩
  have h0 : Inv merge init ∅ := ⟨ok_nil _, fun x => ⟨fun h => absurd h (by simp), fun h => absurd h (mem_nil x)⟩, rfl⟩
  obtain ⟨⟨s, outs⟩, e, h⟩ := refine (Sim := Inv merge) (fun s S op h hp => step_spec h op hp) h0 (hv' ∅)
  exact ⟨s, outs, e, h.2⟩

/-- With merging on, the decomposition is unique: the ranges are the maximal runs of consecutive integers. -/
theorem decomposes_unique {m m' : List (Int × Int)} {S : Finset Int} (h : Decomposes true m S) (h' : Decomposes true m' S) : m = m' := by
  induction m generalizing m' S with
  | nil =>
    cases m' with
    | nil => rfl
    | cons p m' =>
      have h1 := h'.nonempty p (by simp)
      obtain ⟨q, hq, -⟩ := (h.covers p.1).1 ((h'.covers p.1).2 ⟨p, by simp, le_rfl, h1⟩)
      simp at hq
  | cons p m ih =>
    cases m' with
    | nil =>
      have h1 := h.nonempty p (by simp)
      obtain ⟨q, hq, -⟩ := (h'.covers p.1).1 ((h.covers p.1).2 ⟨p, by simp, le_rfl, h1⟩)
      simp at hq
    | cons p' m' =>
      obtain ⟨n1, o1, c1⟩ := h
      obtain ⟨n2, o2, c2⟩ := h'
      simp only [if_true, List.pairwise_cons] at o1 o2
      have hp := n1 p (by simp)
      have hp' := n2 p' (by simp)
      -- membership near the first range
      have low : ∀ x, x ≤ p.2 + 1 → (x ∈ S ↔ p.1 ≤ x ∧ x ≤ p.2) := by
        intro x hx
        rw [c1]
        constructor
        · rintro ⟨q, hq, a, b⟩
          rcases List.mem_cons.1 hq with rfl | hq
          · exact ⟨a, b⟩
          · have := o1.1 q hq; omega
        · exact fun a => ⟨p, by simp, a⟩
      have low' : ∀ x, x ≤ p'.2 + 1 → (x ∈ S ↔ p'.1 ≤ x ∧ x ≤ p'.2) := by
        intro x hx
        rw [c2]
        constructor
        · rintro ⟨q, hq, a, b⟩
          rcases List.mem_cons.1 hq with rfl | hq
          · exact ⟨a, b⟩
          · have := o2.1 q hq; omega
        · exact fun a => ⟨p', by simp, a⟩
      have a1 := (low p.1 (by omega)).2 ⟨le_rfl, hp⟩
      have a2 := (low' p'.1 (by omega)).2 ⟨le_rfl, hp'⟩
      have e1 : p.1 = p'.1 := by
        rcases lt_trichotomy p.1 p'.1 with c | c | c
        · have := (low' p.1 (by omega)).1 a1; omega
        · exact c
        · have := (low p'.1 (by omega)).1 a2; omega
      have e2 : p.2 = p'.2 := by
        rcases lt_trichotomy p.2 p'.2 with c | c | c
        · have := (low (p.2 + 1) (by omega)).1 ((low' (p.2 + 1) (by omega)).2 ⟨by omega, by omega⟩); omega
        · exact c
        · have := (low' (p'.2 + 1) (by omega)).1 ((low (p'.2 + 1) (by omega)).2 ⟨by omega, by omega⟩); omega
      have e : p = p' := Prod.ext e1 e2
      subst e
      congr 1
      refine ih (S := S.filter fun x => p.2 < x) ⟨fun q hq => n1 q (by simp [hq]), by simpa using o1.2, fun x => ?_⟩
        ⟨fun q hq => n2 q (by simp [hq]), by simpa using o2.2, fun x => ?_⟩
      · rw [Finset.mem_filter, c1]
        constructor
        · rintro ⟨⟨q, hq, a, b⟩, c⟩
          rcases List.mem_cons.1 hq with rfl | hq
          · omega
          · exact ⟨q, hq, a, b⟩
        · rintro ⟨q, hq, a, b⟩
          have := o1.1 q hq
          exact ⟨⟨q, by simp [hq], a, b⟩, by omega⟩
      · rw [Finset.mem_filter, c2]
        constructor
        · rintro ⟨⟨q, hq, a, b⟩, c⟩
          rcases List.mem_cons.1 hq with rfl | hq
          · omega
          · exact ⟨q, hq, a, b⟩
        · rintro ⟨q, hq, a, b⟩
          have := o2.1 q hq
          exact ⟨⟨q, by simp [hq], a, b⟩, by omega⟩

/-! ### The hypotheses are met by a non-trivial history -/

def demoOps : List Op := [.insert 3 5, .insert 8 9, .ranges, .insert 6 7, .ranges, .erase 4 8, .ranges, .size, .minimumExcluded 3, .findRange 9, .insert 1 20, .contains 21]

example : ∀ op ∈ demoOps, Pre true op := by decide

example : (runOps (step true) init demoOps >>= fun r => .ok r.2) = .ok [.int 3, .int 2, .list [(3, 5), (8, 9)], .int 2, .list [(3, 9)], .int 5,
    .list [(3, 3), (9, 9)], .int 2, .int 4, .range (some (9, 9)), .int 18, .bool false] := by decide

example : Decomposes true [(3, 5), (8, 9)] {3, 4, 5, 8, 9} := ⟨by decide, by decide, fun x => by simp; omega⟩

end RangeSet
