import Verif.Model.XorBase
import Verif.Spec.XorSpan
import Mathlib.Data.Nat.Bitwise
import Mathlib.Data.List.Basic

/-! # Proofs about `library/linear_algebra/xor_base.hpp` -/

namespace XorBase
open XorSpan

/-! ## Spans -/

theorem Span.mem {A : List Nat} {a : Nat} (h : a ∈ A) : Span A a := by
  have := Span.add h (Span.zero (A := A))
  rwa [Nat.xor_zero] at this

theorem Span.xor {A : List Nat} {x y : Nat} (hx : Span A x) (hy : Span A y) : Span A (x ^^^ y) := by
  induction hx with
  | zero => rwa [Nat.zero_xor]
  | add ha _ ih => rw [Nat.xor_assoc]; exact Span.add ha ih

theorem Span.le {A B : List Nat} (h : ∀ a ∈ A, Span B a) {x : Nat} (hx : Span A x) : Span B x := by
  induction hx with
  | zero => exact Span.zero
  | add ha _ ih => exact Span.xor (h _ ha) ih

theorem Span.mono {A B : List Nat} (h : ∀ a ∈ A, a ∈ B) {x : Nat} (hx : Span A x) : Span B x := Span.le (fun a ha => Span.mem (h a ha)) hx

theorem Span.congr {A B : List Nat} (h1 : ∀ a ∈ A, Span B a) (h2 : ∀ b ∈ B, Span A b) (x : Nat) : Span A x ↔ Span B x := ⟨Span.le h1, Span.le h2⟩

theorem span_snoc {A : List Nat} {e x : Nat} (h : Span (A ++ [e]) x) : Span A x ∨ Span A (e ^^^ x) := by
  induction h with
  | zero => exact Or.inl Span.zero
  | @add a x ha _ ih =>
    rw [List.mem_append, List.mem_singleton] at ha
    rcases ha with ha | rfl
    · rcases ih with ih | ih
      · exact Or.inl (Span.add ha ih)
      · refine Or.inr ?_
        rw [← Nat.xor_assoc, Nat.xor_comm e a, Nat.xor_assoc]
        exact Span.add ha ih
    · rcases ih with ih | ih
      · refine Or.inr ?_
        rw [← Nat.xor_assoc, Nat.xor_self, Nat.zero_xor]
        exact ih
      · exact Or.inl ih

theorem span_sublist {A : List Nat} (s : List Nat) (h : s.Sublist A) : Span A (s.foldr (· ^^^ ·) 0) := by
  induction s with
  | nil => exact Span.zero
  | cons a s ih => exact Span.add (h.subset List.mem_cons_self) (ih ((List.sublist_cons_self a s).trans h))

/-! ## Reduced bases -/

/-- The leading bit of an element is absent from all later elements. -/
def Red : List Nat → Prop
  | [] => True
  | e :: rest => e ≠ 0 ∧ (∀ f ∈ rest, f.testBit e.log2 = false) ∧ Red rest

theorem xor_lt_iff {e v : Nat} (he : e ≠ 0) : e ^^^ v < v ↔ v.testBit e.log2 = true := by
  have hhigh : ∀ j, e.log2 < j → e.testBit j = false := fun j hj =>
    Nat.testBit_lt_two_pow (Nat.lt_of_lt_of_le Nat.lt_log2_self (Nat.pow_le_pow_right (by omega) (by omega)))
  have htop := Nat.testBit_log2 he
  constructor
  · intro h
    by_contra hn
    rw [Bool.not_eq_true] at hn
    have : v < e ^^^ v := Nat.lt_of_testBit e.log2 hn (by rw [Nat.testBit_xor, htop, hn]; rfl) (fun j hj => by rw [Nat.testBit_xor, hhigh j hj, Bool.false_xor])
    omega
  · intro h
    exact Nat.lt_of_testBit e.log2 (by rw [Nat.testBit_xor, htop, h]; rfl) h (fun j hj => by rw [Nat.testBit_xor, hhigh j hj, Bool.false_xor])

theorem reduceStep_bit {e v : Nat} (he : e ≠ 0) : (reduceStep v e).testBit e.log2 = false := by
  rw [reduceStep]
  by_cases h : e ^^^ v < v
  · rw [if_pos h, Nat.testBit_xor, Nat.testBit_log2 he, (xor_lt_iff he).1 h]
    rfl
  · rw [if_neg h]
    have := mt (xor_lt_iff he).2 h
    simpa using this

theorem reduceStep_keep {e v k : Nat} (he : e.testBit k = false) (hv : v.testBit k = false) : (reduceStep v e).testBit k = false := by
  rw [reduceStep]
  by_cases h : e ^^^ v < v
  · rw [if_pos h, Nat.testBit_xor, he, hv]
    rfl
  · rw [if_neg h]
    exact hv

theorem reduce_keep {b : List Nat} {v k : Nat} (hb : ∀ e ∈ b, e.testBit k = false) (hv : v.testBit k = false) : (reduce b v).testBit k = false := by
  induction b generalizing v with
  | nil => exact hv
  | cons e b ih => exact ih (fun f hf => hb f (List.mem_cons_of_mem _ hf)) (reduceStep_keep (hb e List.mem_cons_self) hv)

/-- A reduced value has no leading bit of a basis element. -/
theorem reduce_bit {b : List Nat} (hb : Red b) (v : Nat) : ∀ e ∈ b, (reduce b v).testBit e.log2 = false := by
  induction b generalizing v with
  | nil => simp
  | cons e b ih =>
    obtain ⟨h1, h2, h3⟩ := hb
    intro f hf
    rw [List.mem_cons] at hf
    rcases hf with rfl | hf
    · exact reduce_keep (b := b) h2 (reduceStep_bit h1)
    · exact ih h3 _ f hf

theorem reduce_span (b : List Nat) (v : Nat) : Span b (v ^^^ reduce b v) := by
  induction b generalizing v with
  | nil =>
    rw [reduce, List.foldl_nil, Nat.xor_self]
    exact Span.zero
  | cons e b ih =>
    have h1 : Span (e :: b) (v ^^^ reduceStep v e) := by
      rw [reduceStep]
      split
      · rw [Nat.xor_comm e v, ← Nat.xor_assoc, Nat.xor_self, Nat.zero_xor]
        exact Span.mem List.mem_cons_self
      · rw [Nat.xor_self]
        exact Span.zero
    have h2 := Span.mono (B := e :: b) (fun a ha => List.mem_cons_of_mem _ ha) (ih (reduceStep v e))
    have h3 := Span.xor h1 h2
    rw [Nat.xor_assoc, ← Nat.xor_assoc (reduceStep v e), Nat.xor_self, Nat.zero_xor] at h3
    exact h3

/-- The selection with exclusive or zero on all leading bits is empty. -/
theorem red_select {b : List Nat} (hb : Red b) {s : List Nat} (hs : s.Sublist b) (h0 : ∀ e ∈ b, (s.foldr (· ^^^ ·) 0).testBit e.log2 = false) : s = [] := by
  induction b generalizing s with
  | nil => simpa using hs
  | cons e b ih =>
    obtain ⟨h1, h2, h3⟩ := hb
    cases hs with
    | cons _ hs => exact ih h3 hs (fun f hf => h0 f (List.mem_cons_of_mem _ hf))
    | @cons_cons s' _ _ hs =>
      exfalso
      have h4 := h0 e List.mem_cons_self
      have h5 : (s'.foldr (· ^^^ ·) 0).testBit e.log2 = false := by
        have : ∀ s' : List Nat, (∀ f ∈ s', f.testBit e.log2 = false) → (s'.foldr (· ^^^ ·) 0).testBit e.log2 = false := by
          intro s'
          induction s' with
          | nil => simp
          | cons f s' ih' =>
            intro hf
            rw [List.foldr_cons, Nat.testBit_xor, hf f List.mem_cons_self, ih' (fun g hg => hf g (List.mem_cons_of_mem _ hg))]
            rfl
        exact this s' (fun f hf => h2 f (hs.subset hf))
      rw [List.foldr_cons, Nat.testBit_xor, Nat.testBit_log2 h1, h5] at h4
      cases h4

theorem red_indep {b : List Nat} (hb : Red b) : Indep b := fun s hs h0 => red_select hb hs (fun e _ => by rw [h0]; simp)

/-- The span as selections. -/
theorem span_select {b : List Nat} {x : Nat} (h : Span b x) : ∃ s : List Nat, s.Sublist b ∧ s.foldr (· ^^^ ·) 0 = x := by
  induction b generalizing x with
  | nil =>
    refine ⟨[], List.Sublist.refl _, ?_⟩
    cases h with
    | zero => rfl
    | add ha _ => simp at ha
  | cons e b ih =>
    have h' : Span (b ++ [e]) x := Span.mono (fun a ha => by simp at ha ⊢; tauto) h
    rcases span_snoc h' with h1 | h1
    · obtain ⟨s, hs, rfl⟩ := ih h1
      exact ⟨s, hs.cons _, rfl⟩
    · obtain ⟨s, hs, hx⟩ := ih h1
      refine ⟨e :: s, hs.cons_cons _, ?_⟩
      rw [List.foldr_cons, hx, ← Nat.xor_assoc, Nat.xor_self, Nat.zero_xor]

theorem reduce_eq_zero {b : List Nat} (hb : Red b) {v : Nat} : reduce b v = 0 ↔ Span b v := by
  constructor
  · intro h
    have := reduce_span b v
    rwa [h, Nat.xor_zero] at this
  · intro h
    have h1 := Span.xor h (reduce_span b v)
    rw [← Nat.xor_assoc, Nat.xor_self, Nat.zero_xor] at h1
    obtain ⟨s, hs, hx⟩ := span_select h1
    have := red_select hb hs (fun e he => by rw [hx]; exact reduce_bit hb v e he)
    subst this
    exact hx.symm

theorem red_snoc {b : List Nat} {e : Nat} : Red (b ++ [e]) ↔ Red b ∧ e ≠ 0 ∧ ∀ f ∈ b, e.testBit f.log2 = false := by
  induction b with
  | nil => simp [Red]
  | cons f b ih =>
    rw [List.cons_append, Red, Red, ih]
    constructor
    · rintro ⟨h1, h2, h3, h4, h5⟩
      refine ⟨⟨h1, fun g hg => h2 g (by simp [hg]), h3⟩, h4, ?_⟩
      intro g hg
      rw [List.mem_cons] at hg
      rcases hg with rfl | hg
      · exact h2 e (by simp)
      · exact h5 g hg
    · rintro ⟨⟨h1, h2, h3⟩, h4, h5⟩
      refine ⟨h1, ?_, h3, h4, fun g hg => h5 g (by simp [hg])⟩
      intro g hg
      rw [List.mem_append, List.mem_singleton] at hg
      rcases hg with hg | rfl
      · exact h2 g hg
      · exact h5 f (by simp)

/-- `add` on a reduced basis. -/
theorem add_spec {b : List Nat} (hb : Red b) (v : Nat) : Red (add b v).2 ∧ ((add b v).1 = true ↔ ¬ Span b v) ∧ ∀ x, Span (add b v).2 x ↔ Span (v :: b) x := by
  rw [add]
  by_cases h : reduce b v = 0
  · have hs := (reduce_eq_zero hb).1 h
    rw [if_neg (not_not.2 h)]
    refine ⟨hb, by simpa using hs, fun x => ⟨Span.mono (fun a ha => List.mem_cons_of_mem _ ha), Span.le ?_⟩⟩
    intro a ha
    rw [List.mem_cons] at ha
    rcases ha with rfl | ha
    · exact hs
    · exact Span.mem ha
  · rw [if_pos h]
    refine ⟨red_snoc.2 ⟨hb, h, fun f hf => reduce_bit hb v f hf⟩, by simpa using mt (reduce_eq_zero hb).2 h, fun x => Span.congr ?_ ?_ x⟩
    · intro a ha
      rw [List.mem_append, List.mem_singleton] at ha
      rcases ha with ha | rfl
      · exact Span.mem (List.mem_cons_of_mem _ ha)
      · have h1 := Span.mono (B := v :: b) (fun a ha => List.mem_cons_of_mem _ ha) (reduce_span b v)
        have h2 := Span.xor (Span.mem (A := v :: b) List.mem_cons_self) h1
        rwa [← Nat.xor_assoc, Nat.xor_self, Nat.zero_xor] at h2
    · intro a ha
      rw [List.mem_cons] at ha
      rcases ha with rfl | ha
      · have h1 := Span.mono (B := b ++ [reduce b a]) (fun x hx => List.mem_append_left _ hx) (reduce_span b a)
        have h2 := Span.xor h1 (Span.mem (A := b ++ [reduce b a]) (a := reduce b a) (by simp))
        rwa [Nat.xor_assoc, Nat.xor_self, Nat.xor_zero] at h2
      · exact Span.mem (List.mem_append_left _ ha)

theorem addAll_spec {b : List Nat} (hb : Red b) (vs : List Nat) : Red (addAll b vs) ∧ ∀ x, Span (addAll b vs) x ↔ Span (b ++ vs) x := by
  induction vs generalizing b with
  | nil => exact ⟨hb, fun x => by rw [List.append_nil]; rfl⟩
  | cons v vs ih =>
    obtain ⟨h1, h2⟩ := ih (add_spec hb v).1
    refine ⟨h1, fun x => (h2 x).trans (Span.congr ?_ ?_ x)⟩
    · intro a ha
      rw [List.mem_append] at ha
      rcases ha with ha | ha
      · exact Span.mono (fun y hy => by simp at hy ⊢; tauto) (((add_spec hb v).2.2 a).1 (Span.mem ha))
      · exact Span.mem (by simp [ha])
    · intro a ha
      rw [List.mem_append, List.mem_cons] at ha
      rcases ha with ha | rfl | ha
      · exact Span.mono (fun y hy => List.mem_append_left _ hy) (((add_spec hb v).2.2 a).2 (Span.mem (by simp [ha])))
      · exact Span.mono (fun y hy => List.mem_append_left _ hy) (((add_spec hb a).2.2 a).2 (Span.mem (by simp)))
      · exact Span.mem (by simp [ha])

theorem make_spec (a : List Nat) : Red (make a) ∧ ∀ x, Span (make a) x ↔ Span a x := by
  have := addAll_spec (b := []) trivial a
  simpa [make] using this

/-! ## Intersection -/

theorem inter_fst (ps : List (Nat × Nat)) (e s : Nat) : (ps.foldl interStep (e, s)).1 = reduce (ps.map Prod.fst) e := by
  induction ps generalizing e s with
  | nil => rfl
  | cons p ps ih =>
    rw [List.foldl_cons, List.map_cons, reduce, List.foldl_cons, ← reduce]
    obtain ⟨v, t⟩ := p
    rw [interStep, reduceStep]
    dsimp only
    rw [Nat.xor_comm v e]
    split
    · exact ih _ _
    · exact ih _ _

/-- Sums of the second components along the reduction. -/
theorem inter_snd {A B : List Nat} (ps : List (Nat × Nat)) (h1 : ∀ p ∈ ps, Span A p.2) (h2 : ∀ p ∈ ps, Span B (p.1 ^^^ p.2)) (e s : Nat) :
    Span A (s ^^^ (ps.foldl interStep (e, s)).2) ∧ Span B ((e ^^^ s) ^^^ ((ps.foldl interStep (e, s)).1 ^^^ (ps.foldl interStep (e, s)).2)) := by
  induction ps generalizing e s with
  | nil =>
    simp only [List.foldl_nil, Nat.xor_self]
    exact ⟨Span.zero, Span.zero⟩
  | cons p ps ih =>
    obtain ⟨v, t⟩ := p
    have ih' := ih (fun p hp => h1 p (List.mem_cons_of_mem _ hp)) (fun p hp => h2 p (List.mem_cons_of_mem _ hp))
    rw [List.foldl_cons, interStep]
    dsimp only
    split
    · obtain ⟨g1, g2⟩ := ih' (e ^^^ v) (s ^^^ t)
      constructor
      · have := Span.xor (h1 (v, t) List.mem_cons_self) g1
        dsimp only at this
        rwa [← Nat.xor_assoc, Nat.xor_comm s t, ← Nat.xor_assoc, Nat.xor_self, Nat.zero_xor, Nat.xor_comm t s] at this
      · have := Span.xor (h2 (v, t) List.mem_cons_self) g2
        dsimp only at this
        have e1 : (v ^^^ t) ^^^ ((e ^^^ v) ^^^ (s ^^^ t)) = e ^^^ s := by
          apply Nat.eq_of_testBit_eq
          intro i
          simp only [Nat.testBit_xor]
          cases v.testBit i <;> cases t.testBit i <;> cases e.testBit i <;> cases s.testBit i <;> rfl
        rwa [← Nat.xor_assoc, e1] at this
    · exact ih' e s

/-- State of the loop of `intersection` after the elements `B` of the right operand. -/
structure Inter (A B : List Nat) (st : List (Nat × Nat) × List Nat) : Prop where
  red : Red (st.1.map Prod.fst)
  span : ∀ x, Span (st.1.map Prod.fst) x ↔ Span (A ++ B) x
  left : ∀ p ∈ st.1, Span A p.2
  right : ∀ p ∈ st.1, Span B (p.1 ^^^ p.2)
  res : Red st.2
  spec : ∀ x, Span st.2 x ↔ Span A x ∧ Span B x

theorem inter_step {A B : List Nat} {st : List (Nat × Nat) × List Nat} (h : Inter A B st) (e : Nat) : Inter A (B ++ [e]) (interBody st e) := by
  have hmono : ∀ {x}, Span B x → Span (B ++ [e]) x := fun hx => Span.mono (fun a ha => List.mem_append_left _ ha) hx
  rw [interBody]
  obtain ⟨⟨e', s⟩, hr⟩ : ∃ r, r = st.1.foldl interStep (e, 0) := ⟨_, rfl⟩
  have hfst : e' = reduce (st.1.map Prod.fst) e := by
    have := inter_fst st.1 e 0
    rw [← hr] at this
    exact this
  obtain ⟨hs1, hs2⟩ := inter_snd st.1 h.left h.right e 0
  rw [← hr, Nat.zero_xor] at hs1
  rw [← hr, Nat.xor_zero] at hs2
  dsimp only at hs1 hs2
  rw [← hr]
  dsimp only
  have hsplit : ∀ x, Span A x ∧ Span (B ++ [e]) x → (Span A x ∧ Span B x) ∨ (Span A x ∧ Span B (e ^^^ x)) := by
    rintro x ⟨hx1, hx2⟩
    rcases span_snoc hx2 with g | g
    · exact Or.inl ⟨hx1, g⟩
    · exact Or.inr ⟨hx1, g⟩
  by_cases h0 : e' = 0
  · subst h0
    rw [if_neg (by simp)]
    rw [Nat.zero_xor] at hs2
    have hadd := add_spec h.res s
    have hspan : Span (A ++ B) e := (h.span e).1 ((reduce_eq_zero h.red).1 hfst.symm)
    have hsB : Span (B ++ [e]) s := by
      have := Span.xor (Span.mem (A := B ++ [e]) (a := e) (by simp)) (hmono hs2)
      rwa [← Nat.xor_assoc, Nat.xor_self, Nat.zero_xor] at this
    refine ⟨h.red, fun x => (h.span x).trans ?_, h.left, fun p hp => hmono (h.right p hp), hadd.1, fun x => ?_⟩
    · refine Span.congr (fun a ha => Span.mem (by simp at ha ⊢; tauto)) (fun a ha => ?_) x
      simp only [List.mem_append, List.mem_singleton] at ha
      rcases ha with ha | ha | rfl
      · exact Span.mem (by simp [ha])
      · exact Span.mem (by simp [ha])
      · exact hspan
    · dsimp only
      rw [hadd.2.2]
      constructor
      · intro hx
        have hx' : Span (st.2 ++ [s]) x := Span.mono (fun a ha => by simp at ha ⊢; tauto) hx
        rcases span_snoc hx' with g | g
        · exact ⟨((h.spec x).1 g).1, hmono ((h.spec x).1 g).2⟩
        · obtain ⟨g1, g2⟩ := (h.spec _).1 g
          refine ⟨?_, ?_⟩
          · have := Span.xor hs1 g1
            rwa [← Nat.xor_assoc, Nat.xor_self, Nat.zero_xor] at this
          · have := Span.xor hsB (hmono g2)
            rwa [← Nat.xor_assoc, Nat.xor_self, Nat.zero_xor] at this
      · intro hx
        rcases hsplit x hx with g | ⟨g1, g2⟩
        · exact Span.mono (fun a ha => List.mem_cons_of_mem _ ha) ((h.spec x).2 g)
        · have k1 := Span.xor hs1 g1
          have k2 := Span.xor hs2 g2
          have e1 : (e ^^^ s) ^^^ (e ^^^ x) = s ^^^ x := by
            rw [Nat.xor_comm e s, Nat.xor_assoc, ← Nat.xor_assoc e e, Nat.xor_self, Nat.zero_xor]
          rw [e1] at k2
          have k3 := Span.mono (B := s :: st.2) (fun a ha => List.mem_cons_of_mem _ ha) ((h.spec _).2 ⟨k1, k2⟩)
          have k4 := Span.xor (Span.mem (A := s :: st.2) List.mem_cons_self) k3
          rwa [← Nat.xor_assoc, Nat.xor_self, Nat.zero_xor] at k4
  · rw [if_pos h0]
    have hmap : (st.1 ++ [(e', s)]).map Prod.fst = st.1.map Prod.fst ++ [e'] := by simp
    refine ⟨?_, fun x => ?_, ?_, ?_, h.res, fun x => ?_⟩
    · rw [hmap, red_snoc]
      exact ⟨h.red, h0, fun f hf => by rw [hfst]; exact reduce_bit h.red e f hf⟩
    · have hadd := (add_spec h.red e).2.2 x
      rw [add, ← hfst, if_pos h0] at hadd
      dsimp only at hadd ⊢
      rw [hmap, hadd]
      refine Span.congr (fun a ha => ?_) (fun a ha => ?_) x
      · rw [List.mem_cons] at ha
        rcases ha with rfl | ha
        · exact Span.mem (by simp)
        · exact Span.mono (fun y hy => by simp at hy ⊢; tauto) ((h.span a).1 (Span.mem ha))
      · simp only [List.mem_append, List.mem_singleton] at ha
        rcases ha with ha | ha | rfl
        · exact Span.mono (fun y hy => List.mem_cons_of_mem _ hy) ((h.span a).2 (Span.mem (by simp [ha])))
        · exact Span.mono (fun y hy => List.mem_cons_of_mem _ hy) ((h.span a).2 (Span.mem (by simp [ha])))
        · exact Span.mem (by simp)
    · intro p hp
      simp only [List.mem_append, List.mem_singleton] at hp
      rcases hp with hp | rfl
      · exact h.left p hp
      · exact hs1
    · intro p hp
      simp only [List.mem_append, List.mem_singleton] at hp
      rcases hp with hp | rfl
      · exact hmono (h.right p hp)
      · have := Span.xor (Span.mem (A := B ++ [e]) (a := e) (by simp)) (hmono hs2)
        rwa [← Nat.xor_assoc, Nat.xor_self, Nat.zero_xor] at this
    · dsimp only
      rw [h.spec]
      constructor
      · rintro ⟨g1, g2⟩
        exact ⟨g1, hmono g2⟩
      · intro hx
        rcases hsplit x hx with g | ⟨g1, g2⟩
        · exact g
        · exfalso
          apply h0
          rw [hfst, reduce_eq_zero h.red, h.span]
          have k1 := Span.mono (B := A ++ B) (fun a ha => List.mem_append_left _ ha) g1
          have k2 := Span.mono (B := A ++ B) (fun a ha => List.mem_append_right _ ha) g2
          have := Span.xor k2 k1
          rwa [Nat.xor_assoc, Nat.xor_self, Nat.xor_zero] at this

theorem inter_fold {A : List Nat} (ys B : List Nat) {st : List (Nat × Nat) × List Nat} (h : Inter A B st) : Inter A (B ++ ys) (ys.foldl interBody st) := by
  induction ys generalizing B st with
  | nil => simpa using h
  | cons y ys ih =>
    rw [List.foldl_cons, show B ++ y :: ys = (B ++ [y]) ++ ys by simp]
    exact ih _ (inter_step h y)

theorem intersection_spec {x y : List Nat} (hx : Red x) : Red (intersection x y) ∧ ∀ v, Span (intersection x y) v ↔ Span x v ∧ Span y v := by
  have h0 : Inter x [] (x.map fun e => (e, e), []) := by
    have hmap : (x.map fun e => (e, e)).map Prod.fst = x := by simp [Function.comp_def]
    refine ⟨by dsimp only; rw [hmap]; exact hx, fun v => by dsimp only; rw [hmap, List.append_nil], ?_, ?_, trivial, fun v => ?_⟩
    · intro p hp
      obtain ⟨e, he, rfl⟩ := List.mem_map.1 hp
      exact Span.mem he
    · intro p hp
      obtain ⟨e, he, rfl⟩ := List.mem_map.1 hp
      dsimp only
      rw [Nat.xor_self]
      exact Span.zero
    · constructor
      · intro h
        cases h with
        | zero => exact ⟨Span.zero, Span.zero⟩
        | add ha _ => simp at ha
      · rintro ⟨-, h⟩
        exact h
  have h := inter_fold y [] h0
  rw [List.nil_append] at h
  exact ⟨h.res, h.spec⟩

end XorBase
