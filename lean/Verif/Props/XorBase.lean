import Verif.Proof.XorBase
import Mathlib.Data.Finset.Card
import Mathlib.Data.Finset.Image
import Mathlib.Data.Nat.Bitwise

/-!
# C51: xor bases
-/

namespace XorBaseProps
open XorSpan XorBase

/-- A base is built from the empty one by the operations of the interface. -/
inductive Built : List Nat → Prop
  | empty : Built []
  | make (a : List Nat) : Built (XorBase.make a)
  | add {b : List Nat} (v : Nat) : Built b → Built (XorBase.add b v).2
  | plus {x y : List Nat} : Built x → Built y → Built (XorBase.plus x y)
  | plusValue {x : List Nat} (v : Nat) : Built x → Built (XorBase.plusValue x v)
  | inter {x y : List Nat} : Built x → Built y → Built (XorBase.intersection x y)

theorem Built.red {b : List Nat} (h : Built b) : XorBase.Red b := by
  induction h with
  | empty => trivial
  | make a => exact (XorBase.make_spec a).1
  | add v _ ih => exact (XorBase.add_spec ih v).1
  | plus _ _ ih1 _ => exact (XorBase.addAll_spec ih1 _).1
  | plusValue v _ ih => exact (XorBase.addAll_spec ih _).1
  | inter _ _ ih1 _ => exact (XorBase.intersection_spec ih1).1

/-- C51: the elements of every base are independent. -/
theorem xor_base_indep (b : List Nat) (h : Built b) : Indep b := XorBase.red_indep h.red

/-- C51: the base made from a vector spans the same values. -/
theorem xor_base_make (a : List Nat) (x : Nat) : Span (XorBase.make a) x ↔ Span a x := (XorBase.make_spec a).2 x

/-- C51: `add` tells whether the value is new, and then spans it too. -/
theorem xor_base_add (b : List Nat) (h : Built b) (v : Nat) :
    ((XorBase.add b v).1 = true ↔ ¬ Span b v) ∧ (∀ x, Span (XorBase.add b v).2 x ↔ Span (v :: b) x) ∧
      XorBase.dim (XorBase.add b v).2 = XorBase.dim b + if (XorBase.add b v).1 then 1 else 0 := by
  refine ⟨(XorBase.add_spec h.red v).2.1, (XorBase.add_spec h.red v).2.2, ?_⟩
  unfold XorBase.add XorBase.dim
  split <;> simp

/-- C51: `+` spans the sum. -/
theorem xor_base_plus (x y : List Nat) (hx : Built x) (v : Nat) : Span (XorBase.plus x y) v ↔ Span (x ++ y) v := (XorBase.addAll_spec hx.red y).2 v

/-- C51: `+` with a value. -/
theorem xor_base_plusValue (x : List Nat) (hx : Built x) (w v : Nat) : Span (XorBase.plusValue x w) v ↔ Span (w :: x) v := by
  rw [XorBase.plusValue, XorBase.plus, (XorBase.addAll_spec hx.red _).2]
  have hw := (XorBase.make_spec [w]).2
  refine Span.congr (fun a ha => ?_) (fun a ha => ?_) v
  · rw [List.mem_append] at ha
    rcases ha with ha | ha
    · exact Span.mem (List.mem_cons_of_mem _ ha)
    · exact Span.mono (by simp) ((hw a).1 (Span.mem ha))
  · rw [List.mem_cons] at ha
    rcases ha with rfl | ha
    · exact Span.mono (fun b hb => List.mem_append_right _ hb) ((hw a).2 (Span.mem (by simp)))
    · exact Span.mem (List.mem_append_left _ ha)

/-- C51: `intersection` spans the intersection. -/
theorem xor_base_intersection (x y : List Nat) (hx : Built x) (v : Nat) : Span (XorBase.intersection x y) v ↔ Span x v ∧ Span y v :=
  (XorBase.intersection_spec hx.red).2 v

/-- The values spanned by a list. -/
def values : List Nat → Finset Nat
  | [] => {0}
  | e :: l => values l ∪ (values l).image (e ^^^ ·)

theorem span_cons {e x : Nat} {l : List Nat} : Span (e :: l) x ↔ Span l x ∨ Span l (e ^^^ x) := by
  constructor
  · intro h
    induction h with
    | zero => exact Or.inl Span.zero
    | @add a x ha _ ih =>
      rw [List.mem_cons] at ha
      rcases ha with rfl | ha
      · rcases ih with h | h
        · exact Or.inr (by rwa [← Nat.xor_assoc, Nat.xor_self, Nat.zero_xor])
        · exact Or.inl h
      · rcases ih with h | h
        · exact Or.inl (Span.add ha h)
        · exact Or.inr (by rw [Nat.xor_left_comm]; exact Span.add ha h)
  · rintro (h | h)
    · exact Span.mono (fun a ha => List.mem_cons_of_mem _ ha) h
    · have := Span.add (A := e :: l) List.mem_cons_self (Span.mono (fun a ha => List.mem_cons_of_mem _ ha) h)
      rwa [← Nat.xor_assoc, Nat.xor_self, Nat.zero_xor] at this

theorem mem_values (l : List Nat) (x : Nat) : x ∈ values l ↔ Span l x := by
  induction l generalizing x with
  | nil =>
    rw [values, Finset.mem_singleton]
    constructor
    · rintro rfl
      exact Span.zero
    · intro h
      cases h with
      | zero => rfl
      | add h => simp at h
  | cons e l ih =>
    rw [values, Finset.mem_union, Finset.mem_image, span_cons, ih]
    refine or_congr Iff.rfl ⟨?_, fun h => ⟨e ^^^ x, (ih _).2 h, by rw [← Nat.xor_assoc, Nat.xor_self, Nat.zero_xor]⟩⟩
    rintro ⟨y, hy, rfl⟩
    rw [← Nat.xor_assoc, Nat.xor_self, Nat.zero_xor]
    exact (ih y).1 hy

theorem card_values {l : List Nat} (h : Indep l) : (values l).card = 2 ^ l.length := by
  induction l with
  | nil => rfl
  | cons e l ih =>
    have hl : Indep l := fun s hs h0 => h s (hs.cons e) h0
    have hinj : Function.Injective (e ^^^ ·) := fun a b hab => by
      have := congrArg (e ^^^ ·) hab
      simpa [← Nat.xor_assoc] using this
    rw [values, Finset.card_union_of_disjoint, Finset.card_image_of_injective _ hinj, ih hl, List.length_cons, Nat.pow_succ]
    · omega
    · rw [Finset.disjoint_left]
      intro x h1 h2
      rw [Finset.mem_image] at h2
      obtain ⟨y, hy, rfl⟩ := h2
      have hs := Span.xor ((mem_values l _).1 h1) ((mem_values l _).1 hy)
      rw [Nat.xor_assoc, Nat.xor_self, Nat.xor_zero] at hs
      have key : ∀ x, Span l x → ∃ s : List Nat, s.Sublist l ∧ s.foldr (· ^^^ ·) 0 = x := by
        clear * -
        intro x hx
        induction l generalizing x with
        | nil =>
          cases hx with
          | zero => exact ⟨[], List.Sublist.refl _, rfl⟩
          | add h => simp at h
        | cons a l ih =>
          rcases span_cons.1 hx with h | h
          · obtain ⟨s, h1, h2⟩ := ih x h
            exact ⟨s, h1.cons a, h2⟩
          · obtain ⟨s, h1, h2⟩ := ih _ h
            refine ⟨a :: s, h1.cons_cons a, ?_⟩
            rw [List.foldr_cons, h2, ← Nat.xor_assoc, Nat.xor_self, Nat.zero_xor]
      obtain ⟨s, k1, k2⟩ := key e hs
      have := h (e :: s) (k1.cons_cons e) (by rw [List.foldr_cons, k2, Nat.xor_self])
      simp at this

/-- C51: `dim()` is the dimension of the span: every independent list with the same span has that length. -/
theorem xor_base_dim (a b : List Nat) (ha : Indep a) (hb : Built b) (h : ∀ x, Span a x ↔ Span b x) : XorBase.dim b = a.length := by
  have e : values a = values b := by
    ext x
    rw [mem_values, mem_values]
    exact h x
  have h1 := card_values ha
  rw [e, card_values (xor_base_indep b hb)] at h1
  exact Nat.pow_right_injective (le_refl 2) h1

example : XorBase.make [6, 3, 5, 8] = [6, 3, 8] ∧ XorBase.add [6, 3, 8] 13 = (false, [6, 3, 8]) ∧ XorBase.add [6, 3, 8] 17 = (true, [6, 3, 8, 17]) ∧
    XorBase.intersection [6, 3, 8] [5, 16] = [5] := by decide

end XorBaseProps
