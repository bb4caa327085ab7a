import Mathlib.Algebra.Field.Defs

/-! # Specification: the field with two elements, on `Bool` -/

namespace F2

/-- Addition is exclusive or, multiplication is conjunction. -/
@[reducible] def field : Field Bool where
  add a b := a ^^ b
  zero := false
  neg a := a
  mul a b := a && b
  one := true
  inv a := a
  add_assoc a b c := by cases a <;> cases b <;> cases c <;> rfl
  zero_add a := by cases a <;> rfl
  add_zero a := by cases a <;> rfl
  add_comm a b := by cases a <;> cases b <;> rfl
  neg_add_cancel a := by cases a <;> rfl
  mul_assoc a b c := by cases a <;> cases b <;> cases c <;> rfl
  one_mul a := by cases a <;> rfl
  mul_one a := by cases a <;> rfl
  zero_mul a := by cases a <;> rfl
  mul_zero a := by cases a <;> rfl
  left_distrib a b c := by cases a <;> cases b <;> cases c <;> rfl
  right_distrib a b c := by cases a <;> cases b <;> cases c <;> rfl
  mul_comm a b := by cases a <;> cases b <;> rfl
  exists_pair_ne := ⟨false, true, by decide⟩
  mul_inv_cancel a h := by cases a <;> first | rfl | exact absurd rfl h
  inv_zero := rfl
  nsmul := @nsmulRec Bool ⟨false⟩ ⟨fun a b => a ^^ b⟩
  zsmul := @zsmulRec Bool ⟨false⟩ ⟨fun a b => a ^^ b⟩ ⟨fun a => a⟩ (@nsmulRec Bool ⟨false⟩ ⟨fun a b => a ^^ b⟩)
  nnqsmul := _
  nnqsmul_def := fun _ _ => rfl
  qsmul := _
  qsmul_def := fun _ _ => rfl

end F2
