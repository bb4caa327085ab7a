/-! # Specification: the span of numbers under exclusive or -/

namespace XorSpan

/-- `x` is the exclusive or of finitely many members of `A`. -/
inductive Span (A : List Nat) : Nat → Prop
  | zero : Span A 0
  | add {a x : Nat} : a ∈ A → Span A x → Span A (a ^^^ x)

/-- No non-empty selection of positions of the list has exclusive or zero. -/
def Indep (A : List Nat) : Prop := ∀ s : List Nat, s.Sublist A → s.foldr (· ^^^ ·) 0 = 0 → s = []

end XorSpan
