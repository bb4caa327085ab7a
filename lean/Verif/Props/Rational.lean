import Verif.Proof.Rational

/-!
# C159, C160, C161: `Rational<long long>`

Arithmetic is exact and keeps lowest terms. Comparison is wrong for some pairs of numbers with the same integer part, `floor` is wrong for negative and `ceil` for positive
numbers that are not integers.
-/

namespace Rational
open Cxx

/-- **C159** `Rational(n, d)` for every `d ≠ 0` is `n / d` in lowest terms with positive denominator. -/
theorem mk_correct (n d : Int) (hn : Fits64 n) (hd : Fits64 d) (h0 : d ≠ 0) : ∃ r, mk n d = .ok r ∧ Rep r ((n : ℚ) / d) := mk_tot hn hd h0

/-- **C159** `Rational(n)` is `n`. -/
theorem ofInt_correct (n : Int) : Rep (ofInt n) n := ⟨rfl, rfl⟩

/-- **C159** Sum, difference, product, quotient, negation, inverse and absolute value of numbers with numerator and denominator below `2^31` are exact, in lowest terms
and free of overflow. -/
theorem arithmetic_correct (l r : R) (a b : ℚ) (hl : Rep l a) (hr : Rep r b) (ha : Small a) (hb : Small b) :
    (∃ x, add l r = .ok x ∧ Rep x (a + b)) ∧ (∃ x, sub l r = .ok x ∧ Rep x (a - b)) ∧ (∃ x, mul l r = .ok x ∧ Rep x (a * b)) ∧
    (b ≠ 0 → ∃ x, div l r = .ok x ∧ Rep x (a / b)) ∧ (∃ x, neg l = .ok x ∧ Rep x (-a)) ∧ (∃ x, abs l = .ok x ∧ Rep x |a|) ∧ (a ≠ 0 → ∃ x, inv l = .ok x ∧ Rep x a⁻¹) :=
  ⟨add_tot hl hr ha hb, sub_tot hl hr ha hb, mul_tot hl hr ha hb, fun h0 => div_tot hl hr ha hb h0, neg_tot hl ha, abs_tot hl ha, fun h0 => inv_tot hl ha h0⟩

/-- **C160** `==` and `!=` are right for all numbers. -/
theorem eq_correct (l r : R) (a b : ℚ) (hl : Rep l a) (hr : Rep r b) (h1 : Fits64 l.num) (h2 : Fits64 r.num) (h3 : Fits64 l.den) (h4 : Fits64 r.den) :
    eq l r = .ok (decide (a = b)) ∧ ne l r = .ok (decide (a ≠ b)) := by
  obtain ⟨c, e, h⟩ := compare_eq_zero hl hr h1 h2 h3 h4
  unfold eq ne
  rw [e, ok_bind, ok_bind]
  constructor
  · show Except.ok _ = _
    rw [decide_eq_decide.mpr h]
  · show Except.ok _ = _
    rw [decide_eq_decide.mpr (not_congr h)]

/-- **C160** (part) The order comparisons are right if the numbers are equal, have different integer parts, are not of the same sign, or if one of them is an integer. What is missing
is two different fractions with the same sign and the same integer part, where the code is wrong (see below). -/
theorem compare_correct_partial (l r : R) (a b : ℚ) (hl : Rep l a) (hr : Rep r b) (h1 : Fits64 l.num) (h2 : Fits64 r.num) (h3 : Fits64 l.den) (h4 : Fits64 r.den)
    (h : a = b ∨ ⌊|a|⌋ ≠ ⌊|b|⌋ ∨ a.den = 1 ∨ b.den = 1 ∨ ¬ 0 < a * b) :
    (∃ c, compare l r = .ok c ∧ Right a b c) ∧ lt l r = .ok (decide (a < b)) ∧ gt l r = .ok (decide (b < a)) ∧ le l r = .ok (decide (a ≤ b)) ∧ ge l r = .ok (decide (b ≤ a)) := by
  obtain ⟨c, e, r1, r2, r3⟩ := compare_right hl hr h1 h2 h3 h4 h
  refine ⟨⟨c, e, r1, r2, r3⟩, ?_⟩
  unfold lt gt le ge
  rw [e, ok_bind, ok_bind, ok_bind, ok_bind]
  refine ⟨?_, ?_, ?_, ?_⟩
  · show Except.ok _ = _
    rw [decide_eq_decide.mpr r1]
  · show Except.ok _ = _
    rw [decide_eq_decide.mpr r3]
  · show Except.ok _ = _
    rw [decide_eq_decide.mpr (show c ≤ 0 ↔ a ≤ b by rw [← not_lt, ← not_lt, r3])]
  · show Except.ok _ = _
    rw [decide_eq_decide.mpr (show c ≥ 0 ↔ b ≤ a by rw [ge_iff_le, ← not_lt, ← not_lt, r1])]

/-- **C160 is violated**: `3/2 < 5/3`, but `compare` says that it is greater, and `10/7 < 3/2`, but `compare` says that `3/2` is less. -/
theorem compare_counterexample : Rep ⟨3, 2⟩ (3 / 2) ∧ Rep ⟨5, 3⟩ (5 / 3) ∧ Rep ⟨10, 7⟩ (10 / 7) ∧ (3 / 2 : ℚ) < 5 / 3 ∧ (10 / 7 : ℚ) < 3 / 2 ∧
    lt ⟨3, 2⟩ ⟨5, 3⟩ = .ok false ∧ gt ⟨3, 2⟩ ⟨5, 3⟩ = .ok true ∧ lt ⟨3, 2⟩ ⟨10, 7⟩ = .ok true := by
  refine ⟨?_, ?_, ?_, by norm_num, by norm_num, by decide +kernel, by decide +kernel, by decide +kernel⟩
  · exact rep_of (n := 3) (d := 2) (by decide) (by decide +kernel)
  · exact rep_of (n := 5) (d := 3) (by decide) (by decide +kernel)
  · exact rep_of (n := 10) (d := 7) (by decide) (by decide +kernel)

/-- **C161** The conversion to `long long` rounds towards zero. -/
theorem toLL_correct (r : R) (q : ℚ) (h : Rep r q) (hn : Fits64 r.num) : toLL r = .ok (if 0 ≤ q then ⌊q⌋ else ⌈q⌉) := trunc_eq h hn

/-- **C161** (part) `floor` is right for non-negative numbers and integers, `ceil` for non-positive numbers and integers. Both are wrong for all other numbers (see below). -/
theorem floor_ceil_correct_partial (r : R) (q : ℚ) (h : Rep r q) (hn : Fits64 r.num) :
    (0 ≤ q ∨ q.den = 1 → floor r = .ok ⌊q⌋) ∧ (q ≤ 0 ∨ q.den = 1 → ceil r = .ok ⌈q⌉) := by
  rw [floor_eq h hn, ceil_eq h hn]
  constructor
  · rintro (h' | h')
    · rw [if_pos h']
    · rw [floor_eq_ceil h', ite_self]
  · rintro (h' | h')
    · by_cases c : q = 0
      · rw [c]
        simp
      · rw [if_neg (not_le.mpr (lt_of_le_of_ne h' c))]
    · rw [floor_eq_ceil h', ite_self]

/-- **C161 is violated** for every negative number that is not an integer by `floor`, and for every positive one by `ceil`. -/
theorem floor_ceil_wrong (r : R) (q : ℚ) (h : Rep r q) (hn : Fits64 r.num) (hq : q.den ≠ 1) : (q < 0 → floor r ≠ .ok ⌊q⌋) ∧ (0 < q → ceil r ≠ .ok ⌈q⌉) := by
  have hne : ⌊q⌋ ≠ ⌈q⌉ := by
    intro he
    have h1 := Int.floor_le q
    have h2 := Int.le_ceil q
    rw [← he] at h2
    have h3 : q = (⌊q⌋ : ℚ) := le_antisymm h2 h1
    apply hq
    rw [h3]
    exact Rat.den_intCast _
  rw [floor_eq h hn, ceil_eq h hn]
  constructor
  · intro hlt h'
    rw [if_neg (not_le.mpr hlt)] at h'
    exact hne (Except.ok.inj h').symm
  · intro hlt h'
    rw [if_pos hlt.le] at h'
    exact hne (Except.ok.inj h')

/-- **C161 is violated**: concrete values. -/
theorem floor_ceil_counterexample : Rep ⟨-1, 2⟩ (-1 / 2) ∧ floor ⟨-1, 2⟩ = .ok 0 ∧ Rep ⟨1, 2⟩ (1 / 2) ∧ ceil ⟨1, 2⟩ = .ok 0 := by
  refine ⟨?_, by decide +kernel, ?_, by decide +kernel⟩
  · have := rep_of (n := -1) (d := 2) (by decide) (by decide +kernel)
    simpa using this
  · have := rep_of (n := 1) (d := 2) (by decide) (by decide +kernel)
    simpa using this

/-- `inv()` of zero does not fail: it gives the object `1/0`, which is no rational number. -/
theorem inv_zero : inv ⟨0, 1⟩ = .ok ⟨1, 0⟩ := by decide +kernel

/-! ### The hypotheses are satisfiable -/

example : Rep ⟨-5, 6⟩ (-5 / 6) ∧ Small (-5 / 6) := by
  have := rep_of (n := -5) (d := 6) (by decide) (by decide +kernel)
  have h : Rep ⟨-5, 6⟩ (-5 / 6) := by simpa using this
  refine ⟨h, ?_⟩
  unfold Small
  rw [← h.1]
  have h2 := h.2
  dsimp only at h2 ⊢
  omega

example : mk 10 (-12) = .ok ⟨-5, 6⟩ ∧ add ⟨-5, 6⟩ ⟨1, 10⟩ = .ok ⟨-11, 15⟩ ∧ mul ⟨-5, 6⟩ ⟨9, 10⟩ = .ok ⟨-3, 4⟩ ∧ div ⟨-5, 6⟩ ⟨-10, 9⟩ = .ok ⟨3, 4⟩ ∧ sub ⟨1, 2⟩ ⟨1, 2⟩ = .ok ⟨0, 1⟩ := by
  decide +kernel

example : lt ⟨-7, 2⟩ ⟨-5, 2⟩ = .ok true ∧ ⌊|(-7 / 2 : ℚ)|⌋ ≠ ⌊|(-5 / 2 : ℚ)|⌋ := by
  refine ⟨by decide +kernel, ?_⟩
  rw [abs_of_neg (by norm_num), abs_of_neg (by norm_num)]
  have h1 : ⌊-(-7 / 2 : ℚ)⌋ = 3 := by rw [Int.floor_eq_iff]; norm_num
  have h2 : ⌊-(-5 / 2 : ℚ)⌋ = 2 := by rw [Int.floor_eq_iff]; norm_num
  rw [h1, h2]
  decide

end Rational
