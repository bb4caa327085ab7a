import Verif.Proof.UnsignedBigint

/-!
# Properties of `library/math/unsigned_bigint.hpp`
-/

namespace UBig
open Cxx

/-- C216, construction: for every integer `v ≥ 0` the result is the canonical form of `v`; a negative one fails an assertion. -/
theorem ofInt_correct (v : Int) : (0 ≤ v → Tot (ofInt v) fun r => Canon r ∧ val r = v) ∧ (v < 0 → ofInt v = .error .assertion) := by
  unfold ofInt
  constructor
  · intro h
    rw [if_neg (by omega)]
    exact digits_tot _ v h (by omega)
  · intro h
    rw [if_pos h]

example : ofInt 12000000034 = .ok [34, 12] := by decide +kernel

/-- C216, arithmetic: canonical numbers are closed under `++`, `--`, `+` and `-`, no digit overflows, and the values are right; `--` of zero and a
negative difference fail an assertion. -/
theorem arith_correct (a b : List Int) (ha : Canon a) (hb : Canon b) :
    (Tot (incr a) fun r => Canon r ∧ val r = val a + 1) ∧
    (0 < val a → Tot (decr a) fun r => Canon r ∧ val r = val a - 1) ∧
    (val a = 0 → decr a = .error .assertion) ∧
    (Tot (add a b) fun r => Canon r ∧ val r = val a + val b) ∧
    (val b ≤ val a → Tot (sub a b) fun r => Canon r ∧ val r = val a - val b) ∧
    (val a < val b → sub a b = .error .assertion) := by
  refine ⟨?_, ?_, ?_, add_tot ha hb, sub_tot ha hb, sub_fail ha hb⟩
  · refine (incr_tot ha.1).mono ?_
    rintro r ⟨h1, h2, h3⟩
    refine ⟨canon_of h1 fun hn => ?_, h2⟩
    rcases h3 with h3 | ⟨h3, h4⟩
    · rw [h3, h2]
      have hn' : a ≠ [] := by
        intro e
        rw [e] at h3
        exact hn (List.length_eq_zero_iff.mp h3)
      have := canon_lower ha hn'
      omega
    · rw [h3, Nat.add_sub_cancel]
      exact h4
  · intro h
    unfold decr
    have hl : a.length ≠ 0 := by
      intro e
      rw [List.length_eq_zero_iff.mp e] at h
      simp [val] at h
    rw [decide_eq_true hl, check_true, ok_bind]
    refine Tot.bind (decrLoop_tot ha.1 h) ?_
    rintro r ⟨g1, g2⟩
    obtain ⟨k1, k2⟩ := cut_spec g1
    exact Tot.pure ⟨k1, by rw [k2, g2]⟩
  · intro h
    have : a = [] := canon_inj ha canon_nil (by rw [h]; rfl)
    subst this
    rfl

/-- C216, comparison: `<`, `==` and the conversion to `bool` are those of the values. -/
theorem compare_correct (a b : List Int) (ha : Canon a) (hb : Canon b) :
    (lt a b = true ↔ val a < val b) ∧ (eq a b = true ↔ val a = val b) ∧ (toBool a = true ↔ val a ≠ 0) := by
  refine ⟨lt_iff ha hb, ?_, ?_⟩
  · unfold eq
    rw [decide_eq_true_iff]
    exact ⟨fun h => by rw [h], canon_inj ha hb⟩
  · unfold toBool
    rw [Bool.not_eq_true', List.isEmpty_eq_false_iff]
    constructor
    · intro hn h0
      have := canon_lower ha hn
      have := pow_pos' (a.length - 1)
      omega
    · rintro h rfl
      exact h rfl

/-- Numbers whose sum has a carry into a new digit. -/
example : Canon [999999999, 999999999] ∧ Canon [1] ∧ add [999999999, 999999999] [1] = .ok [0, 0, 1] ∧ sub [0, 0, 1] [1] = .ok [999999999, 999999999] := by
  refine ⟨⟨by intro x hx; simp at hx; omega, fun _ => by simp⟩, ⟨by intro x hx; simp at hx; omega, fun _ => by simp⟩, by decide +kernel, by decide +kernel⟩

/-- C217, the part that holds: if one of the numbers has at most 64 digits in base `10 ^ 9`, and they are not both zero, `a * b` is the product. -/
theorem mul_partial (conv : List Int → List Int → M (List Int)) (a b : List Int) (ha : Canon a) (hb : Canon b) (h64 : min a.length b.length ≤ 64)
    (h : val a ≠ 0 ∨ val b ≠ 0) : Tot (mul conv a b) fun r => Canon r ∧ val r = val a * val b := by
  unfold mul mulF
  rw [if_pos h64]
  refine mulNaive_tot ha.1 hb.1 ?_
  rcases h with h | h
  · exact .inl (by rintro rfl; exact h rfl)
  · exact .inr (by rintro rfl; exact h rfl)

example : Canon [5, 7] ∧ min [5, 7].length [1000, 1, 3].length ≤ 64 ∧ val [5, 7] ≠ 0 ∧
    mul (fun _ _ => .error .ub) [999999999] [999999999] = .ok [1, 999999998] := by
  refine ⟨⟨by intro x hx; simp at hx; omega, fun _ => by simp⟩, by decide, by decide, by decide +kernel⟩

/-- C217: the exception is the only way to fail: if `convolution_int`, used above 200 digits, returns the coefficients of the product
polynomial, then for all numbers `a * b` is the product or throws. -/
theorem mul_sound_partial (conv : List Int → List Int → M (List Int))
    (hconv : ∀ a b, Canon a → Canon b → a ≠ [] → b ≠ [] → Tot (conv a b) fun c => c.length = a.length + b.length - 1 ∧
      ∀ k < a.length + b.length - 1, c[k]? = some (ConvNaive.coef (fun x : Int => x) a.toArray b.toArray k))
    (a b : List Int) (ha : Canon a) (hb : Canon b) :
    (Tot (mul conv a b) fun r => Canon r ∧ val r = val a * val b) ∨ mul conv a b = .error .assertion :=
  mulF_sound hconv _ a b ha hb (by omega)

/-- The hypothesis is met by the naive convolution. -/
example : ∀ a b : List Int, Canon a → Canon b → a ≠ [] → b ≠ [] →
    Tot (do let c ← ConvNaive.naive (fun x : Int => x) a.toArray b.toArray; return c.toList) fun c => c.length = a.length + b.length - 1 ∧
      ∀ k < a.length + b.length - 1, c[k]? = some (ConvNaive.coef (fun x : Int => x) a.toArray b.toArray k) := by
  intro a b _ _ hn _
  have := List.length_pos_iff.mpr hn
  refine Tot.bind (ConvNaive.naive_partial (fun x : Int => x) a.toArray b.toArray (by simp; omega)) ?_
  rintro c ⟨g1, g2⟩
  simp only [List.size_toArray] at g1 g2
  refine Tot.pure ⟨by simpa using g1, fun k hk => ?_⟩
  rw [Array.getElem?_toList]
  exact g2 k hk

/-- C217, violated: the product of zero and zero throws an exception. -/
theorem mul_counterexample (conv : List Int → List Int → M (List Int)) : Canon [] ∧ val [] = 0 ∧ mul conv [] [] = .error .assertion :=
  ⟨canon_nil, rfl, rfl⟩

/-- C217, violated for numbers that are not zero as well: between 65 and 200 digits the product is computed from those of the halves, so that the
square of `(10 ^ 9) ^ 70`, whose lower half is zero, throws the same exception. -/
theorem karatsuba_counterexample (conv : List Int → List Int → M (List Int)) :
    Canon (List.replicate 70 0 ++ [1]) ∧ mul conv (List.replicate 70 0 ++ [1]) (List.replicate 70 0 ++ [1]) = .error .assertion := by
  refine ⟨⟨bounded_append.mpr ⟨bounded_zeros _, by intro x hx; simp at hx; omega⟩, fun _ => by simp⟩, ?_⟩
  have hp : part (List.replicate 70 0 ++ [1]) 0 35 = [] := by decide +kernel
  unfold mul mulF
  rw [if_neg (by simp), if_pos (by simp)]
  have e : max (List.replicate 70 (0 : Int) ++ [1]).length (List.replicate 70 (0 : Int) ++ [1]).length / 2 = 35 := by simp
  dsimp only
  rw [e, hp]
  have : (max (List.replicate 70 (0 : Int) ++ [1]).length (List.replicate 70 (0 : Int) ++ [1]).length) = 70 + 1 := by simp
  rw [this]
  rfl

/-- C218, the part that holds: the number constructed from a string of decimal digits has the value of the string; the form is canonical if the
string does not begin with `'0'`. -/
theorem ofString_partial (s : List Char) (hs : ∀ c ∈ s, c.isDigit = true) :
    Tot (ofString s) fun r => Bounded r ∧ val r = decimal s ∧ (s.head? ≠ some '0' → Canon r) := by
  refine (words_tot s hs (s.length + 1) s.length (by omega) (le_refl _)).mono ?_
  rintro r ⟨h1, h2, h3⟩
  rw [List.take_length] at h2
  refine ⟨h1, h2, fun h => canon_of h1 fun hn => ?_⟩
  cases s with
  | nil => exact absurd (List.length_eq_zero_iff.mp (by simpa using h3)) hn
  | cons c s =>
    have := decimal_lower hs (by simpa using h)
    rw [h2]
    refine le_trans ?_ this
    rw [show (1000000000 : Int) = 10 ^ 9 by norm_num, ← pow_mul]
    refine pow_le_pow_right₀ (by norm_num) ?_
    rw [h3, List.length_cons]
    omega

example : (∀ c ∈ "12000000034".toList, c.isDigit = true) ∧ ofString "12000000034".toList = .ok [34, 12] := by decide +kernel

/-- C218, violated: the number constructed from `"0"` is not equal to zero, and it is true as a `bool`. -/
theorem ofString_counterexample : ∃ z, ofString "0".toList = .ok z ∧ val z = 0 ∧ eq z [] = false ∧ toBool z = true ∧ ofInt 0 = .ok [] :=
  ⟨[0], by decide +kernel, rfl, rfl, rfl, rfl⟩

/-- C216, shifts: `a << k` and `a >> k` multiply and divide by the `k`-th power of the base. -/
theorem shift_correct (a : List Int) (ha : Canon a) (k : Nat) :
    (Canon (shl a k) ∧ val (shl a k) = val a * 1000000000 ^ k) ∧ Canon (shr a k) ∧ val (shr a k) = val a / 1000000000 ^ k := by
  obtain ⟨h1, h2⟩ := shl_spec ha k
  exact ⟨⟨h1, by rw [h2]; ring⟩, shr_spec ha k⟩

example : Canon [7, 0, 5] ∧ shl [7, 0, 5] 1 = [0, 7, 0, 5] ∧ shr [7, 0, 5] 2 = [5] :=
  ⟨⟨by intro x hx; simp at hx; omega, fun _ => by simp⟩, rfl, rfl⟩

/-- C219, the part that holds: for a divisor of one digit, and for a divisor that is larger than the dividend, `divmod` returns the quotient and the remainder; division by zero fails an assertion. -/
theorem divmod_partial (big : List Int → List Int → M (List Int × List Int)) (a b : List Int) (ha : Canon a) (hb : Canon b) :
    (val b = 0 → divmod big a b = .error .assertion) ∧
    (0 < val b → val b < 1000000000 ∨ val a < val b →
      Tot (divmod big a b) fun p => Canon p.1 ∧ Canon p.2 ∧ val p.1 = val a / val b ∧ val p.2 = val a % val b) := by
  constructor
  · intro h
    have : b = [] := canon_inj hb canon_nil (by rw [h]; rfl)
    subst this
    rfl
  · intro h0 h
    have hl : b.length ≠ 0 := by
      intro e
      rw [List.length_eq_zero_iff.mp e] at h0
      simp [val] at h0
    have hna := (val_bound ha.1).1
    unfold divmod
    rw [decide_eq_true hl, check_true, ok_bind]
    by_cases h1 : b.length = 1
    · obtain ⟨b0, rfl⟩ := List.length_eq_one_iff.mp h1
      rw [if_pos (by simp)]
      unfold divmodNaive
      rw [if_pos h1]
      unfold divmodInt
      rw [decide_eq_true h1, check_true, ok_bind]
      have hb0 := bounded_cons.mp hb.1
      have hv : val [b0] = b0 := by simp [val]
      rw [hv] at h0 ⊢
      refine Tot.bind (divLoop_tot h0 hb0.1.2 a.reverse 0 (fun x hx => ha.1 x (by simpa using hx)) (le_refl _) h0) ?_
      rintro p ⟨g1, g2, g3, g4, g5⟩
      rw [List.reverse_reverse] at g5
      have gb : Bounded p.1.reverse := fun x hx => g1 x (by simpa using hx)
      obtain ⟨k1, k2⟩ := cut_spec gb
      have hq : val a / b0 = val p.1.reverse ∧ val a % b0 = p.2 := by
        have e : val a = p.2 + b0 * val p.1.reverse := by linarith
        rw [e]
        constructor
        · rw [Int.add_mul_ediv_left _ _ (by omega), Int.ediv_eq_zero_of_lt g3 g4, zero_add]
        · rw [Int.add_mul_emod_self_left, Int.emod_eq_of_lt g3 g4]
      refine Tot.pure ⟨k1, ?_, by rw [k2, hq.1], ?_⟩
      · split
        · rename_i hn
          exact ⟨by intro x hx; simp at hx; omega, fun _ => by simpa using hn⟩
        · exact canon_nil
      · rw [hq.2]
        split
        · simp [val]
        · rename_i hn
          simpa [val] using (not_not.mp hn).symm
    · have hlt : val a < val b := by
        rcases h with h | h
        · exfalso
          have hn : b ≠ [] := fun e => hl (by rw [e]; rfl)
          have := canon_lower hb hn
          have h2 : (1000000000 : Int) ^ 1 ≤ 1000000000 ^ (b.length - 1) := pow_le_pow_right₀ (by norm_num) (by omega)
          omega
        · exact h
      have hle : a.length ≤ b.length := by
        by_contra hc
        have := length_lt hb ha (by omega)
        omega
      rw [if_pos (by omega)]
      unfold divmodNaive
      rw [if_neg h1, if_pos ((lt_iff ha hb).mpr hlt)]
      exact Tot.pure ⟨canon_nil, ha, by rw [Int.ediv_eq_zero_of_lt hna hlt]; rfl, by rw [Int.emod_eq_of_lt hna hlt]⟩

example : Canon [7, 0, 5] ∧ Canon [9] ∧ 0 < val [9] ∧ val [9] < 1000000000 :=
  ⟨⟨by intro x hx; simp at hx; omega, fun _ => by simp⟩, ⟨by intro x hx; simp at hx; omega, fun _ => by simp⟩, by decide, by decide⟩

/-- C219, violated: `10 ^ 36 / 10 ^ 9` fails an assertion.  When the remainder becomes zero, the zeros among the following digits of the dividend are
prepended to it, so that it has leading zeros, and its number of digits no longer tells its size. -/
theorem divmod_counterexample (big : List Int → List Int → M (List Int × List Int)) :
    Canon [0, 0, 0, 0, 1] ∧ Canon [0, 1] ∧ val [0, 0, 0, 0, 1] = 10 ^ 36 ∧ val [0, 1] = 10 ^ 9 ∧
      divmod big [0, 0, 0, 0, 1] [0, 1] = .error .assertion := by
  refine ⟨⟨by intro x hx; simp at hx; omega, fun _ => by simp⟩, ⟨by intro x hx; simp at hx; omega, fun _ => by simp⟩, by decide, by decide, ?_⟩
  have : divmodNaive [0, 0, 0, 0, 1] [0, 1] = .error .assertion := by decide +kernel
  unfold divmod
  rw [this]
  rfl

/-- C220, output: the string of a number denotes it, consists of digits and does not begin with `'0'` unless it is `"0"`. -/
theorem toString_correct (a : List Int) (ha : Canon a) :
    decimal (toString a) = val a ∧ (∀ c ∈ toString a, c.isDigit = true) ∧ (val a = 0 → toString a = ['0']) ∧
      (val a ≠ 0 → toString a ≠ [] ∧ (toString a).head? ≠ some '0') := by
  unfold toString
  cases h : a.reverse with
  | nil =>
    have : a = [] := by simpa using h
    subst this
    exact ⟨by simp [decimal, val], by simp, fun _ => rfl, fun h => absurd rfl h⟩
  | cons x s =>
    have e : a = s.reverse ++ [x] := by
      have := congrArg List.reverse h
      simpa using this
    have hb := ha.1
    rw [e] at hb
    obtain ⟨b1, b2⟩ := bounded_append.mp hb
    have hx := (bounded_cons.mp b2).1
    have hx0 : x ≠ 0 := by
      have hn : a ≠ [] := by rw [e]; simp
      have := ha.2 hn
      simpa [e] using this
    have bs : Bounded s := fun y hy => b1 y (by simpa using hy)
    obtain ⟨g1, g2, g3⟩ := blocks_spec bs
    obtain ⟨k1, k2, -, k4, k5⟩ := put_spec hx
    have hv : decimal (put x ++ s.flatMap putPadded) = val a := by
      rw [decimal_append, k1, g1, g3, e, val_append, List.length_reverse, pow_mul]
      simp only [val]
      norm_num
      ring
    dsimp only
    refine ⟨hv, ?_, ?_, ?_⟩
    · intro c hc
      rcases List.mem_append.mp hc with hc | hc
      · exact k2 c hc
      · exact g2 c hc
    · intro h0
      exfalso
      have hn : a ≠ [] := by rw [e]; simp
      have := canon_lower ha hn
      have := pow_pos' (a.length - 1)
      omega
    · intro _
      refine ⟨by simp [k5], ?_⟩
      rw [List.head?_append_of_ne_nil _ k5]
      exact k4 (by omega)

/-- C220, round trip: the number constructed from the string of a number other than zero is the number. -/
theorem roundTrip_partial (a : List Int) (ha : Canon a) (h0 : val a ≠ 0) : ofString (toString a) = .ok a := by
  obtain ⟨h1, h2, -, h4⟩ := toString_correct a ha
  obtain ⟨r, hr, g1, g2, g3⟩ := ofString_partial (toString a) h2
  rw [hr, canon_inj (g3 (h4 h0).2) ha (by rw [g2, h1])]

example : Canon [34, 0, 12] ∧ toString [34, 0, 12] = "12000000000000000034".toList :=
  ⟨⟨by intro x hx; simp at hx; omega, fun _ => by simp⟩, by decide +kernel⟩

/-- C220, violated for zero: the number constructed from the string of zero is not zero. -/
theorem roundTrip_counterexample : toString [] = "0".toList ∧ ofString (toString []) ≠ .ok [] := by
  decide +kernel

/-- C220, conversion: the conversion to an unsigned type of `w` bits is the value modulo `2 ^ w`. -/
theorem toUnsigned_correct (w : Nat) (a : List Int) : toUnsigned w a = val a % 2 ^ w := by
  have := toUnsigned_aux w a.reverse 0
  simpa [toUnsigned] using this

example : toUnsigned 32 [34, 12] = 12000000034 % 2 ^ 32 := by decide +kernel

end UBig
