import Verif.Proof.OrderMod

/-!
# Multiplicative orders and primitive roots modulo `m`

`orderOf (a : ZMod m)` is Mathlib's order of the residue class of `a`; `Nat.totient` is Euler's function and `ArithmeticFunction.carmichael` is the exponent of the
group of units. `fac` is any function that factors every positive number into powers of different primes (`Spec/Factors.lean`).
-/

namespace OrderMod
open Cxx

variable {fac : Nat → List (Nat × Nat)}

/-- `order_Z_mZ(m)(a)` is the least positive `k` with `a ^ k ≡ 1`, for every modulus above one and every `a` coprime to it. -/
theorem order_correct (hfac : ∀ n, 0 < n → Factors n (fac n)) {m a : Nat} (hm : 2 ≤ m) (ha : Nat.Coprime a m) :
    order (new fac m) a = .ok (orderOf (a : ZMod m)) := by
  obtain ⟨f, h1, -, h2⟩ := new_facOk hfac (m := m) (by omega)
  unfold order
  rw [h2]
  split_ifs
  · exact orderImpl_ok f hm h2 h1 (powOk_acl m) ha
  · exact orderImpl_ok f hm h2 h1 (powOk_64 m) ha

example : ∃ fac : Nat → List (Nat × Nat), (∀ n, 0 < n → Factors n (fac n)) ∧ order (new fac 1000000007) 5 = .ok (orderOf (5 : ZMod 1000000007)) := by
  obtain ⟨fac, h⟩ := exists_factors
  exact ⟨fac, h, order_correct h (by omega) (by decide)⟩

/-- The order of a number that is not coprime to the modulus never ends. -/
theorem order_not_coprime (hfac : ∀ n, 0 < n → Factors n (fac n)) {m a : Nat} (hm : 3 ≤ m) (ha : ¬ Nat.Coprime a m) :
    order (new fac m) a = .error .diverge := by
  obtain ⟨f, h1, -, h2⟩ := new_facOk hfac (m := m) (by omega)
  unfold order
  rw [h2]
  split_ifs
  · exact orderImpl_bad f hm h2 h1 (powOk_acl m) ha
  · exact orderImpl_bad f hm h2 h1 (powOk_64 m) ha

example : ¬ Nat.Coprime 6 9 := by decide

/-- `totient()` is Euler's function, `carmichael()` the exponent of the group of units, and `carmichael_prime_factors()` lists the primes dividing the latter
without repetition. -/
theorem group_constants (hfac : ∀ n, 0 < n → Factors n (fac n)) {m : Nat} (hm : 0 < m) :
    (new fac m).phi = m.totient ∧ (new fac m).lambda = Monoid.exponent (ZMod m)ˣ ∧
    (primeFactors (new fac m)).Nodup ∧ ∀ p, p ∈ primeFactors (new fac m) ↔ p.Prime ∧ p ∣ Monoid.exponent (ZMod m)ˣ := by
  haveI : NeZero m := ⟨by omega⟩
  obtain ⟨f, h1, h2, -⟩ := new_facOk hfac hm
  rw [ArithmeticFunction.carmichael_eq_exponent'] at h1
  have hP : ∀ i (h : i < (new fac m).facLambda.size), P (new fac m) i = ((new fac m).facLambda[i]).p := by
    intro i h
    unfold P
    simp [h]
  refine ⟨h2, h1, ?_, ?_⟩
  · unfold primeFactors
    rw [List.nodup_iff_injective_get]
    rintro ⟨i, hi⟩ ⟨j, hj⟩ h
    rw [List.length_map, Array.length_toList] at hi hj
    by_contra hc
    refine f.ne i j hi hj (fun h => hc (by subst h; rfl)) ?_
    rw [hP i hi, hP j hj]
    simpa using h
  · intro p
    rw [← h1]
    constructor
    · intro hp
      unfold primeFactors at hp
      obtain ⟨x, hx, rfl⟩ := List.mem_map.mp hp
      obtain ⟨i, hi, rfl⟩ := List.getElem_of_mem hx
      rw [Array.length_toList] at hi
      rw [Array.getElem_toList, ← hP i hi]
      exact ⟨(f.prime i hi).1, (Finset.dvd_prod_of_mem _ (by rw [Finset.mem_Ico]; omega)).trans f.rad_dvd⟩
    · rintro ⟨hp, hd⟩
      obtain ⟨i, hi, rfl⟩ := f.prime_idx hp hd
      rw [hP i hi]
      unfold primeFactors
      exact List.mem_map.mpr ⟨_, Array.getElem_mem_toList hi, rfl⟩

example : ∃ fac : Nat → List (Nat × Nat), (∀ n, 0 < n → Factors n (fac n)) ∧ (new fac 12).phi = 4 := by
  obtain ⟨fac, h⟩ := exists_factors
  exact ⟨fac, h, (group_constants h (by omega)).1.trans (by decide)⟩

/-- `is_prime()` accepts exactly the prime powers. -/
theorem is_prime_iff (hfac : ∀ n, 0 < n → Factors n (fac n)) {m : Nat} (hm : 0 < m) : (new fac m).isPrime = true ↔ IsPrimePow m := by
  have : (new fac m).isPrime = decide ((fac m).length = 1) := rfl
  rw [this, decide_eq_true_iff, length_one_iff (hfac m hm)]

/-- So `is_prime()` is not a test for primes: it accepts nine. -/
theorem is_prime_wrong (hfac : ∀ n, 0 < n → Factors n (fac n)) : ¬ ∀ m, 2 ≤ m → ((new fac m).isPrime = true ↔ m.Prime) := by
  intro h
  have h1 := (h 9 (by omega)).mp ((is_prime_iff hfac (by omega)).mpr ((isPrimePow_nat_iff 9).mpr ⟨3, 2, by decide, by decide, by decide⟩))
  revert h1
  decide

/-- `is_primitive_root(a)` says whether the powers of `a` are all the units, when `a` is coprime to the modulus and the modulus is not in `[2^31, 2^32)`. -/
theorem is_primitive_root_partial (hfac : ∀ n, 0 < n → Factors n (fac n)) {m a : Nat} (hm : 2 ≤ m) (hr : m < 2 ^ 31 ∨ 2 ^ 32 ≤ m) (ha : Nat.Coprime a m) :
    ∃ b, isPrimitiveRoot (new fac m) a = .ok b ∧ (b = true ↔ orderOf (a : ZMod m) = m.totient) := by
  obtain ⟨f, h1, h3, h2⟩ := new_facOk hfac (m := m) (by omega)
  unfold isPrimitiveRoot
  rw [h2]
  split_ifs with h4
  · rw [decide_eq_true (by omega), check_true, ok_bind]
    exact isRootImpl_tot f hm h2 h1 h3 (powOk_acl m) ha
  · exact isRootImpl_tot f hm h2 h1 h3 (powOk_64 m) ha

example : ∃ fac : Nat → List (Nat × Nat), (∀ n, 0 < n → Factors n (fac n)) ∧ ∃ b, isPrimitiveRoot (new fac 998244353) 3 = .ok b := by
  obtain ⟨fac, h⟩ := exists_factors
  obtain ⟨b, hb, -⟩ := is_primitive_root_partial h (m := 998244353) (a := 3) (by omega) (by omega) (by decide)
  exact ⟨fac, h, b, hb⟩

/-- For a modulus in `[2^31, 2^32)` the conversion to `int` makes an assertion fail, whatever the argument. -/
theorem is_primitive_root_asserts {m : Nat} (h1 : 2 ^ 31 ≤ m) (h2 : m < 2 ^ 32) (a : Nat) : isPrimitiveRoot (new fac m) a = .error .assertion := by
  unfold isPrimitiveRoot
  rw [show (new fac m).mod = m from rfl, if_pos h2, decide_eq_false (by omega)]
  rfl

example : isPrimitiveRoot (new fac 4294967291) 2 = .error .assertion := is_primitive_root_asserts (by omega) (by omega) 2

/-- When there are primitive roots, every number that is *not* coprime to the modulus is accepted as one. -/
theorem is_primitive_root_not_coprime (hfac : ∀ n, 0 < n → Factors n (fac n)) {m a : Nat} (hm : 3 ≤ m) (hr : m < 2 ^ 31 ∨ 2 ^ 32 ≤ m)
    (hc : ∃ g : Nat, Nat.Coprime g m ∧ orderOf (g : ZMod m) = m.totient) (ha : ¬ Nat.Coprime a m) : isPrimitiveRoot (new fac m) a = .ok true := by
  obtain ⟨f, h1, h3, h2⟩ := new_facOk hfac (m := m) (by omega)
  have h5 : (new fac m).lambda = (new fac m).phi := by
    rw [h1, h3]
    exact (cyclic_iff (by omega)).mpr hc
  unfold isPrimitiveRoot
  rw [h2]
  split_ifs with h4
  · rw [decide_eq_true (by omega), check_true, ok_bind]
    exact isRootImpl_bad f hm h2 h1 h5 (powOk_acl m) ha
  · exact isRootImpl_bad f hm h2 h1 h5 (powOk_64 m) ha

/-- Two is a primitive root modulo nine. -/
theorem two_mod_nine : orderOf ((2 : Nat) : ZMod 9) = Nat.totient 9 := by
  have ht : Nat.totient 9 = 6 := by decide
  rw [ht]
  refine orderOf_eq_of_pow_and_pow_div_prime (by omega) (by decide) ?_
  intro p hp hd
  have : p ≤ 6 := Nat.le_of_dvd (by omega) hd
  interval_cases p <;> first | (exfalso; revert hp; decide) | (exfalso; revert hd; decide) | decide

example : ∃ fac : Nat → List (Nat × Nat), (∀ n, 0 < n → Factors n (fac n)) ∧ isPrimitiveRoot (new fac 9) 3 = .ok true := by
  obtain ⟨fac, h⟩ := exists_factors
  exact ⟨fac, h, is_primitive_root_not_coprime h (by omega) (by omega) ⟨2, by decide, two_mod_nine⟩ (by decide)⟩

/-- `primitive_root()` stops at the assertion exactly when there is no primitive root (for the moduli it supports). When there is one and the modulus is a prime or has
two different prime factors, the number it returns is a primitive root, and it can only go on searching while no number drawn is one. -/
theorem primitive_root_partial (hfac : ∀ n, 0 < n → Factors n (fac n)) {m : Nat} (hm : 2 ≤ m) (hr : m < 2 ^ 31 ∨ 2 ^ 32 ≤ m) (hp : m.Prime ∨ ¬ IsPrimePow m) (rng : List Nat) :
    ((∃ g : Nat, Nat.Coprime g m ∧ orderOf (g : ZMod m) = m.totient) →
      ∃ r, primitiveRoot (new fac m) rng = .ok r ∧ (match r with
        | some a => Nat.Coprime a m ∧ a < m ∧ orderOf (a : ZMod m) = m.totient
        | none => ∀ x ∈ rng, orderOf ((x % (m - 2) + 2 : Nat) : ZMod m) ≠ m.totient)) ∧
    ((¬ ∃ g : Nat, Nat.Coprime g m ∧ orderOf (g : ZMod m) = m.totient) → primitiveRoot (new fac m) rng = .error .assertion) := by
  obtain ⟨f, h1, h3, h2⟩ := new_facOk hfac (m := m) (by omega)
  have hc := cyclic_iff (m := m) (by omega)
  rw [← h1, ← h3] at hc
  rw [h3] at hc
  unfold primitiveRoot
  refine ⟨fun hg => ?_, fun hg => ?_⟩
  · rw [decide_eq_true (by rw [h3]; exact hc.mpr hg), check_true, ok_bind, h2]
    by_cases hm2 : m = 2
    · subst hm2
      rw [if_pos rfl]
      refine ⟨some 1, rfl, ?_⟩
      dsimp only
      refine ⟨by decide, by omega, ?_⟩
      rw [Nat.cast_one, orderOf_one]
      decide
    · rw [if_neg hm2]
      have hpos : 0 < m.totient := Nat.totient_pos.mpr (by omega)
      have hbad : ∀ a : Nat, orderOf (a : ZMod m) = m.totient → Nat.Coprime a (new fac m).mod := by
        intro a ha
        rw [h2]
        by_contra hn
        refine pow_ne_one hn hpos ?_
        rw [← ha]
        exact pow_orderOf_eq_one _
      have hgood : ∀ a, 2 ≤ a → a < (new fac m).mod → ((new fac m).isPrime = false → Nat.Coprime a (new fac m).mod) →
          Tot (isPrimitiveRoot (new fac m) a) (fun b => b = true ↔ orderOf (a : ZMod m) = m.totient) := by
        intro a a1 a2 a3
        rw [h2] at a2 a3
        refine is_primitive_root_partial hfac hm hr ?_
        rcases hp with hp | hp
        · exact (Nat.coprime_of_lt_prime (by omega) a2 hp).symm
        · refine a3 ?_
          rw [← Bool.not_eq_true, is_prime_iff hfac (by omega)]
          exact hp
      obtain ⟨r, r1, r2⟩ := search_tot (Good := fun a => orderOf (a : ZMod m) = m.totient) hgood hbad (by omega) rng
      refine ⟨r, r1, ?_⟩
      rw [h2] at r2
      cases r with
      | some a =>
        have := hbad a r2.1
        rw [h2] at this
        exact ⟨this, r2.2.2, r2.1⟩
      | none => exact r2
  · rw [decide_eq_false (by rw [h3]; exact fun h => hg (hc.mp h))]
    rfl

example : (7 : Nat).Prime ∧ ¬ IsPrimePow 12 := by
  refine ⟨by decide, ?_⟩
  rw [isPrimePow_nat_iff_bounded]
  decide

/-- Modulo nine the search can return three, which is not a primitive root and not even a unit. -/
theorem primitive_root_wrong (hfac : ∀ n, 0 < n → Factors n (fac n)) : primitiveRoot (new fac 9) [1] = .ok (some 3) ∧ ¬ Nat.Coprime 3 9 := by
  obtain ⟨f, h1, h3, h2⟩ := new_facOk hfac (m := 9) (by omega)
  have hcyc : ∃ g : Nat, Nat.Coprime g 9 ∧ orderOf (g : ZMod 9) = Nat.totient 9 := ⟨2, by decide, two_mod_nine⟩
  refine ⟨?_, by decide⟩
  unfold primitiveRoot
  rw [decide_eq_true (by rw [h1, h3]; exact (cyclic_iff (by omega)).mpr hcyc), check_true, ok_bind, h2, if_neg (by omega)]
  unfold search
  dsimp only
  have hp : (new fac 9).isPrime = true := (is_prime_iff hfac (by omega)).mpr ((isPrimePow_nat_iff 9).mpr ⟨3, 2, by decide, by decide, by decide⟩)
  rw [h2, hp, if_neg (by simp), is_primitive_root_not_coprime hfac (by omega) (by omega) hcyc (by decide)]
  rfl

end OrderMod
