import Verif.Proof.Tables

/-! # Factorisation, divisors, totients, sieve: properties C27, C28, C29, C30, C66

`NumberUtil.Fact n l` is the specification of a factorisation: strictly increasing primes, positive exponents, product `n`. -/

namespace NumberUtil
open Cxx

/-- `r` is the prime factorisation of `n` in the integer type of the code. -/
def IsFactorization (n : Nat) (r : List (Int × Nat)) : Prop :=
  ∃ l : List (Nat × Nat), r = l.map (fun x => ((x.1 : Int), x.2)) ∧ Fact n l

/-- **C27** (partial: only below `(2^31 - 30030)^2`; above, the property is false, see `factorize_longlong_wrong`). `factorize<long long>(n)`. -/
theorem factorize_longlong_partial (n : Nat) (h1 : 1 ≤ n) (h2 : n < (2 ^ 31 - 30030) ^ 2) : ∃ r, factorize (2 ^ 63 - 1) n = .ok r ∧ IsFactorization n r := by
  obtain ⟨r, e, l, rfl, h⟩ := factorize_tot h1 (safe_longlong h2)
  exact ⟨_, e, l, rfl, h⟩

/-- **C27** (partial: only below `30047^2`; above, the property is false, see `factorize_int_wrong`). `factorize<int>(n)`. -/
theorem factorize_int_partial (n : Nat) (h1 : 1 ≤ n) (h2 : n < 30047 ^ 2) : ∃ r, factorize (2 ^ 31 - 1) n = .ok r ∧ IsFactorization n r := by
  obtain ⟨r, e, l, rfl, h⟩ := factorize_tot h1 (safe_int h2)
  exact ⟨_, e, l, rfl, h⟩

/-- **C27**, `factorize(n)` for `n <= 0` fails the assertion. -/
theorem factorize_nonpos (maxT : Nat) (n : Int) (h : n ≤ 0) : factorize maxT n = .error .assertion := by
  unfold factorize
  rw [decide_eq_false (by omega), check_false, err_bind]

/-- **Finding.** `factorize<int>(INT_MAX)` overflows: `b * b` with `b = 60077`. -/
theorem factorize_int_wrong : factorize (2 ^ 31 - 1) (2 ^ 31 - 1) = .error .ub := factorize_int_overflow

/-- **Finding.** `factorize<long long>` of the square of the prime 2147483659 claims that the square itself is a prime: the candidates are converted to `int`. -/
theorem factorize_longlong_wrong : factorize (2 ^ 63 - 1) ((2147483659 : Int) ^ 2) = .ok [((2147483659 : Int) ^ 2, 1)] ∧
    (2147483659 : Nat) ^ 2 < 2 ^ 63 ∧ ¬ Nat.Prime (2147483659 ^ 2) :=
  ⟨factorize_square_missed, by norm_num, Nat.Prime.not_prime_pow (le_refl 2)⟩

example : Fact 360 [(2, 3), (3, 2), (5, 1)] := ⟨by decide, by intro x hx; fin_cases hx <;> exact ⟨by norm_num, by norm_num⟩, by norm_num⟩
example : ∃ r, factorize (2 ^ 63 - 1) (10 ^ 18) = .ok r ∧ IsFactorization (10 ^ 18) r := by
  have := factorize_longlong_partial (10 ^ 18) (by norm_num) (by norm_num)
  exact_mod_cast this
example : ∃ r, factorize (2 ^ 31 - 1) (899999999) = .ok r ∧ IsFactorization 899999999 r := factorize_int_partial 899999999 (by norm_num) (by norm_num)

/-- `r` lists the positive divisors of `n`, each once. -/
def IsDivisorList (n : Nat) (r : Array Int) : Prop := r.toList.Nodup ∧ ∀ x : Int, x ∈ r.toList ↔ 0 < x ∧ x ∣ n

theorem castA_isDivisorList {n : Nat} {D : List Nat} (hn : 0 < n) (h1 : D.Nodup) (h2 : ∀ x, x ∈ D ↔ x ∣ n) : IsDivisorList n (castA D) := by
  constructor
  · simp only [castA]
    exact h1.map fun a b h => by exact_mod_cast h
  · intro x
    simp only [castA, List.mem_map]
    constructor
    · rintro ⟨y, hy, rfl⟩
      have := (h2 y).1 hy
      exact ⟨by have := Nat.pos_of_dvd_of_pos this hn; omega, by exact_mod_cast this⟩
    · rintro ⟨hx, hd⟩
      obtain ⟨y, rfl⟩ := Int.eq_ofNat_of_zero_le hx.le
      exact ⟨y, (h2 y).2 (by exact_mod_cast hd), rfl⟩

/-- **C28**, `divisors(factorized)`. -/
theorem divisors_correct (n : Nat) (r : List (Int × Nat)) (h : IsFactorization n r) : ∃ a, divisors r = .ok a ∧ IsDivisorList n a := by
  obtain ⟨l, rfl, h⟩ := h
  obtain ⟨a, e, D, rfl, h1, h2⟩ := divisors_tot h
  exact ⟨_, e, castA_isDivisorList h.pos h1 h2⟩

/-- **C28**, `divisors(n)` for `long long`. -/
theorem divisors_longlong (n : Nat) (h1 : 1 ≤ n) (h2 : n < (2 ^ 31 - 30030) ^ 2) : ∃ a, divisorsOf (2 ^ 63 - 1) n = .ok a ∧ IsDivisorList n a := by
  obtain ⟨r, e, h⟩ := factorize_longlong_partial n h1 h2
  unfold divisorsOf
  rw [e, ok_bind]
  exact divisors_correct n r h

/-- **C28**, `divisors(n)` for `int`. -/
theorem divisors_int (n : Nat) (h1 : 1 ≤ n) (h2 : n < 30047 ^ 2) : ∃ a, divisorsOf (2 ^ 31 - 1) n = .ok a ∧ IsDivisorList n a := by
  obtain ⟨r, e, h⟩ := factorize_int_partial n h1 h2
  unfold divisorsOf
  rw [e, ok_bind]
  exact divisors_correct n r h

/-- **C28**, `divisors_table(n)`: entry `j` lists the divisors of `j` in increasing order. -/
theorem divisorsTable_correct (n : Nat) : ∃ t, divisorsTable n = .ok t ∧ t.size = n + 1 ∧ ∀ j, 1 ≤ j → j ≤ n →
    ∃ l, t[j]? = some l ∧ l.Pairwise (· < ·) ∧ ∀ d, d ∈ l ↔ d ∣ j := by
  obtain ⟨t, e, h1, h2⟩ := divisorsTable_tot n
  refine ⟨t, e, h1, fun j hj hjn => ⟨divsBelow (n + 1) j, ?_, List.pairwise_lt_range.filter _, fun d => ?_⟩⟩
  · have := h2 j hjn
    unfold at' at this
    rw [← this, Array.getElem?_eq_getElem (by omega)]
    rfl
  · unfold divsBelow
    rw [List.mem_filter, List.mem_range, decide_eq_true_eq]
    constructor
    · exact fun h => h.2.2.2
    · intro h
      have h3 := Nat.le_of_dvd (by omega) h
      exact ⟨by omega, Nat.pos_of_dvd_of_pos h (by omega), by omega, h⟩

example : ∃ a, divisors [((2 : Int), 3), (3, 2), (5, 1)] = .ok a ∧ IsDivisorList 360 a :=
  divisors_correct 360 _ ⟨[(2, 3), (3, 2), (5, 1)], rfl, by decide, by intro x hx; fin_cases hx <;> exact ⟨by norm_num, by norm_num⟩, by norm_num⟩

/-- **C29**, `totient(factorized)`: the number of `k` in `[0, n)` coprime to `n`, provided the squares formed by `powi` fit into the type. -/
theorem totient_correct (maxT n : Nat) (l : List (Nat × Nat)) (h : Fact n l) (hn : n ≤ maxT) (ho : ∀ x ∈ l, x.1 ^ (2 * (x.2 - 1)) ≤ maxT) :
    totient maxT (l.map fun x => ((x.1 : Int), x.2)) = .ok (((Finset.range n).filter fun (k : Nat) => Nat.Coprime n k).card : Int) := by
  have := totient_tot h ho hn
  rw [tot_eq] at this
  rw [show (l.map fun x => ((x.1 : Int), x.2)) = castL l from rfl, this, Nat.totient]

theorem noOver_of_sq {maxT n : Nat} {l : List (Nat × Nat)} (h : Fact n l) (hn : n ^ 2 ≤ maxT) : NoOver maxT l := by
  intro x hx
  obtain ⟨pre, post, hs⟩ := List.append_of_mem hx
  have h1 := h.pre_dvd hs
  have h2 := Nat.le_of_dvd h.pos ((dvd_mul_left _ _).trans h1)
  have h3 : x.1 ^ (x.2 - 1) ≤ n := (Nat.pow_le_pow_right (h.prime x hx).1.pos (by omega)).trans h2
  rw [show 2 * (x.2 - 1) = (x.2 - 1) * 2 by ring, pow_mul]
  exact (Nat.pow_le_pow_left h3 2).trans hn

/-- **C29**, `totient<long long>(n)` for all `n <= 3037000499` (`n^2 < 2^63`). -/
theorem totient_longlong (n : Nat) (h1 : 1 ≤ n) (h2 : n ^ 2 < 2 ^ 63) :
    totientOf (2 ^ 63 - 1) n = .ok (((Finset.range n).filter fun (k : Nat) => Nat.Coprime n k).card : Int) := by
  have hlt : n < (2 ^ 31 - 30030) ^ 2 := by
    have : n < 2 ^ 32 := lt_of_pow_lt_pow_left₀ 2 (by norm_num) (h2.trans (by norm_num))
    exact this.trans (by norm_num)
  obtain ⟨r, e, l, rfl, h⟩ := factorize_longlong_partial n h1 hlt
  unfold totientOf
  rw [e, ok_bind]
  have : n ≤ n ^ 2 := Nat.le_self_pow (by norm_num) n
  exact totient_correct _ n l h (by omega) (noOver_of_sq h (by omega))

/-- **Finding.** `totient<long long>(n)` for `n = 65537^3 < 2^63` overflows: `powi` squares `p^2` once more than needed. -/
theorem totient_overflow : totient (2 ^ 63 - 1) [((65537 : Int), 3)] = .error .ub ∧ 65537 ^ 3 < 2 ^ 63 := ⟨by decide, by norm_num⟩

/-- **C29**, `totient_table(n)`. -/
theorem totientTable_correct (n : Nat) : ∃ t, totientTable n = .ok t ∧ t.size = n + 1 ∧
    ∀ j, j ≤ n → t[j]? = some ((Finset.range j).filter fun (k : Nat) => Nat.Coprime j k).card := by
  obtain ⟨t, e, h1, h2⟩ := totientTable_tot n
  refine ⟨t, e, h1, fun j hj => ?_⟩
  have := h2 j hj
  unfold at' at this
  rw [Nat.totient] at this
  rw [← this, Array.getElem?_eq_getElem (by omega)]
  rfl

example : totientOf (2 ^ 63 - 1) 1000000007 = .ok (((Finset.range 1000000007).filter fun (k : Nat) => Nat.Coprime 1000000007 k).card : Int) :=
  totient_longlong 1000000007 (by norm_num) (by norm_num)
example : totient (2 ^ 63 - 1) [((2 : Int), 3), (3, 2), (5, 1)] = .ok 96 := by decide

/-- `e` is the exponent of the group of units modulo `n`: the least positive `e` with `a^e ≡ 1` for every `a` coprime to `n`. -/
def IsUnitExponent (n e : Nat) : Prop :=
  0 < e ∧ (∀ a, Nat.Coprime a n → a ^ e ≡ 1 [MOD n]) ∧ ∀ f, 0 < f → (∀ a, Nat.Coprime a n → a ^ f ≡ 1 [MOD n]) → e ≤ f

theorem pow_units {n f : Nat} [NeZero n] : (∀ a, Nat.Coprime a n → a ^ f ≡ 1 [MOD n]) ↔ ∀ u : (ZMod n)ˣ, u ^ f = 1 := by
  constructor
  · intro h u
    have h1 := h _ (ZMod.val_coe_unit_coprime u)
    rw [← ZMod.natCast_eq_natCast_iff] at h1
    push_cast at h1
    rw [ZMod.natCast_zmod_val] at h1
    exact Units.ext (by push_cast; exact h1)
  · intro h a ha
    have h1 := congrArg (Units.val) (h (ZMod.unitOfCoprime a ha))
    push_cast at h1
    rw [ZMod.coe_unitOfCoprime] at h1
    rw [← ZMod.natCast_eq_natCast_iff]
    push_cast
    exact h1

theorem carmichael_isUnitExponent {n : Nat} (hn : 0 < n) : IsUnitExponent n (ArithmeticFunction.carmichael n) := by
  haveI : NeZero n := ⟨by omega⟩
  rw [ArithmeticFunction.carmichael_eq_exponent']
  refine ⟨Monoid.exponent_pos_of_exists _ (Fintype.card_pos (α := (ZMod n)ˣ)) fun u => pow_card_eq_one, ?_, ?_⟩
  · rw [pow_units]
    exact fun u => Monoid.pow_exponent_eq_one u
  · intro f hf h
    rw [pow_units] at h
    exact Monoid.exponent_min' f hf h

/-- **C66**, `carmichael(factorized)`. -/
theorem carmichael_correct (maxT n : Nat) (l : List (Nat × Nat)) (h : Fact n l) (hn : n ≤ maxT) (ho : ∀ x ∈ l, x.1 ^ (2 * (x.2 - 1)) ≤ maxT) :
    ∃ e : Nat, carmichael maxT (l.map fun x => ((x.1 : Int), x.2)) = .ok (e : Int) ∧ IsUnitExponent n e := by
  have := carmichael_tot h ho hn
  rw [tot_eq] at this
  exact ⟨_, this, carmichael_isUnitExponent h.pos⟩

/-- **C66**, `carmichael<long long>(n)` for `n^2 < 2^63`. -/
theorem carmichael_longlong (n : Nat) (h1 : 1 ≤ n) (h2 : n ^ 2 < 2 ^ 63) : ∃ e : Nat, carmichaelOf (2 ^ 63 - 1) n = .ok (e : Int) ∧ IsUnitExponent n e := by
  have hlt : n < (2 ^ 31 - 30030) ^ 2 := by
    have : n < 2 ^ 32 := lt_of_pow_lt_pow_left₀ 2 (by norm_num) (h2.trans (by norm_num))
    exact this.trans (by norm_num)
  obtain ⟨r, e, l, rfl, h⟩ := factorize_longlong_partial n h1 hlt
  unfold carmichaelOf
  rw [e, ok_bind]
  have : n ≤ n ^ 2 := Nat.le_self_pow (by norm_num) n
  exact carmichael_correct _ n l h (by omega) (noOver_of_sq h (by omega))

example : carmichael (2 ^ 63 - 1) [((2 : Int), 4), (3, 1), (5, 1), (7, 1)] = .ok 12 := by decide

end NumberUtil

namespace LinearSieve
open Cxx

/-- **C30.** The constructor succeeds for every `n`; then the least-prime-factor table is right on `[2, n]`, the prime list is the increasing list of
all primes up to `n`, and `factorize(k)` is the factorisation of `k` for every `k` in `[1, n]`. -/
theorem linearSieve_correct (n : Nat) : ∃ s, make n = .ok s ∧ s.n = n ∧ s.mpf.size = n + 1 ∧
    (∀ k, 2 ≤ k → k ≤ n → ∃ p, s.mpf[k]? = some p ∧ p.Prime ∧ p ∣ k ∧ ∀ q, q.Prime → q ∣ k → p ≤ q) ∧
    (s.primes.toList.Pairwise (· < ·) ∧ ∀ p, p ∈ s.primes.toList ↔ p.Prime ∧ p ≤ n) ∧
    (∀ k, 1 ≤ k → k ≤ n → ∃ l, factorize s k = .ok l ∧ NumberUtil.Fact k l) ∧
    (∀ k, k = 0 ∨ n < k → factorize s k = .error .assertion) := by
  obtain ⟨s, e, h⟩ := make_tot n
  refine ⟨s, e, h.n_eq, h.size, ?_, ?_, ?_, ?_⟩
  · intro k h1 h2
    have hs := h.size
    refine ⟨k.minFac, ?_, Nat.minFac_prime (by omega), Nat.minFac_dvd k, fun q hq hd => Nat.minFac_le_of_dvd hq.two_le hd⟩
    have := h.mpf k h1 h2
    unfold at' at this
    rw [← this, Array.getElem?_eq_getElem (by omega)]
    rfl
  · rw [h.primes]
    refine ⟨primesBelow_sorted _, fun p => ?_⟩
    rw [mem_primesBelow, Nat.lt_succ_iff]
  · exact fun k h1 h2 => factorize_tot h h1 h2
  · intro k hk
    unfold factorize
    rw [decide_eq_false (by rw [h.n_eq]; omega), check_false, err_bind]

example : (make 30).map (fun s => s.primes) = .ok #[2, 3, 5, 7, 11, 13, 17, 19, 23, 29] := by decide +kernel
example : (make 30 >>= fun s => factorize s 24) = .ok [(2, 3), (3, 1)] := by decide +kernel

end LinearSieve
