import Verif.Proof.ModintSqrt

/-! # `modint`: properties -/

namespace Modint
open Cxx

/-- C194. For every modulus `m` from 1 to `2 ^ 31 - 1`, static or dynamic, the constructors take every signed or unsigned 64-bit value to its residue, and on residues every ring operation returns
the residue of the exact result; `pow` does so for every nonnegative exponent, and refuses negative ones. -/
theorem ring_correct (dyn : Bool) (m : Nat) (hm : 1 ≤ m) (hm' : m < 2 ^ 31) :
    (∀ v : Int, -2 ^ 63 ≤ v → v < 2 ^ 63 → ((ofInt dyn m v : Nat) : Int) = v % m) ∧
    (∀ v : Nat, v < 2 ^ 64 → ofNat dyn m v = v % m) ∧
    ∀ a b : Nat, a < m → b < m →
      add m a b = (a + b) % m ∧ ((sub m a b : Nat) : Int) = ((a : Int) - b) % m ∧ mul dyn m a b = a * b % m ∧
      ((neg m a : Nat) : Int) = -(a : Int) % m ∧ inc m a = (a + 1) % m ∧ ((dec m a : Nat) : Int) = ((a : Int) - 1) % m ∧
      (∀ n : Nat, pow dyn m a n = .ok (a ^ n % m)) ∧ (∀ n : Int, n < 0 → pow dyn m a n = .error .assertion) := by
  refine ⟨fun v _ hv => ofInt_eq hm hm' (by omega), fun v hv => ofNat_eq hm hm' hv, fun a b ha hb => ?_⟩
  refine ⟨add_eq hm hm' ha hb, sub_eq hm hm' ha hb, mul_eq hm hm' ha hb, neg_eq hm hm' ha, inc_eq hm hm' ha, dec_eq hm hm' ha, fun n => ?_, fun n hn => pow_neg hm hm' a hn⟩
  rw [pow_eq hm hm' ha (Int.natCast_nonneg n), Int.toNat_natCast]

example : mul true 2147483647 2147483646 2147483646 = 1 ∧ pow false 7 3 5 = .ok 5 ∧ ofInt true 10 (-13) = 7 := by decide +kernel

/-- C195. The division-free remainder by a 32-bit modulus equals the remainder for every 64-bit number. -/
theorem rem_correct (m c : Nat) (hm : 1 ≤ m) (hm' : m < 2 ^ 32) (hc : c < 2 ^ 64) : rem true m c = c % m ∧ (2 ≤ m → rem false m c = c % m) :=
  ⟨rem_eq hm hm' hc (Or.inl rfl), fun h => rem_eq hm hm' hc (Or.inr (Or.inl h))⟩

example : rem true 4294967295 (2 ^ 64 - 2) = 4294967294 ∧ rem true 1 5 = 0 ∧ rem false 1 5 = 5 := by decide +kernel

/-- C196, `inv` and division. If `a` and `m` are coprime, `inv` returns the inverse and `b / a` the residue whose product with `a` is `b`; otherwise both stop at the assertion.
The static kind decides at compile time whether `m` is prime, with the bases 2, 7 and 61; it is assumed here that it does not call a composite `m` prime. -/
theorem inv_partial (dyn : Bool) (m a b : Nat) (hm' : m < 2 ^ 31) (ha : a < m) (hb : b < m) (hs : dyn = true ∨ (isPrime m = .ok true → m.Prime)) :
    (Nat.Coprime a m → ∃ x < m, inv dyn m a = .ok x ∧ a * x % m = 1 % m ∧ ∃ q < m, div dyn m b a = .ok q ∧ q * a % m = b) ∧
    (¬ Nat.Coprime a m → inv dyn m a = .error .assertion ∧ div dyn m b a = .error .assertion) := by
  obtain ⟨h1, h2⟩ := inv_ok hm' ha hs
  constructor
  · intro hc
    obtain ⟨x, hx, e, hx1⟩ := h1 hc
    refine ⟨x, hx, e, hx1, ?_⟩
    unfold div
    rw [e, ok_bind]
    refine ⟨_, mul_lt (by omega) hm' hb hx, rfl, ?_⟩
    rw [mul_eq (by omega) hm' hb hx, Nat.mul_mod, Nat.mod_mod, ← Nat.mul_mod, Nat.mul_assoc, Nat.mul_comm x, Nat.mul_mod, hx1, ← Nat.mul_mod, Nat.mul_one, Nat.mod_eq_of_lt hb]
  · intro hc
    refine ⟨h2 hc, ?_⟩
    unfold div
    rw [h2 hc]
    rfl

/-- The hypothesis on the static kind holds for every prime, for 1 and for even numbers, in particular for both named moduli: a prime is always recognised, and these composite numbers are too. -/
theorem isPrime_partial (m : Nat) (hm' : m < 2 ^ 31) : (m.Prime → isPrime m = .ok true) ∧ (m ≤ 1 ∨ (m ≠ 2 ∧ m % 2 = 0) → isPrime m = .ok false) := by
  obtain ⟨b, hb, h1, h2⟩ := isPrime_tot hm'
  rw [hb]
  constructor
  · intro hp; rw [h1 hp]
  · intro h
    cases b with
    | false => rfl
    | true =>
      have := h2 rfl
      omega

theorem named_prime : Nat.Prime 998244353 ∧ Nat.Prime 1000000007 := ⟨prime_998244353, prime_1000000007⟩

example : isPrime 998244353 = .ok true → Nat.Prime 998244353 := fun _ => named_prime.1

example : inv false 998244353 2 = .ok 499122177 ∧ inv true 10 3 = .ok 7 ∧ inv true 10 4 = .error .assertion ∧ div false 10 4 3 = .ok 8 ∧ isPrime 9 = .ok false := by decide +kernel

/-- C196, `xpow`. A negative exponent gives the power of the inverse, for every exponent above the least 64-bit number. -/
theorem xpow_partial (dyn : Bool) (m a : Nat) (hm' : m < 2 ^ 31) (ha : a < m) (hs : dyn = true ∨ (isPrime m = .ok true → m.Prime)) (hc : Nat.Coprime a m) (n : Nat) (hn : n < 2 ^ 63) :
    xpow dyn m a n = .ok (a ^ n % m) ∧ ∃ x < m, xpow dyn m a (-(n : Int)) = .ok x ∧ a ^ n * x % m = 1 % m := by
  have hm : 1 ≤ m := by omega
  have hpos : xpow dyn m a n = .ok (a ^ n % m) := by
    unfold xpow
    rw [if_neg (by omega), pow_eq hm hm' ha (Int.natCast_nonneg n), Int.toNat_natCast]
  refine ⟨hpos, ?_⟩
  by_cases h0 : n = 0
  · subst h0
    refine ⟨1 % m, Nat.mod_lt _ hm, by simpa using hpos, by simp⟩
  obtain ⟨x, hx, e, hx1⟩ := (inv_ok hm' ha hs).1 hc
  unfold xpow
  rw [if_pos (by omega), e, ok_bind, neg_neg, i64_ok (by constructor <;> omega), ok_bind, pow_eq hm hm' hx (Int.natCast_nonneg n), Int.toNat_natCast]
  refine ⟨_, Nat.mod_lt _ hm, rfl, ?_⟩
  rw [Nat.mul_mod, Nat.mod_mod, ← Nat.mul_mod, ← Nat.mul_pow, Nat.pow_mod, hx1, ← Nat.pow_mod, Nat.one_pow]

/-- For the least 64-bit number the exponent is negated with a signed overflow. -/
theorem xpow_counterexample : xpow true 998244353 3 (-2 ^ 63) = .error .ub ∧ xpow false 998244353 3 (-2 ^ 63) = .error .ub := by decide +kernel

example : xpow true 7 3 (-2) = .ok 4 := by decide +kernel

/-- C197. Modulo a prime, `mod_sqrt` returns a square root of `a`, or nothing if no number's square is `a` modulo `p`. -/
theorem modSqrt_correct (dyn : Bool) (p a : Nat) (hp : p.Prime) (hp' : p < 2 ^ 31) (ha : a < p) :
    (∃ x < p, modSqrt dyn p a = .ok (some x) ∧ x * x % p = a) ∨ (modSqrt dyn p a = .ok none ∧ ∀ y : Nat, y * y % p ≠ a) := by
  haveI : Fact p.Prime := ⟨hp⟩
  obtain ⟨r, hr, h⟩ := modSqrt_tot (dyn := dyn) hp' ha
  cases r with
  | none => exact Or.inr ⟨hr, h⟩
  | some x => exact Or.inl ⟨x, h.1, hr, h.2⟩

example : modSqrt true 17 2 = .ok (some 6) ∧ modSqrt false 41 3 = .ok none := by decide +kernel

end Modint
