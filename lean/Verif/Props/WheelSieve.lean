import Verif.Proof.WheelSieve3

/-! # Sieves of Eratosthenes: properties C110, C111

`SimpleSieve<N>` and `Sieve<N>` keep their tables in static storage, so constructing a second object runs the constructor on
the table the first one has left. -/

namespace WheelSieve
open Cxx

/-- The static table of `SimpleSieve<N>` after `c` objects have been constructed. -/
def simpleAfter (N : Nat) : Nat → M (Array Nat)
  | 0 => .ok (simpleZero N)
  | c + 1 => simpleAfter N c >>= simple N

/-- The static table of `Sieve<N>` after `c` objects have been constructed. -/
def after (N : Nat) : Nat → M (Array Nat)
  | 0 => .ok (pfZero N)
  | c + 1 => after N c >>= sieve N

/-- **C110**. Once an object of `SimpleSieve<N>` has been constructed, `is_prime(p)` says for every `p <= N` whether `p` is
prime, and `prime_list(m)` is the increasing list of the primes up to `m`, for every `m <= N` (for `N < 2^31`, because the list
is a `vector<int>`). -/
theorem simple_correct (N c : Nat) (hN : N + 2 < 2 ^ 32) : ∃ flag, simpleAfter N (c + 1) = .ok flag ∧
    (∀ p ≤ N, simpleIsPrime flag p = .ok (decide p.Prime)) ∧
    (N < 2 ^ 31 → ∀ m ≤ N, primeList N flag m = .ok (((List.range (m + 1)).filter fun x => decide x.Prime).map Int.ofNat)) := by
  have key : ∀ c, Tot (simpleAfter N c) (Partial (siz N)) ∧ Tot (simpleAfter N (c + 1)) (Exact (siz N)) := by
    intro c
    induction c with
    | zero =>
      have h0 := zero_partial N
      exact ⟨Tot.pure h0, Tot.bind (P := Partial (siz N)) (Tot.pure h0) fun _ h => simple_tot hN h⟩
    | succ c ih =>
      refine ⟨ih.2.mono fun _ h => h.toPartial, ?_⟩
      show Tot (simpleAfter N (c + 1) >>= simple N) _
      exact Tot.bind ih.2 fun f h => simple_tot hN h.toPartial
  obtain ⟨flag, e, hf⟩ := (key c).2
  refine ⟨flag, e, ?_, fun h31 m hm => primeList_eq h31 hm hf⟩
  intro p hp
  refine simpleIsPrime_eq hf ?_
  unfold siz
  omega

/-- **C111**. Once an object of `Sieve<N>` has been constructed, for `N + 1 < 2^29`: `is_prime(p)` says for every `p <= N`
whether `p` is prime; `prime_factor(n)` is a prime factor of `n` for `2 <= n <= N`; `factorize(n)` lists every prime factor of
`n` once, with its exponent, and `divisors(n)` lists every divisor of `n` once, for `1 <= n <= N`. -/
theorem sieve_correct (N c : Nat) (hN : N + 1 < 2 ^ 29) : ∃ pf, after N (c + 1) = .ok pf ∧
    (∀ p ≤ N, isPrime pf p = .ok (decide p.Prime)) ∧
    (∀ n, 2 ≤ n → n ≤ N → ∃ p, primeFactor pf n = .ok p ∧ p.Prime ∧ p ∣ n) ∧
    (∀ n, 1 ≤ n → n ≤ N → ∃ l, factorize N pf n = .ok l ∧ (l.map Prod.fst).Nodup ∧ (∀ x ∈ l, x.1.Prime ∧ 0 < x.2) ∧
      (l.map fun x => x.1 ^ x.2).prod = n) ∧
    (∀ n, 1 ≤ n → n ≤ N → ∃ r, divisors N pf n = .ok r ∧ r.toList.Nodup ∧ ∀ x : Int, x ∈ r.toList ↔ 0 < x ∧ x ∣ n) := by
  have key : ∀ c, Tot (after N c) (PPartial (baseMax N)) ∧ Tot (after N (c + 1)) (PExact N) := by
    intro c
    induction c with
    | zero =>
      have h0 := pfZero_partial N
      exact ⟨Tot.pure h0, Tot.bind (P := PPartial (baseMax N)) (Tot.pure h0) fun _ h => sieve_tot hN h⟩
    | succ c ih =>
      refine ⟨ih.2.mono fun _ h => h.toPPartial, ?_⟩
      show Tot (after N (c + 1) >>= sieve N) _
      exact Tot.bind ih.2 fun f h => sieve_tot hN h.toPPartial
  obtain ⟨pf, e, hf⟩ := (key c).2
  refine ⟨pf, e, fun p hp => isPrime_eq hN hf hp, fun n h1 h2 => primeFactor_tot hN hf h1 h2, ?_, ?_⟩
  · intro n h1 h2
    obtain ⟨l, e, h⟩ := factorize_tot hN hf h1 h2
    exact ⟨l, e, h.nodup, h.prime, h.prod⟩
  · intro n h1 h2
    obtain ⟨r, e, D, rfl, hnd, hD⟩ := divisors_tot hN hf h1 h2
    refine ⟨_, e, ?_, ?_⟩
    · simp only [NumberUtil.castA]
      exact hnd.map fun a b h => by exact_mod_cast h
    · intro x
      simp only [NumberUtil.castA, List.mem_map]
      constructor
      · rintro ⟨y, hy, rfl⟩
        have := (hD y).1 hy
        exact ⟨by have := Nat.pos_of_dvd_of_pos this h1; omega, by exact_mod_cast this⟩
      · rintro ⟨hx, hd⟩
        obtain ⟨y, rfl⟩ := Int.eq_ofNat_of_zero_le hx.le
        exact ⟨y, (hD y).2 (by exact_mod_cast hd), rfl⟩

/-- **C111**, arguments outside of `[1, N]` fail the assertion of `factorize` and `divisors`. -/
theorem sieve_range (N n : Nat) (pf : Array Nat) (h : n = 0 ∨ N < n) : factorize N pf n = .error .assertion ∧ divisors N pf n = .error .assertion := by
  unfold factorize divisors
  rw [decide_eq_false (by omega), check_false, err_bind, err_bind]
  exact ⟨rfl, rfl⟩

/-- **Finding.** In `Sieve<2^29 - 1>` the size of the table is computed as `2^32` modulo `2^32`: it has eight entries, and
`is_prime(31)` reads out of bounds. -/
theorem sieve_large : baseMax (2 ^ 29 - 1) = 0 ∧ isPrime (pfZero (2 ^ 29 - 1)) 31 = .error .ub ∧ 31 ≤ 2 ^ 29 - 1 := by
  refine ⟨by decide, ?_, by norm_num⟩
  unfold isPrime
  rw [if_neg (by norm_num), show residueIndex (31 % 30) = some 0 from rfl]
  dsimp only
  rw [rd_ub (by unfold pfZero; rw [Array.size_replicate, show baseMax (2 ^ 29 - 1) = 0 by decide]), err_bind]

example : (simpleAfter 61 1 >>= fun f => primeList 61 f 60) = .ok [2, 3, 5, 7, 11, 13, 17, 19, 23, 29, 31, 37, 41, 43, 47, 53, 59] := by decide +kernel
example : (simpleAfter 61 2 >>= fun f => simpleIsPrime f 49) = .ok false := by decide +kernel
example : (after 100 1 >>= fun f => factorize 100 f 77) = .ok [(7, 1), (11, 1)] := by decide +kernel
example : (after 100 1 >>= fun f => divisors 100 f 45) = .ok #[1, 3, 9, 5, 15, 45] := by decide +kernel

end WheelSieve
