import Verif.Proof.FastFactorize2
import Verif.Props.WheelSieve
import Verif.Props.MillerRabin

/-! # Factorisation: property C113 -/

namespace FastFactorize
open Cxx

theorem pexact_of_after {N c : Nat} (hN : N + 1 < 2 ^ 29) {pf : Array Nat} (h : WheelSieve.after N (c + 1) = .ok pf) : WheelSieve.PExact N pf := by
  have key : ∀ c, Tot (WheelSieve.after N c) (WheelSieve.PPartial (WheelSieve.baseMax N)) ∧ Tot (WheelSieve.after N (c + 1)) (WheelSieve.PExact N) := by
    intro c
    induction c with
    | zero =>
      have h0 := WheelSieve.pfZero_partial N
      exact ⟨Tot.pure h0, Tot.bind (P := WheelSieve.PPartial (WheelSieve.baseMax N)) (Tot.pure h0) fun _ h => WheelSieve.sieve_tot hN h⟩
    | succ c ih =>
      refine ⟨ih.2.mono fun _ h => h.toPPartial, ?_⟩
      show Tot (WheelSieve.after N (c + 1) >>= WheelSieve.sieve N) _
      exact Tot.bind ih.2 fun f h => WheelSieve.sieve_tot hN h.toPPartial
  obtain ⟨pf', e, hf⟩ := (key c).2
  rw [h] at e
  injection e with e
  exact e ▸ hf

theorem factorize_general {prm : Nat → M Bool} (hprm : Accepts prm) (rnd : Nat → List Nat) {pf : Array Nat} {c : Nat}
    (hpf : WheelSieve.after 1000000 (c + 1) = .ok pf) {n : Nat} (hn : 0 < n) (hb : n < 2 ^ 63) :
    ∃ o, factorize prm rnd pf n = .ok o ∧ (∀ l, o = some l → Fac prm n l) ∧ (n ≤ 1000000 → o ≠ none) := by
  by_cases hs : n ≤ 1000000
  · obtain ⟨o, e, l, rfl, h⟩ := small_tot hprm rnd (pexact_of_after (by norm_num) hpf) hn hs
    refine ⟨_, e, fun l' hl => ?_, fun _ => by simp⟩
    obtain rfl := Option.some.inj hl
    exact h
  · obtain ⟨o, e, h⟩ := large_tot hprm rnd hn hb
    refine ⟨o, ?_, h, fun h => absurd h hs⟩
    unfold factorize
    rw [if_neg (by omega)]
    exact e

/-- **C113** (the primality test by contract). For every `long long` `n >= 1` and whatever random constants are drawn, `factorize(n)` has no
overflow, out-of-range access or failed assertion, and each of its searches ends; it lists every prime factor of `n` once, with its exponent,
unless Pollard's method keeps drawing constants for ever (`none`: all constants supplied by `rnd` have been used up), which cannot happen for
`n <= 10^6`. -/
theorem factorize_correct (prm : Nat → M Bool) (hprm : ∀ m < 2 ^ 63, prm m = .ok (decide m.Prime)) (rnd : Nat → List Nat) (pf : Array Nat) (c : Nat)
    (hpf : WheelSieve.after 1000000 (c + 1) = .ok pf) (n : Nat) (hn : 0 < n) (hb : n < 2 ^ 63) :
    ∃ o, factorize prm rnd pf n = .ok o ∧ (n ≤ 1000000 → o ≠ none) ∧ ∀ l, o = some l →
      (l.map Prod.fst).Nodup ∧ (∀ x ∈ l, x.1.Prime ∧ 0 < x.2) ∧ (l.map fun x => x.1 ^ x.2).prod = n := by
  obtain ⟨o, e, h1, h2⟩ := factorize_general (prm := prm) (fun m hm => ⟨_, hprm m hm, fun h => by simpa using h⟩) rnd hpf hn hb
  refine ⟨o, e, h2, fun l hl => ?_⟩
  obtain ⟨h3, h4, h5⟩ := h1 l hl
  refine ⟨h3, fun x hx => ?_, h5⟩
  obtain ⟨h6, h7, h8⟩ := h4 x hx
  refine ⟨?_, h8⟩
  have hd : x.1 ∣ n := by
    rw [← h5]
    exact (dvd_pow_self _ (by omega)).trans (List.dvd_prod (List.mem_map.2 ⟨x, hx, rfl⟩))
  have := Nat.le_of_dvd hn hd
  rw [hprm x.1 (by omega)] at h7
  simpa using h7

/-- **C113** with the library's own primality test, without any assumption on it: the factors are distinct, accepted by `is_prime`, and
multiply to `n`. -/
theorem factorize_own (rnd : Nat → List Nat) (pf : Array Nat) (c : Nat) (hpf : WheelSieve.after 1000000 (c + 1) = .ok pf) (n : Nat) (hn : 0 < n)
    (hb : n < 2 ^ 63) : ∃ o, factorize MillerRabin.isPrime rnd pf n = .ok o ∧ (n ≤ 1000000 → o ≠ none) ∧ ∀ l, o = some l →
      (l.map Prod.fst).Nodup ∧ (∀ x ∈ l, 1 < x.1 ∧ MillerRabin.isPrime x.1 = .ok true ∧ 0 < x.2) ∧ (l.map fun x => x.1 ^ x.2).prod = n := by
  have hacc : Accepts MillerRabin.isPrime := by
    intro m hm
    obtain ⟨b, e, h, -⟩ := MillerRabin.isPrime_partial m hm
    exact ⟨b, e, h⟩
  obtain ⟨o, e, h1, h2⟩ := factorize_general hacc rnd hpf hn hb
  exact ⟨o, e, h2, fun l hl => ⟨(h1 l hl).nodup, (h1 l hl).acc, (h1 l hl).prod⟩⟩

/-- **Finding.** The assertion against `n <= 0` is made after the conversion to `unsigned int`: `factorize(n - 2^32)` returns the factors of
`n` for `1 <= n <= 10^6`, although its argument is negative. -/
theorem factorize_negative (prm : Nat → M Bool) (rnd : Nat → List Nat) (pf : Array Nat) (n : Nat) (hn : 0 < n) (hb : n ≤ 1000000) :
    factorize prm rnd pf ((n : Int) - 2 ^ 32) = factorize prm rnd pf n := by
  unfold factorize
  rw [if_pos (by omega), if_pos (by omega), show Int.toNat (((n : Int) - 2 ^ 32) % (2 : Int) ^ 32) = Int.toNat ((n : Int) % (2 : Int) ^ 32) by omega]

/-- The hypotheses are met: a sieve object always exists, and the constants may be any lists. -/
example : ∃ pf, WheelSieve.after 1000000 1 = .ok pf := by
  obtain ⟨pf, e, -⟩ := WheelSieve.sieve_correct 1000000 0 (by norm_num)
  exact ⟨pf, e⟩

example : pollard MillerRabin.isPrime [1] (101 * 103) = .ok (some 101) := by decide +kernel
example : large MillerRabin.isPrime (fun _ => [1]) (1009 * 1013 * 1013 * 12) = .ok (some [(2, 2), (3, 1), (1013, 2), (1009, 1)]) := by decide +kernel

end FastFactorize
