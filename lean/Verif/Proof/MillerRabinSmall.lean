import Verif.Proof.MillerRabin

/-!
# Miller–Rabin below 341531

Every composite number below 341531 without factors 2, 3, 5, 7 fails the Fermat test to the tabulated base, except for 31 numbers, and these
fail the program's own test. The products `p * q` with `p <= q` are gone through by the kernel.
-/

namespace MillerRabin
open Cxx

/-- The base used below 341531. -/
def base1 : Nat := 9345883071009581737

/-- The composite numbers that pass the Fermat test to `base1`. -/
def exc : List Nat := [451, 481, 13981, 18721, 29341, 30889, 45551, 46657, 49051, 60701, 68101, 70129, 75361, 81631, 91001, 92833, 102173, 115921, 122221,
  145351, 162401, 218791, 252601, 252883, 294409, 304057, 314821, 319507, 326233, 334153, 340561]

theorem exc_rejected : ∀ n ∈ exc, isPrime n = .ok false := by decide +kernel

/-- `base1 ^ (n - 1) % n`. -/
def pw (n : Nat) : Nat := ((base1 % n) ^ ((n - 1) / 512) % n) ^ 512 * (base1 % n) ^ ((n - 1) % 512) % n

theorem pw_eq (n : Nat) : pw n ≡ base1 ^ (n - 1) [MOD n] := by
  unfold pw
  have h1 : ((base1 % n) ^ ((n - 1) / 512) % n) ^ 512 ≡ (base1 ^ ((n - 1) / 512)) ^ 512 [MOD n] :=
    ((Nat.mod_modEq _ _).trans ((Nat.mod_modEq base1 n).pow _)).pow _
  have h2 : (base1 % n) ^ ((n - 1) % 512) ≡ base1 ^ ((n - 1) % 512) [MOD n] := (Nat.mod_modEq base1 n).pow _
  refine (Nat.mod_modEq _ _).trans ((h1.mul h2).trans ?_)
  rw [← pow_mul, ← pow_add, Nat.mul_comm, Nat.div_add_mod]

/-- `n` fails the Fermat test or is one of the exceptions. -/
def fine (n : Nat) : Bool := (Bool.not (Nat.beq (pw n) 1) && Bool.not (Nat.beq (base1 % n) 0)) || exc.elem n

/-- The products of `p` with `p, p + 2, ...`. -/
def row (p : Nat) : Nat → Bool
  | 0 => true
  | k + 1 => (Nat.blt 1 (Nat.gcd (p + 2 * k) 210) || fine (p * (p + 2 * k))) && row p k

/-- The rows of `c, c + 2, ...`. -/
def rows (c : Nat) : Nat → Bool
  | 0 => true
  | k + 1 => (Nat.blt 1 (Nat.gcd (c + 2 * k) 210) || row (c + 2 * k) ((341530 / (c + 2 * k) - (c + 2 * k)) / 2 + 1)) && rows c k

theorem row_spec {p : Nat} : ∀ {k : Nat}, row p k = true → ∀ i < k, Nat.gcd (p + 2 * i) 210 ≤ 1 → fine (p * (p + 2 * i)) = true
  | 0, _, i, hi, _ => by omega
  | k + 1, h, i, hi, hg => by
    rw [row, Bool.and_eq_true, Bool.or_eq_true] at h
    by_cases hik : i = k
    · subst hik
      rcases h.1 with h1 | h1
      · rw [Nat.blt_eq] at h1
        omega
      · exact h1
    · exact row_spec h.2 i (by omega) hg

theorem rows_spec {c : Nat} : ∀ {k : Nat}, rows c k = true → ∀ i < k, Nat.gcd (c + 2 * i) 210 ≤ 1 →
    row (c + 2 * i) ((341530 / (c + 2 * i) - (c + 2 * i)) / 2 + 1) = true
  | 0, _, i, hi, _ => by omega
  | k + 1, h, i, hi, hg => by
    rw [rows, Bool.and_eq_true, Bool.or_eq_true] at h
    by_cases hik : i = k
    · subst hik
      rcases h.1 with h1 | h1
      · rw [Nat.blt_eq] at h1
        omega
      · exact h1
    · exact rows_spec h.2 i (by omega) hg

set_option maxRecDepth 1000000 in
theorem row11 : row 11 15519 = true := by decide +kernel
set_option maxRecDepth 1000000 in
theorem row13 : row 13 13130 = true := by decide +kernel
set_option maxRecDepth 1000000 in
theorem rows17 : rows 17 6 = true := by decide +kernel
set_option maxRecDepth 1000000 in
theorem rows29 : rows 29 16 = true := by decide +kernel
set_option maxRecDepth 1000000 in
theorem rows61 : rows 61 70 = true := by decide +kernel
set_option maxRecDepth 1000000 in
theorem rows201 : rows 201 193 = true := by decide +kernel

theorem row_all {p : Nat} (h1 : 11 ≤ p) (h2 : p < 587) (ho : p % 2 = 1) (hg : Nat.gcd p 210 ≤ 1) : row p ((341530 / p - p) / 2 + 1) = true := by
  have key : ∀ {k q : Nat}, rows q k = true → q % 2 = 1 → q ≤ p → p < q + 2 * k → row p ((341530 / p - p) / 2 + 1) = true := by
    intro k q h hq hle hlt
    have := rows_spec h ((p - q) / 2) (by omega)
    rw [show q + 2 * ((p - q) / 2) = p by omega] at this
    exact this hg
  rcases Nat.lt_or_ge p 13 with h | h
  · have : p = 11 := by omega
    subst this
    exact row11
  rcases Nat.lt_or_ge p 15 with h | h
  · have : p = 13 := by omega
    subst this
    exact row13
  rcases Nat.lt_or_ge p 17 with h | h
  · have : p = 15 := by omega
    subst this
    exact absurd hg (by decide)
  rcases Nat.lt_or_ge p 29 with h | h
  · exact key rows17 rfl (by omega) (by omega)
  rcases Nat.lt_or_ge p 61 with h | h
  · exact key rows29 rfl (by omega) (by omega)
  rcases Nat.lt_or_ge p 201 with h | h
  · exact key rows61 rfl (by omega) (by omega)
  · exact key rows201 rfl (by omega) (by omega)

theorem gcd210 {n : Nat} (h2 : n % 2 ≠ 0) (h3 : n % 3 ≠ 0) (h5 : n % 5 ≠ 0) (h7 : n % 7 ≠ 0) : Nat.gcd n 210 ≤ 1 := by
  by_contra h
  obtain ⟨p, hp, hd⟩ := Nat.exists_prime_and_dvd (show Nat.gcd n 210 ≠ 1 by omega)
  have h1 : p ∣ n := hd.trans (Nat.gcd_dvd_left _ _)
  have h4 : p ∣ 2 * (3 * (5 * 7)) := hd.trans (Nat.gcd_dvd_right _ _)
  rcases hp.dvd_mul.1 h4 with h | h
  · rw [(Nat.prime_dvd_prime_iff_eq hp Nat.prime_two).1 h] at h1; exact h2 (Nat.mod_eq_zero_of_dvd h1)
  rcases hp.dvd_mul.1 h with h | h
  · rw [(Nat.prime_dvd_prime_iff_eq hp Nat.prime_three).1 h] at h1; exact h3 (Nat.mod_eq_zero_of_dvd h1)
  rcases hp.dvd_mul.1 h with h | h
  · rw [(Nat.prime_dvd_prime_iff_eq hp Nat.prime_five).1 h] at h1; exact h5 (Nat.mod_eq_zero_of_dvd h1)
  · rw [(Nat.prime_dvd_prime_iff_eq hp (by norm_num)).1 h] at h1; exact h7 (Nat.mod_eq_zero_of_dvd h1)

theorem fine_of_composite {n : Nat} (hn : n < 341531) (h1 : 1 < n) (h2 : n % 2 ≠ 0) (h3 : n % 3 ≠ 0) (h5 : n % 5 ≠ 0) (h7 : n % 7 ≠ 0) (hp : ¬ n.Prime) :
    fine n = true := by
  have hsq := Nat.minFac_sq_le_self (by omega) hp
  have hpp := Nat.minFac_prime (n := n) (by omega)
  obtain ⟨p, hpe⟩ : ∃ p, p = n.minFac := ⟨_, rfl⟩
  rw [← hpe] at hsq hpp
  have hpd : p ∣ n := hpe ▸ Nat.minFac_dvd n
  obtain ⟨q, hq⟩ := hpd
  have hmod : ∀ r x, n = r * x → r % 2 ≠ 0 ∧ r % 3 ≠ 0 ∧ r % 5 ≠ 0 ∧ r % 7 ≠ 0 := by
    intro r x hr
    refine ⟨fun h => h2 ?_, fun h => h3 ?_, fun h => h5 ?_, fun h => h7 ?_⟩ <;>
      exact Nat.mod_eq_zero_of_dvd ((Nat.dvd_of_mod_eq_zero h).trans ⟨x, hr⟩)
  have hp' := hmod p q hq
  have hq' := hmod q p (by rw [hq, Nat.mul_comm])
  have hp2 := hpp.two_le
  have hp11 : 11 ≤ p := by
    by_contra h
    obtain ⟨a1, a2, a3, a4⟩ := hp'
    have h9 : p ≠ 9 := by rintro rfl; exact a2 rfl
    have h1' : p ≠ 1 := by omega
    clear hpp hsq hq hmod hq' hpe
    interval_cases p <;> omega
  have hlt : p < 587 := by
    by_contra h
    have := Nat.mul_le_mul (show 587 ≤ p by omega) (show 587 ≤ p by omega)
    rw [pow_two] at hsq
    omega
  have hpq : p ≤ q := by
    rw [pow_two, hq] at hsq
    exact Nat.le_of_mul_le_mul_left hsq (by omega)
  have hqd : q ≤ 341530 / p := (Nat.le_div_iff_mul_le (by omega)).2 (by rw [Nat.mul_comm, ← hq]; omega)
  have hr := row_all hp11 hlt (by omega) (gcd210 hp'.1 hp'.2.1 hp'.2.2.1 hp'.2.2.2)
  have := row_spec hr ((q - p) / 2) (by omega)
  rw [show p + 2 * ((q - p) / 2) = q by omega, ← hq] at this
  exact this (gcd210 hq'.1 hq'.2.1 hq'.2.2.1 hq'.2.2.2)

theorem fermat_of_strong {n s d b : Nat} (hn : n = d * 2 ^ s + 1) (h1 : 1 < n) (h : Strong n s d b) : n ∣ b ∨ b ^ (n - 1) ≡ 1 [MOD n] := by
  rcases h with h | h | ⟨r, hr, h⟩
  · exact .inl h
  · right
    rw [show n - 1 = d * 2 ^ s by omega, pow_mul]
    have := h.pow (2 ^ s)
    rwa [one_pow] at this
  · right
    rw [show n - 1 = d * 2 ^ r * 2 * 2 ^ (s - r - 1) by
      rw [Nat.mul_assoc (d * 2 ^ r), ← pow_succ', Nat.mul_assoc, ← pow_add, show r + (s - r - 1 + 1) = s by omega]; omega]
    rw [pow_mul, pow_mul]
    have hsq : (b ^ (d * 2 ^ r)) ^ 2 ≡ 1 [MOD n] := by
      obtain ⟨x, hx⟩ : ∃ x, x = b ^ (d * 2 ^ r) := ⟨_, rfl⟩
      rw [← hx] at h ⊢
      obtain ⟨c, hc⟩ := (Nat.modEq_zero_iff_dvd).1 h
      refine Nat.ModEq.symm ((Nat.modEq_iff_dvd' ?_).2 ?_)
      · have : 1 ≤ x := by
          rcases Nat.eq_zero_or_pos x with h0 | h0
          · rw [h0] at hc
            have := Nat.dvd_one.1 ⟨c, by rw [← hc]⟩
            omega
          · exact h0
        exact Nat.one_le_pow _ _ this
      · refine ⟨c * (x - 1), ?_⟩
        rw [← Nat.mul_assoc, ← hc]
        have := Nat.sq_sub_sq x 1
        rwa [one_pow] at this
    have := hsq.pow (2 ^ (s - r - 1))
    rwa [one_pow] at this

/-- Below 341531 the answer is exact. -/
theorem isPrime_small {n : Nat} (hn : n < 341531) : isPrime n = .ok (decide n.Prime) := by
  obtain ⟨r, e, h1, h2⟩ := test_tot (n := n) (by omega) (bases n)
  have e' : isPrime n = .ok r := e
  rw [e']
  congr 1
  by_cases hs : n < 121 ∨ n % 2 = 0 ∨ n % 3 = 0 ∨ n % 5 = 0 ∨ n % 7 = 0
  · rw [Bool.eq_iff_iff, h1 hs, decide_eq_true_iff]
  obtain ⟨s, d, -, hd, h⟩ := h2 hs
  rw [Bool.eq_iff_iff, decide_eq_true_iff]
  constructor
  · intro hr
    by_contra hp
    have hf := fine_of_composite hn (by omega) (by omega) (by omega) (by omega) (by omega) hp
    unfold fine at hf
    rw [Bool.or_eq_true] at hf
    rcases hf with hf | hf
    · rw [Bool.and_eq_true, Bool.not_eq_true', Bool.not_eq_true'] at hf
      have hb : base1 ∈ bases n := by
        unfold bases
        rw [if_pos hn]
        exact List.mem_singleton.2 rfl
      rcases fermat_of_strong hd (by omega) (h.1 hr base1 hb) with hx | hx
      · have := Nat.ne_of_beq_eq_false hf.2
        exact this (Nat.mod_eq_zero_of_dvd hx)
      · have h3 := Nat.ne_of_beq_eq_false hf.1
        have h4 := (pw_eq n).trans hx
        have h5 : pw n < n := Nat.mod_lt _ (by omega)
        unfold Nat.ModEq at h4
        rw [Nat.mod_eq_of_lt h5, Nat.mod_eq_of_lt (by omega)] at h4
        exact h3 h4
    · have := exc_rejected n (by simpa using hf)
      rw [e', hr] at this
      simp at this
  · intro hp
    exact h.2 fun b _ => strong_of_prime hp (by omega) b

end MillerRabin
