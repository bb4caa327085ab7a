import Verif.Proof.ModSqrtPower
import Verif.Proof.MillerRabin

/-!
# Properties of square roots modulo a number (`library/number/mod_sqrt.hpp`)

`atcoder::inv_mod` and `atcoder::crt` enter by their contracts `InvSpec` and `CrtSpec`.
-/

namespace ModSqrt
open Cxx

/-! ## The contracts are satisfiable -/

/-- An inverse by Bezout. -/
def exInv (a m : Int) : Int := Int.gcdA a m % m

theorem exInv_spec : InvSpec exInv := by
  intro a m hm hc
  unfold exInv
  refine ⟨Int.emod_nonneg _ (by omega), Int.emod_lt_of_pos _ (by omega), ?_⟩
  have hg : Int.gcd a m = 1 := Int.isCoprime_iff_gcd_eq_one.mp hc
  have hb := Int.gcd_eq_gcd_ab a m
  rw [hg] at hb
  have e := Int.emod_add_mul_ediv (Int.gcdA a m) m
  refine ⟨-(Int.gcdB a m) - a * (Int.gcdA a m / m), ?_⟩
  push_cast at hb
  linear_combination a * e - hb

theorem exists_crt : ∃ crt, CrtSpec crt := by
  classical
  have main : ∀ ms rs : List Int, (∀ m ∈ ms, 1 ≤ m) → ms.Pairwise IsCoprime → rs.length = ms.length →
      ∃ x : Int, 0 ≤ x ∧ x < ms.prod ∧ List.Forall₂ (fun r m => m ∣ x - r) rs ms := by
    intro ms
    induction ms with
    | nil =>
      intro rs _ _ h
      obtain rfl := List.length_eq_zero_iff.mp h
      exact ⟨0, le_refl _, by simp, List.Forall₂.nil⟩
    | cons m ms ih =>
      intro rs h1 h2 h3
      obtain ⟨r, rs, rfl⟩ : ∃ r rs', rs = r :: rs' := by
        cases rs with
        | nil => simp at h3
        | cons r rs => exact ⟨r, rs, rfl⟩
      rw [List.pairwise_cons] at h2
      obtain ⟨x, -, -, hx⟩ := ih rs (fun z hz => h1 z (List.mem_cons_of_mem _ hz)) h2.2 (by simpa using h3)
      have hcop : ∀ L : List Int, (∀ z ∈ L, IsCoprime m z) → IsCoprime m L.prod := by
        intro L
        induction L with
        | nil =>
          intro _
          exact isCoprime_one_right
        | cons b L ihL =>
          intro hL
          rw [List.prod_cons]
          exact IsCoprime.mul_right (hL b List.mem_cons_self) (ihL fun z hz => hL z (List.mem_cons_of_mem _ hz))
      have hpos : ∀ L : List Int, (∀ z ∈ L, 1 ≤ z) → 0 < L.prod := by
        intro L hL
        exact List.prod_pos fun z hz => by have := hL z hz; omega
      obtain ⟨u, v, huv⟩ := hcop ms h2.1
      have hP := hpos (m :: ms) h1
      rw [List.prod_cons] at hP ⊢
      obtain ⟨y, hy⟩ : ∃ y, y = (r * (v * ms.prod) + x * (u * m)) % (m * ms.prod) := ⟨_, rfl⟩
      have hyd : m * ms.prod ∣ y - (r * (v * ms.prod) + x * (u * m)) := by
        rw [hy]
        exact (Int.mod_modEq _ _).symm.dvd
      refine ⟨y, by rw [hy]; exact Int.emod_nonneg _ (by omega), by rw [hy]; exact Int.emod_lt_of_pos _ hP, List.Forall₂.cons ?_ ?_⟩
      · obtain ⟨k, hk⟩ := hyd
        exact ⟨ms.prod * k + x * u - r * u, by linear_combination hk + r * huv⟩
      · have hall : ms.prod ∣ y - x := by
          obtain ⟨k, hk⟩ := hyd
          exact ⟨m * k + r * v - x * v, by linear_combination hk + x * huv⟩
        have : ∀ (rs L : List Int), (∀ z ∈ L, z ∣ y - x) → List.Forall₂ (fun r z => z ∣ x - r) rs L → List.Forall₂ (fun r z => z ∣ y - r) rs L := by
          intro rs L hL h
          induction h with
          | nil => exact List.Forall₂.nil
          | cons hd _ ih2 =>
            refine List.Forall₂.cons ?_ (ih2 fun z hz => hL z (List.mem_cons_of_mem _ hz))
            have := dvd_add (hL _ List.mem_cons_self) hd
            rwa [sub_add_sub_cancel] at this
        exact this rs ms (fun z hz => dvd_trans (List.dvd_prod hz) hall) hx
  refine ⟨fun rs ms => if h : ∃ x : Int, 0 ≤ x ∧ x < ms.prod ∧ List.Forall₂ (fun r m => m ∣ x - r) rs ms then h.choose else 0, ?_⟩
  intro rs ms h1 h2 _ h4
  have h := main ms rs h1 h2 h4
  dsimp only
  rw [dif_pos h]
  exact h.choose_spec

/-! ## C150: prime moduli -/

/-- **C150** `prime_mod_sqrt(a, p)` for a prime `p`, any sign of `a`: it ends; it returns a number `x` with `0 ≤ x < p` and `x² ≡ a (mod p)`, or nothing, and then
no square is congruent to `a`. Missing: primes congruent to 1 modulo 2^32, where the behaviour is undefined. -/
theorem prime_mod_sqrt_partial {inv : Int → Int → Int} (hinv : InvSpec inv) (a : Int) {p : Nat} (hp : p.Prime) (hp32 : p % 2 ^ 32 ≠ 1) :
    ∃ r, primeModSqrt inv a p = .ok r ∧
      (∀ x, r = some x → 0 ≤ x ∧ x < p ∧ (p : Int) ∣ x * x - a) ∧
      (r = none → ∀ y : Int, ¬ (p : Int) ∣ y * y - a) := by
  haveI : Fact p.Prime := ⟨hp⟩
  have hiff : ∀ y : Int, (p : Int) ∣ y * y - a ↔ (y : ZMod p) * y = a := by
    intro y
    rw [← ZMod.intCast_zmod_eq_zero_iff_dvd, Int.cast_sub, Int.cast_mul, sub_eq_zero]
  obtain ⟨r, h1, h2⟩ := primeModSqrt_tot hinv a hp32
  refine ⟨r, h1, ?_, ?_⟩
  · rintro x rfl
    exact ⟨h2.1, h2.2.1, (hiff x).mpr h2.2.2⟩
  · rintro rfl y hy
    exact h2 y ((hiff y).mp hy)

-- a root of 2 modulo 17, where 17 - 1 is divisible by 16
example : Nat.Prime 17 ∧ 17 % 2 ^ 32 ≠ 1 ∧ ∃ inv, InvSpec inv := ⟨by norm_num, by norm_num, exInv, exInv_spec⟩
example : primeModSqrt (fun _ _ => 9) 2 17 = .ok (some 6) := by decide +kernel
example : primeModSqrt (fun _ _ => 9) 3 17 = .ok none := by decide +kernel
example : primeModSqrt (fun _ _ => 12) (-1) 13 = .ok (some 8) := by decide +kernel

theorem prime_77309411329 : Nat.Prime 77309411329 := by
  obtain ⟨p, hp⟩ : ∃ p : Nat, p = 77309411329 := ⟨_, rfl⟩
  rw [← hp]
  have key : ∀ k : Nat, ((7 : Nat) : ZMod p) ^ k = 1 ↔ 7 ^ k % p = 1 := by
    intro k
    rw [← Nat.cast_pow, ← Nat.cast_one, ZMod.natCast_eq_natCast_iff, Nat.ModEq, Nat.mod_eq_of_lt (show 1 < p by omega)]
  refine lucas_primality p ((7 : Nat) : ZMod p) ?_ ?_
  · rw [key, hp, ← MillerRabin.powMod_eq _ (by norm_num) 64 _ _ (by norm_num)]
    decide +kernel
  · intro q hq hd
    have hf : p - 1 = 2 ^ 33 * 3 ^ 2 := by rw [hp]; norm_num
    rw [hf] at hd
    have hq' : q = 2 ∨ q = 3 := by
      rcases hq.dvd_mul.1 hd with h | h
      · exact .inl ((Nat.prime_dvd_prime_iff_eq hq Nat.prime_two).1 (hq.dvd_of_dvd_pow h))
      · exact .inr ((Nat.prime_dvd_prime_iff_eq hq Nat.prime_three).1 (hq.dvd_of_dvd_pow h))
    rw [Ne, key, hp]
    rcases hq' with rfl | rfl <;>
      (rw [← MillerRabin.powMod_eq _ (by norm_num) 64 _ _ (by norm_num)]; decide +kernel)

/-- **C150** is false as stated: for the prime 18·2^32 + 1 the code counts the trailing zeros of `p - 1` with `__builtin_ctz`, which sees only the low 32 bits, all zero. -/
theorem prime_mod_sqrt_counterexample (inv : Int → Int → Int) : Nat.Prime 77309411329 ∧ primeModSqrt inv 4 77309411329 = .error .ub := by
  refine ⟨prime_77309411329, ?_⟩
  unfold primeModSqrt
  have h1 : norm 4 77309411329 = 4 := by decide +kernel
  rw [h1]
  dsimp only
  rw [if_neg (by decide), if_neg (by decide), if_neg (by decide +kernel)]
  have h2 : loop (nonresStep 77309411329) (77309411329 : Int).toNat 1 = .ok 7 := by decide +kernel
  have h3 : ctz32 (77309411329 - 1 : Int).toNat = .error .ub := by decide +kernel
  rw [h2, ok_bind, h3]
  rfl

/-! ## C151: composite moduli -/

/-- **C151** `composite_mod_sqrt(a, factorized)` for the factorisation of `m < 2^63`: it ends; it returns a number `x` with `0 ≤ x < m` and `x² ≡ a (mod m)`, or nothing,
and then no square is congruent to `a`. Missing: negative `a` for an even modulus, primes above 2^62 and primes congruent to 1 modulo 2^32 (see the counterexamples). -/
theorem composite_mod_sqrt_partial {inv : Int → Int → Int} {crt : List Int → List Int → Int} (hinv : InvSpec inv) (hcrt : CrtSpec crt) (a : Int) {m : Nat} {l : List (Nat × Nat)}
    (hm : 0 < m) (h63 : m < 2 ^ 63) (hf : OrderMod.Factors m l) (ha : m % 2 = 0 → 0 ≤ a) (hl : ∀ f ∈ l, f.1 < 2 ^ 62 ∧ f.1 % 2 ^ 32 ≠ 1) :
    ∃ r, compositeModSqrt inv crt a l = .ok r ∧
      (∀ x, r = some x → 0 ≤ x ∧ x < m ∧ (m : Int) ∣ x * x - a) ∧
      (r = none → ∀ y : Int, ¬ (m : Int) ∣ y * y - a) := by
  obtain ⟨r, h1, h2⟩ := composite_tot hinv hcrt a hm h63 hf (by
    intro f hfl
    refine ⟨(hl f hfl).1, (hl f hfl).2, fun h => ha ?_⟩
    have hd : f.1 ^ f.2 ∣ m := by
      rw [← hf.prod]
      exact List.dvd_prod (List.mem_map.mpr ⟨f, hfl, rfl⟩)
    have h2 : 2 ∣ f.1 ^ f.2 := by
      rw [h]
      exact dvd_pow_self 2 (hf.prime f hfl).2.ne'
    have := dvd_trans h2 hd
    omega)
  refine ⟨r, h1, ?_, ?_⟩
  · rintro x rfl
    exact h2
  · rintro rfl
    exact h2

-- 1200 = 2^4 · 3 · 5^2
example : OrderMod.Factors 1200 [(2, 4), (3, 1), (5, 2)] ∧ ∀ f ∈ [((2 : Nat), (4 : Nat)), (3, 1), (5, 2)], f.1 < 2 ^ 62 ∧ f.1 % 2 ^ 32 ≠ 1 := by
  refine ⟨⟨by decide, ?_, by decide⟩, by decide⟩
  intro x hx
  fin_cases hx <;> norm_num
example : ∃ inv crt, InvSpec inv ∧ CrtSpec crt := ⟨exInv, exists_crt.choose, exInv_spec, exists_crt.choose_spec⟩
example : primePowerModSqrt (fun a _ => if a = 1 then 1 else 3) 116 5 3 = .ok (some 46) := by decide +kernel
example : primePowerModSqrt exInv 68 2 7 = .ok (some 18) := by decide +kernel
example : primePowerModSqrt exInv 24 2 5 = .ok none := by decide +kernel

/-- **C151** is false as stated: 1² ≡ -7 (mod 8), but the code answers that there is no root, since `-7 % 8` is -7. -/
theorem composite_mod_sqrt_negative_counterexample (inv : Int → Int → Int) (crt : List Int → List Int → Int) :
    OrderMod.Factors 8 [(2, 3)] ∧ (8 : Int) ∣ 1 * 1 - (-7) ∧ compositeModSqrt inv crt (-7) [(2, 3)] = .ok none := by
  refine ⟨⟨by decide, ?_, by decide⟩, by decide, rfl⟩
  intro x hx
  rw [List.mem_singleton] at hx
  subst hx
  norm_num

theorem prime_9193669807324218751 : Nat.Prime 9193669807324218751 := by
  obtain ⟨p, hp⟩ : ∃ p : Nat, p = 9193669807324218751 := ⟨_, rfl⟩
  rw [← hp]
  have key : ∀ k : Nat, ((13 : Nat) : ZMod p) ^ k = 1 ↔ 13 ^ k % p = 1 := by
    intro k
    rw [← Nat.cast_pow, ← Nat.cast_one, ZMod.natCast_eq_natCast_iff, Nat.ModEq, Nat.mod_eq_of_lt (show 1 < p by omega)]
  refine lucas_primality p ((13 : Nat) : ZMod p) ?_ ?_
  · rw [key, hp, ← MillerRabin.powMod_eq _ (by norm_num) 64 _ _ (by norm_num)]
    decide +kernel
  · intro q hq hd
    have hf : p - 1 = 2 * (3 ^ 23 * 5 ^ 11) := by rw [hp]; norm_num
    rw [hf] at hd
    have hq' : q = 2 ∨ q = 3 ∨ q = 5 := by
      rcases hq.dvd_mul.1 hd with h | h
      · exact .inl ((Nat.prime_dvd_prime_iff_eq hq Nat.prime_two).1 h)
      rcases hq.dvd_mul.1 h with h | h
      · exact .inr (.inl ((Nat.prime_dvd_prime_iff_eq hq Nat.prime_three).1 (hq.dvd_of_dvd_pow h)))
      · exact .inr (.inr ((Nat.prime_dvd_prime_iff_eq hq Nat.prime_five).1 (hq.dvd_of_dvd_pow h)))
    rw [Ne, key, hp]
    rcases hq' with rfl | rfl | rfl <;>
      (rw [← MillerRabin.powMod_eq _ (by norm_num) 64 _ _ (by norm_num)]; decide +kernel)

/-- A prime modulus above 2^62 (and below 2^63): the product `2 * x` leaves the range of `long long`. -/
theorem composite_mod_sqrt_overflow_counterexample (crt : List Int → List Int → Int) :
    OrderMod.Factors 9193669807324218751 [(9193669807324218751, 1)] ∧ 9193669807324218751 < 2 ^ 63 ∧ compositeModSqrt exInv crt 2 [(9193669807324218751, 1)] = .error .ub := by
  refine ⟨⟨by decide, ?_, by decide +kernel⟩, by norm_num, ?_⟩
  · intro x hx
    rw [List.mem_singleton] at hx
    subst hx
    exact ⟨prime_9193669807324218751, by norm_num⟩
  · have h : primePowerModSqrt exInv 2 9193669807324218751 1 = .error .ub := by decide +kernel
    unfold compositeModSqrt forEach
    unfold compositeStep
    dsimp only [Nat.cast_ofNat]
    rw [h]
    rfl

end ModSqrt
