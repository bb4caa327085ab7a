import Verif.Proof.ModArith
import Mathlib.NumberTheory.LucasLehmer
import Mathlib.FieldTheory.Finite.Basic

/-! # Modular arithmetic: properties C23, C24, C25, C26 -/

namespace Barrett
open Cxx

/-- **C23.** For every modulus `1 ≤ M ≤ 2^31` and every 64-bit `x`, `quorem(x)` is the exact quotient and remainder. -/
theorem barrett_correct (m x : Nat) (hm : 1 ≤ m) (hm' : m ≤ 2 ^ 31) (hx : x < 2 ^ 64) : quorem true m x = (x / m, x % m) :=
  quorem_eq hm (Or.inl rfl) hm' hx

/-- **C23**, template argument `care_M1 = false`: needs `M ≠ 1`. -/
theorem barrett_correct_careless (m x : Nat) (hm : 2 ≤ m) (hm' : m ≤ 2 ^ 31) (hx : x < 2 ^ 64) : quorem false m x = (x / m, x % m) :=
  quorem_eq (by omega) (Or.inr hm) hm' hx

/-- **C23**, `mul(a, b)` is the product modulo `M` for all 32-bit operands. -/
theorem barrett_mul_correct (m a b : Nat) (hm : 1 ≤ m) (hm' : m ≤ 2 ^ 31) (ha : a < 2 ^ 32) (hb : b < 2 ^ 32) : mul true m a b = a * b % m := by
  have : a * b < 2 ^ 64 := by
    have := Nat.mul_le_mul (show a ≤ 2 ^ 32 - 1 by omega) (show b ≤ 2 ^ 32 - 1 by omega)
    omega
  unfold mul
  rw [barrett_correct m _ hm hm' this]

/-- **Finding.** The constructor accepts larger moduli, but for every `M > 2^31` the result for `x = 2^31` is wrong. -/
theorem barrett_large_wrong (m : Nat) (hm : 2 ^ 31 < m) (hm' : m < 2 ^ 32) : quorem true m (2 ^ 31) ≠ (2 ^ 31 / m, 2 ^ 31 % m) := by
  intro e
  have h1 := quo_wrong hm hm' true
  rw [e] at h1
  have h2 : 2 ^ 31 / m = 0 := Nat.div_eq_of_lt hm
  simp only [h2] at h1
  omega

example : quorem true 998244353 (2 ^ 64 - 1) = ((2 ^ 64 - 1) / 998244353, (2 ^ 64 - 1) % 998244353) := by decide

end Barrett

namespace Montgomery
open Cxx

/-- The residue a Montgomery representative stands for. -/
def val (w : Nat) (s : State) (a : Nat) : Nat := reduce w s a

/-- Everything **C24** says about one object, except subtraction. -/
structure Arith (w n : Nat) (s : State) : Prop where
  /-- `reduce(make(t)) = t mod N` -/
  make : ∀ t < 2 ^ w, toMont w s t < n ∧ val w s (toMont w s t) = t % n
  /-- addition -/
  add : ∀ a < n, ∀ b < n, add w s a b < n ∧ val w s (add w s a b) = (val w s a + val w s b) % n
  /-- multiplication -/
  mul : ∀ a < n, ∀ b < n, mul w s a b < n ∧ val w s (mul w s a b) = val w s a * val w s b % n
  /-- powers -/
  pow : ∀ a < n, ∀ b, ∃ r, pow w s a b = .ok r ∧ r < n ∧ val w s r = val w s a ^ b % n
  /-- subtraction when no borrow is needed -/
  sub : ∀ a < n, ∀ b ≤ a, sub w s a b < n ∧ (val w s (sub w s a b) + val w s b) % n = val w s a

theorem val_lt {w : Nat} {s : State} (h : Good w s) {a : Nat} (ha : a < s.n) : val w s a < s.n := (reduce_spec h (lt_RN h ha)).1
theorem val_mod {w : Nat} {s : State} (h : Good w s) {a : Nat} (ha : a < s.n) : val w s a * 2 ^ w ≡ a [MOD s.n] := (reduce_spec h (lt_RN h ha)).2

theorem val_of {w : Nat} {s : State} (h : Good w s) {a v : Nat} (ha : a < s.n) (e : v * 2 ^ w ≡ a [MOD s.n]) : val w s a = v % s.n := by
  have : val w s a ≡ v [MOD s.n] := cancel_R h ((val_mod h ha).trans e.symm)
  rw [Nat.ModEq, Nat.mod_eq_of_lt (val_lt h ha)] at this
  exact this

theorem mul_val {w : Nat} {s : State} (h : Good w s) {a b : Nat} (ha : a < s.n) (hb : b < s.n) :
    mul w s a b < s.n ∧ val w s (mul w s a b) = val w s a * val w s b % s.n := by
  have hlt := h.lt
  obtain ⟨m1, m2⟩ := mul_spec h (show a < 2 ^ w by omega) hb
  refine ⟨m1, val_of h m1 (cancel_R h (m2.trans ?_).symm)⟩
  have := (val_mod h ha).mul (val_mod h hb)
  refine this.symm.trans ?_
  rw [show val w s a * 2 ^ w * (val w s b * 2 ^ w) = val w s a * val w s b * 2 ^ w * 2 ^ w by ring]

/-- **C24** (partial: `N < R / 2`, and `sub` only for `A >= B`; the rest does not hold, see below). The object can be constructed for every odd
`N` below `2 ^ (w - 1)`, and `make`, `reduce`, `add`, `mul`, `pow` are the arithmetic of integers modulo `N`. -/
theorem montgomery_partial (w n : Nat) (hn : n % 2 = 1) (hw : 2 * n < 2 ^ w) : ∃ s, make w n = .ok s ∧ Arith w n s := by
  obtain ⟨s, e, rfl, h⟩ := make_tot hn hw
  refine ⟨s, e, ⟨fun t ht => ?_, fun a ha b hb => ?_, fun a ha b hb => mul_val h ha hb, fun a ha b => ?_, fun a ha b hb => ?_⟩⟩
  · obtain ⟨h1, h2⟩ := toMont_spec h ht
    exact ⟨h1, val_of h h1 h2.symm⟩
  · have hlt := h.lt
    have hadd : add w s a b < s.n ∧ add w s a b ≡ a + b [MOD s.n] := by
      unfold add
      rw [Nat.mod_eq_of_lt (show a + b < 2 ^ w by omega)]
      by_cases c : a + b ≥ s.n
      · simp only [c, if_true]
        refine ⟨by omega, ?_⟩
        conv_rhs => rw [show a + b = a + b - s.n + s.n by omega]
        simp [Nat.ModEq]
      · simp only [c, if_false]
        exact ⟨by omega, rfl⟩
    refine ⟨hadd.1, val_of h hadd.1 ?_⟩
    rw [Nat.add_mul]
    exact ((val_mod h ha).add (val_mod h hb)).trans hadd.2.symm
  · have h1 : 1 < 2 ^ w := by have := h.lt; have := h.odd; omega
    obtain ⟨m1, m2⟩ := toMont_spec h h1
    have := Powi.powi_tot (mul := fun x y => .ok (mul w s x y)) (one := toMont w s 1) (a := a)
      (fun t k => t < s.n ∧ val w s t = val w s a ^ k % s.n) ⟨m1, by rw [val_of h m1 m2.symm, pow_zero]⟩
      ⟨ha, by rw [pow_one, Nat.mod_eq_of_lt (val_lt h ha)]⟩
      b (fun x y i j _ hx hy => by
        obtain ⟨q1, q2⟩ := mul_val h hx.1 hy.1
        refine Tot.pure ⟨q1, ?_⟩
        rw [q2, hx.2, hy.2, ← Nat.mul_mod, pow_add])
    exact this
  · have hlt := h.lt
    have e : sub w s a b = a - b := by
      unfold sub
      rw [show a + 2 ^ w - b = a - b + 2 ^ w by omega, Nat.add_mod_right, Nat.mod_eq_of_lt (by omega)]
    rw [e]
    refine ⟨by omega, ?_⟩
    have h1 := (val_mod h (show a - b < s.n by omega)).add (val_mod h (show b < s.n by omega))
    rw [show a - b + b = a by omega, ← Nat.add_mul] at h1
    have := cancel_R h (h1.trans (val_mod h ha).symm)
    rw [Nat.ModEq, Nat.mod_eq_of_lt (val_lt h ha)] at this
    exact this

/-- **Finding.** `sub` never adds `N`: whenever a borrow is needed the result is not a representative (it is not below `N`), and it is not even
congruent to the difference unless `N = 1`. -/
theorem montgomery_sub_wrong (w n : Nat) (hn : n % 2 = 1) (hw : 2 * n < 2 ^ w) (h1 : 1 < n) :
    ∃ s, make w n = .ok s ∧ ∀ a b, a < b → b < n → ¬ sub w s a b < n ∧ ¬ (sub w s a b + b ≡ a [MOD n]) := by
  obtain ⟨s, e, rfl, h⟩ := make_tot hn hw
  refine ⟨s, e, fun a b hab hb => ?_⟩
  have e : sub w s a b = a + 2 ^ w - b := by
    unfold sub
    rw [Nat.mod_eq_of_lt (by omega)]
  rw [e]
  refine ⟨by omega, fun hc => ?_⟩
  rw [show a + 2 ^ w - b + b = a + 2 ^ w by omega] at hc
  have : 2 ^ w ≡ 0 [MOD s.n] := Nat.ModEq.add_left_cancel' a hc
  have hd := (Nat.modEq_zero_iff_dvd).1 this
  have := Nat.Coprime.eq_one_of_dvd (coprime_R h) hd
  omega

/-- **Finding.** For `N` above `R / 2` the sums of `add` and `reduce` overflow: with `N = 2^32 - 1`, `(N - 1) + (N - 1)` is wrong. -/
theorem montgomery_large_wrong : ∃ s, make 32 (2 ^ 32 - 1) = .ok s ∧ ∃ a < s.n, ∃ b < s.n, add 32 s a b % s.n ≠ (a + b) % s.n := by
  refine ⟨⟨2 ^ 32 - 1, 1, 1⟩, by decide, 2 ^ 32 - 2, by decide, 2 ^ 32 - 2, by decide, by decide⟩

/-- **Finding.** Also the product is wrong there: `N = 2^32 - 1`, the product of the representatives of 2 and of `(N + 1) / 2` is not the one of 1. -/
theorem montgomery_large_mul_wrong : ∃ s, make 32 (2 ^ 32 - 5) = .ok s ∧ ∃ a < s.n, ∃ b < s.n, mul 32 s a b * 2 ^ 32 % s.n ≠ a * b % s.n := by
  refine ⟨⟨2 ^ 32 - 5, 3435973837, 25⟩, by decide, 2 ^ 32 - 6, by decide, 2 ^ 32 - 6, by decide, by decide⟩

example : (998244353 % 2 = 1) ∧ 2 * 998244353 < 2 ^ 32 ∧ ∃ s, make 32 998244353 = .ok s ∧ val 32 s (mul 32 s (toMont 32 s 3) (toMont 32 s 5)) = 15 := by
  refine ⟨by decide, by decide, ⟨998244353, 998244351, 932051910⟩, by decide, by decide⟩

end Montgomery

namespace Modint61
open Cxx

/-- `2^61 - 1` is prime. -/
theorem md_prime : Nat.Prime md := by
  have := lucas_lehmer_sufficiency 61 (by norm_num) (by norm_num)
  exact this

/-- **C25.** All operations on reduced values, under 64-bit wrap-around arithmetic, return the reduced residue of the exact result. -/
theorem modint61_correct (a b : Nat) (ha : a < md) (hb : b < md) :
    add a b = (a + b) % md ∧ ((sub a b : Int) = ((a : Int) - b) % md) ∧ mul a b = a * b % md := by
  refine ⟨add_eq ha hb, ?_, mul_eq ha hb⟩
  rw [sub_eq ha hb]
  push_cast
  rw [Nat.cast_sub (by omega)]
  push_cast
  rw [show (a : Int) + md - b = a - b + md by ring, Int.add_emod_right]

/-- **C25**, construction from any 64-bit value. -/
theorem modint61_make (v : Nat) (hv : v < 2 ^ 64) : fastMod v = v % md := fastMod_eq hv

/-- **C25**, powers. -/
theorem modint61_pow (a : Nat) (ha : a < md) (b : Nat) : pow a b = .ok (a ^ b % md) := pow_eq ha b

/-- **C25**, inverses. -/
theorem modint61_inv (a : Nat) (ha : a < md) (h0 : a ≠ 0) : ∃ r, inv a = .ok r ∧ r < md ∧ mul a r = 1 := by
  refine ⟨_, inv_eq ha, Nat.mod_lt _ md_pos, ?_⟩
  rw [mul_eq ha (Nat.mod_lt _ md_pos), Nat.mul_mod_mod, ← pow_succ']
  have hc : Nat.Coprime a md := by
    rw [Nat.coprime_comm]
    exact (Nat.Prime.coprime_iff_not_dvd md_prime).2 (Nat.not_dvd_of_pos_of_lt (by omega) ha)
  have := Nat.ModEq.pow_totient hc
  rw [Nat.totient_prime md_prime] at this
  rw [show md - 2 + 1 = md - 1 by rfl]
  rw [Nat.ModEq] at this
  rw [this]
  rfl

example : mul (2 ^ 60) (2 ^ 60 + 5) = 2 ^ 60 * (2 ^ 60 + 5) % (2 ^ 61 - 1) := by decide

end Modint61

namespace Powi
open Cxx

/-- **C26.** In every monoid `powi(a, b)` is `a ^ b`. -/
theorem powi_correct {T : Type} [Monoid T] (a : T) (b : Nat) : powi (fun x y => .ok (x * y)) 1 a b = .ok (a ^ b) := by
  rw [← tot_eq]
  refine powi_tot (fun t k => t = a ^ k) (pow_zero a).symm (pow_one a).symm b ?_
  rintro x y i j - rfl rfl
  exact Tot.pure (pow_add a i j).symm

/-- **C26** for a signed type: if every square the loop computes fits, i.e. `|a| ^ (2 * b) < 2 ^ 63`, there is no overflow and the result is `a ^ b`. -/
theorem powi_i64 (a : Int) (b : Nat) (ha : |a| ^ (2 * b) < 2 ^ 63) : powi (fun x y => i64 (x * y)) 1 a b = .ok (a ^ b) := by
  have key : ∀ k ≤ 2 * b, |a ^ k| < 2 ^ 63 := by
    intro k hk
    rw [abs_pow]
    rcases eq_or_ne a 0 with rfl | h0
    · have : |(0 : Int)| ^ k ≤ 1 := pow_le_one₀ (abs_nonneg _) (by norm_num)
      omega
    · exact lt_of_le_of_lt (pow_le_pow_right₀ (Int.one_le_abs h0) hk) ha
  rw [← tot_eq]
  refine powi_tot (fun t k => t = a ^ k) (pow_zero a).symm (pow_one a).symm b ?_
  rintro x y i j hij rfl rfl
  have h3 := key (i + j) hij
  rw [← pow_add]
  rw [abs_lt] at h3
  exact ⟨_, i64_ok ⟨by omega, by omega⟩, rfl⟩

/-- **Finding.** The loop also computes the square that is not used any more, so the signed overflow is undefined although the result is
representable: `powi<long long>(2^32, 1)`. -/
theorem powi_unused_square : powi (fun x y => i64 (x * y)) 1 (2 ^ 32) 1 = .error .ub := by decide

example : powi (fun x y => i64 (x * y)) 1 (-3) 13 = .ok (-1594323) := by decide

end Powi
