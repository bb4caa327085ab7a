import Verif.Model.ModSqrt
import Verif.Spec.Factors
import Mathlib.NumberTheory.LegendreSymbol.Basic
import Mathlib.RingTheory.PrincipalIdealDomain
import Mathlib.Tactic.LinearCombination
import Mathlib.Tactic.Ring

namespace ModSqrt
open Cxx

/-- The contract of `atcoder::inv_mod`. -/
def InvSpec (inv : Int → Int → Int) : Prop := ∀ a m : Int, 1 ≤ m → IsCoprime a m → 0 ≤ inv a m ∧ inv a m < m ∧ m ∣ a * inv a m - 1

/-! ## Arithmetic modulo `m` -/

theorem norm_eq (a : Int) {m : Int} (hm : 0 < m) : norm a m = a % m := by
  unfold norm
  have h1 := Int.emod_nonneg a (by omega : m ≠ 0)
  have h2 := Int.emod_lt_of_pos a hm
  have h3 : a.tmod m = a % m ∨ a.tmod m = a % m - m := by
    rw [Int.tmod_eq_emod]
    split_ifs
    · left; omega
    · right; rw [Int.natAbs_of_nonneg (by omega)]
  split_ifs <;> omega

theorem mulMod_eq {a b m : Int} (ha : 0 ≤ a) (hb : 0 ≤ b) : mulMod a b m = a * b % m := by
  unfold mulMod
  exact Int.tmod_eq_emod_of_nonneg (mul_nonneg ha hb)

theorem powGo_eq {m : Int} (hm : 1 < m) : ∀ (k b : Nat) (res pw : Int), b ≤ k → 0 ≤ res → res < m → 0 ≤ pw → powGo m k b res pw = res * pw ^ b % m := by
  intro k
  induction k with
  | zero =>
    intro b res pw hb h1 h2 h3
    unfold powGo
    have : b = 0 := by omega
    rw [this, pow_zero, mul_one, Int.emod_eq_of_lt h1 h2]
  | succ k ih =>
    intro b res pw hb h1 h2 h3
    unfold powGo
    split_ifs with h0 hodd
    · rw [h0, pow_zero, mul_one, Int.emod_eq_of_lt h1 h2]
    · rw [Int.tmod_eq_emod_of_nonneg (mul_nonneg h1 h3), Int.tmod_eq_emod_of_nonneg (mul_nonneg h3 h3)]
      rw [ih _ _ _ (by omega) (Int.emod_nonneg _ (by omega)) (Int.emod_lt_of_pos _ (by omega)) (Int.emod_nonneg _ (by omega))]
      have e : b = 2 * (b / 2) + 1 := by omega
      conv_rhs => rw [e]
      have : (res * pw % m * (pw * pw % m) ^ (b / 2)) ≡ res * pw ^ (2 * (b / 2) + 1) [ZMOD m] := by
        have e2 : res * pw ^ (2 * (b / 2) + 1) = (res * pw) * (pw * pw) ^ (b / 2) := by
          rw [pow_succ, pow_mul, pow_two]; ring
        rw [e2]
        exact (Int.mod_modEq _ _).mul ((Int.mod_modEq _ _).pow _)
      exact this
    · rw [Int.tmod_eq_emod_of_nonneg (mul_nonneg h3 h3)]
      rw [ih _ _ _ (by omega) h1 h2 (Int.emod_nonneg _ (by omega))]
      have e : b = 2 * (b / 2) := by omega
      conv_rhs => rw [e]
      have : (res * (pw * pw % m) ^ (b / 2)) ≡ res * pw ^ (2 * (b / 2)) [ZMOD m] := by
        rw [pow_mul, pow_two]
        exact (Int.ModEq.refl _).mul ((Int.mod_modEq _ _).pow _)
      exact this

theorem powMod_eq (a : Int) (b : Nat) {m : Int} (hm : 1 < m) : powMod a b m = a ^ b % m := by
  unfold powMod
  rw [powGo_eq hm _ _ _ _ (le_refl _) (by omega) hm (by rw [norm_eq _ (by omega)]; exact Int.emod_nonneg _ (by omega)), one_mul, norm_eq _ (by omega)]
  exact (Int.mod_modEq a m).pow b

theorem ctzGo_spec : ∀ (k x : Nat), 0 < x → x < 2 ^ k → 2 ^ ctzGo k x ∣ x ∧ (x / 2 ^ ctzGo k x) % 2 = 1 ∧ ctzGo k x < k := by
  intro k
  induction k with
  | zero =>
    intro x h1 h2
    omega
  | succ k ih =>
    intro x h1 h2
    unfold ctzGo
    split_ifs with h
    · rw [pow_zero, Nat.div_one]
      exact ⟨one_dvd _, h, by omega⟩
    · obtain ⟨a, b, c⟩ := ih (x / 2) (by omega) (by rw [pow_succ] at h2; omega)
      refine ⟨?_, ?_, by omega⟩
      · rw [pow_succ]
        have e : x = x / 2 * 2 := by omega
        rw [e]
        have : x / 2 * 2 / 2 = x / 2 := by omega
        rw [this]
        exact Nat.mul_dvd_mul_right a 2
      · rw [pow_succ, Nat.mul_comm, ← Nat.div_div_eq_div_mul]
        exact b

theorem ctz32_spec {x : Nat} (h : x % 2 ^ 32 ≠ 0) : ∃ k, ctz32 x = .ok k ∧ 2 ^ k ∣ x ∧ (x / 2 ^ k) % 2 = 1 := by
  unfold ctz32
  rw [if_neg h]
  obtain ⟨a, b, c⟩ := ctzGo_spec 32 (x % 2 ^ 32) (by omega) (Nat.mod_lt _ (by norm_num))
  generalize ctzGo 32 (x % 2 ^ 32) = k at a b c
  have hk : 2 ^ (k + 1) ∣ 2 ^ 32 := pow_dvd_pow 2 c
  obtain ⟨d, hd⟩ := hk
  have hx : x = 2 ^ 32 * (x / 2 ^ 32) + x % 2 ^ 32 := (Nat.div_add_mod x (2 ^ 32)).symm
  obtain ⟨y, hy⟩ := a
  have hpos : 0 < 2 ^ k := by positivity
  have hx' : x = 2 ^ k * (2 * (d * (x / 2 ^ 32)) + y) := by
    generalize x / 2 ^ 32 = z at hx ⊢
    rw [hy, hd, pow_succ] at hx
    rw [hx]
    ring
  rw [hy, Nat.mul_div_cancel_left _ hpos] at b
  refine ⟨k, rfl, ⟨_, hx'⟩, ?_⟩
  rw [hx', Nat.mul_div_cancel_left _ hpos]
  omega

/-! ## Square roots modulo a prime -/

section
variable {p : Nat} [Fact p.Prime]

theorem eq_of_cast {x y : Int} (hx : 0 ≤ x ∧ x < p) (hy : 0 ≤ y ∧ y < p) (h : (x : ZMod p) = y) : x = y := by
  have := (ZMod.intCast_eq_intCast_iff' x y p).mp h
  rwa [Int.emod_eq_of_lt hx.1 hx.2, Int.emod_eq_of_lt hy.1 hy.2] at this

theorem emod_cast (x : Int) : ((x % (p : Int) : Int) : ZMod p) = x := ZMod.intCast_mod x p

theorem emod_range (x : Int) : 0 ≤ x % (p : Int) ∧ x % (p : Int) < p := by
  have : 0 < p := (Fact.out : p.Prime).pos
  exact ⟨Int.emod_nonneg _ (by omega), Int.emod_lt_of_pos _ (by omega)⟩

theorem powMod_cast (a : Int) (b : Nat) : ((powMod a b p : Int) : ZMod p) = (a : ZMod p) ^ b ∧ 0 ≤ powMod a b p ∧ powMod a b p < p := by
  have h2 := (Fact.out : p.Prime).two_le
  rw [powMod_eq a b (by omega)]
  refine ⟨?_, emod_range _⟩
  rw [emod_cast, Int.cast_pow]

theorem powMod_one (a : Int) (b : Nat) : powMod a b p = 1 ↔ (a : ZMod p) ^ b = 1 := by
  have h2 := (Fact.out : p.Prime).two_le
  obtain ⟨h1, h3⟩ := powMod_cast (p := p) a b
  rw [← h1]
  constructor
  · intro h
    rw [h, Int.cast_one]
  · intro h
    refine eq_of_cast h3 ⟨by omega, by omega⟩ ?_
    rw [h, Int.cast_one]

theorem mulMod_cast {a b : Int} (ha : 0 ≤ a) (hb : 0 ≤ b) : ((mulMod a b p : Int) : ZMod p) = (a : ZMod p) * b ∧ 0 ≤ mulMod a b p ∧ mulMod a b p < p := by
  rw [mulMod_eq ha hb]
  refine ⟨?_, emod_range _⟩
  rw [emod_cast, Int.cast_mul]

theorem half_eq (h2 : p ≠ 2) : (((p : Int) - 1) / 2).toNat = p / 2 := by
  have := (Fact.out : p.Prime).eq_two_or_odd
  omega

theorem coprime_of_not_dvd {a : Int} (h : ¬ (p : Int) ∣ a) : IsCoprime a p := by
  have := (Prime.coprime_iff_not_dvd (Nat.prime_iff_prime_int.mp (Fact.out : p.Prime))).mpr h
  exact this.symm

theorem nonres_tot (h2 : p ≠ 2) : Tot (loop (nonresStep p) (p : Int).toNat 1) (fun b => 0 ≤ b ∧ (b : ZMod p) ^ (p / 2) = -1) := by
  have hp := (Fact.out : p.Prime)
  obtain ⟨z, hz⟩ := FiniteField.exists_nonsquare (F := ZMod p) (by rw [ZMod.ringChar_zmod_n]; exact h2)
  have hz0 : z ≠ 0 := by
    rintro rfl
    exact hz ⟨0, by simp⟩
  have hz1 : z ^ (p / 2) ≠ 1 := fun h => hz ((ZMod.euler_criterion p hz0).mpr h)
  have hzv : z.val < p := ZMod.val_lt z
  have hzv0 : z.val ≠ 0 := by
    rw [Ne, ZMod.val_eq_zero]
    exact hz0
  refine Tot.loop (P := fun b : Int => 1 ≤ b ∧ b ≤ z.val) (Q := fun b => 0 ≤ b ∧ (b : ZMod p) ^ (p / 2) = -1) (μ := fun b => z.val - b.toNat) ?_ (s := 1) ⟨le_refl _, by omega⟩ ?_
  · rintro b ⟨hb1, hb2⟩
    unfold nonresStep
    rw [half_eq h2]
    refine tot_ok.mpr ?_
    by_cases hc : powMod b (p / 2) p = 1
    · rw [if_pos hc]
      rw [powMod_one] at hc
      have hne : b ≠ z.val := by
        rintro rfl
        rw [Int.cast_natCast, ZMod.natCast_zmod_val] at hc
        exact hz1 hc
      exact ⟨⟨by omega, by omega⟩, by omega⟩
    · rw [if_neg hc]
      rw [powMod_one] at hc
      refine ⟨by omega, ?_⟩
      have hb0 : (b : ZMod p) ≠ 0 := by
        intro e
        rw [ZMod.intCast_zmod_eq_zero_iff_dvd] at e
        have := Int.le_of_dvd (by omega) e
        omega
      exact (ZMod.pow_div_two_eq_neg_one_or_one p hb0).resolve_left hc
  · rw [Int.toNat_natCast]
    omega

/-- The state of the main loop. -/
structure RInv (p : Nat) (tlz : Nat) (a : Int) (s : Int × Int × Nat) : Prop where
  x : 0 ≤ s.1 ∧ s.1 < p
  b : 0 ≤ s.2.1 ∧ s.2.1 < p
  lo : 2 ≤ s.2.2
  hi : s.2.2 ≤ tlz + 1
  e1 : ((s.1 : ZMod p) * s.1 * (a : ZMod p)⁻¹) ^ 2 ^ (tlz + 1 - s.2.2) = 1
  e2 : (s.2.1 : ZMod p) ^ 2 ^ (tlz + 1 - s.2.2) = -1

theorem root_tot {tlz : Nat} {a ia : Int} (ha : 0 ≤ a ∧ a < p) (ha0 : (a : ZMod p) ≠ 0) (hia : 0 ≤ ia) (hia' : (ia : ZMod p) = (a : ZMod p)⁻¹) {s : Int × Int × Nat} (h : RInv p tlz a s) (hf : tlz + 1 - s.2.2 ≤ tlz) :
    Tot (loop (rootStep tlz a ia p) tlz s) (fun s => 0 ≤ s.1 ∧ s.1 < p ∧ (s.1 : ZMod p) * s.1 = a) := by
  refine Tot.loop (P := RInv p tlz a) (Q := fun s => 0 ≤ s.1 ∧ s.1 < p ∧ (s.1 : ZMod p) * s.1 = a) (μ := fun s => tlz + 1 - s.2.2) ?_ (s := s) h hf
  rintro ⟨x, b, sh⟩ h
  have hx := h.x
  have hb := h.b
  have hlo := h.lo
  have hhi := h.hi
  have he1 := h.e1
  have he2 := h.e2
  dsimp only at hx hb hlo hhi he1 he2
  obtain ⟨m1, m2, m3⟩ := mulMod_cast (p := p) hx.1 hx.1
  unfold rootStep
  dsimp only
  by_cases hc : mulMod x x p = a
  · rw [if_pos hc]
    refine tot_ok.mpr ⟨hx.1, hx.2, ?_⟩
    rw [← m1, hc]
  rw [if_neg hc]
  by_cases ht : tlz < sh
  · exfalso
    have : tlz + 1 - sh = 0 := by omega
    rw [this, pow_zero, pow_one] at he1
    apply hc
    refine eq_of_cast ⟨m2, m3⟩ ha ?_
    rw [m1]
    rwa [mul_inv_eq_one₀ ha0] at he1
  · rw [if_neg ht]
    obtain ⟨d, hd⟩ : ∃ d, tlz - sh = d := ⟨_, rfl⟩
    have hd1 : tlz + 1 - sh = d + 1 := by omega
    have hd2 : tlz + 1 - (sh + 1) = d := by omega
    rw [hd1] at he1 he2
    obtain ⟨q1, q2, q3⟩ := mulMod_cast (p := p) hia m2
    obtain ⟨r1, r2, r3⟩ := mulMod_cast (p := p) hb.1 hb.1
    obtain ⟨t1, t2, t3⟩ := mulMod_cast (p := p) hx.1 hb.1
    have hE : ((mulMod ia (mulMod x x p) p : Int) : ZMod p) = (x : ZMod p) * x * (a : ZMod p)⁻¹ := by
      rw [q1, m1, hia']
      ring
    have hpow := powMod_one (p := p) (mulMod ia (mulMod x x p) p) (2 ^ (tlz - sh))
    rw [hE, hd] at hpow
    rw [hd]
    rw [pow_succ, pow_mul] at he1 he2
    refine tot_ok.mpr ?_
    dsimp only
    refine ⟨?_, by omega⟩
    by_cases hc1 : powMod (mulMod ia (mulMod x x p) p) (2 ^ d) p ≠ 1
    · rw [if_pos hc1]
      refine ⟨⟨t2, t3⟩, ⟨r2, r3⟩, by dsimp only; omega, by dsimp only; omega, ?_, ?_⟩
      · dsimp only
        rw [hd2, t1]
        rw [Ne, hpow] at hc1
        have hm1 : ((x : ZMod p) * x * (a : ZMod p)⁻¹) ^ 2 ^ d = -1 := by
          rw [pow_two] at he1
          rcases mul_self_eq_one_iff.mp he1 with h | h
          · exact absurd h hc1
          · exact h
        have e : (x : ZMod p) * b * (x * b) * (a : ZMod p)⁻¹ = (x * x * (a : ZMod p)⁻¹) * (b ^ 2) := by ring
        rw [e, mul_pow, hm1, ← pow_mul, mul_comm 2, pow_mul, he2]
        ring
      · dsimp only
        rw [hd2, r1, ← pow_two, ← pow_mul, mul_comm 2, pow_mul]
        exact he2
    · rw [if_neg hc1]
      rw [not_not, hpow] at hc1
      refine ⟨hx, ⟨r2, r3⟩, by dsimp only; omega, by dsimp only; omega, ?_, ?_⟩
      · dsimp only
        rw [hd2]
        exact hc1
      · dsimp only
        rw [hd2, r1, ← pow_two, ← pow_mul, mul_comm 2, pow_mul]
        exact he2

theorem primeModSqrt_tot {inv : Int → Int → Int} (hinv : InvSpec inv) (a : Int) (hp32 : p % 2 ^ 32 ≠ 1) :
    Tot (primeModSqrt inv a p) (fun r => match r with
      | none => ∀ y : Int, (y : ZMod p) * y ≠ a
      | some x => 0 ≤ x ∧ x < p ∧ (x : ZMod p) * x = a) := by
  have hp := (Fact.out : p.Prime)
  unfold primeModSqrt
  dsimp only
  rw [norm_eq a (by have := hp.pos; omega)]
  have hr := emod_range (p := p) a
  have hcast := emod_cast (p := p) a
  rw [← hcast]
  generalize a % (p : Int) = a' at hr hcast
  split_ifs with h0 h2 h1
  · refine tot_ok.mpr ⟨le_refl _, by have := hp.pos; omega, ?_⟩
    rw [h0]
    simp
  · refine tot_ok.mpr ⟨hr.1, hr.2, ?_⟩
    have hp2 : p = 2 := by omega
    have : a' = 1 := by omega
    rw [this]
    simp
  · refine tot_ok.mpr ?_
    dsimp only
    intro y hy
    have hp2 : p ≠ 2 := by omega
    rw [half_eq hp2, Ne, powMod_one] at h1
    have ha0 : (a' : ZMod p) ≠ 0 := by
      intro e
      rw [ZMod.intCast_zmod_eq_zero_iff_dvd] at e
      have := Int.le_of_dvd (by omega) e
      omega
    exact h1 ((ZMod.euler_criterion p ha0).mp ⟨y, hy.symm⟩)
  · have hp2 : p ≠ 2 := by omega
    rw [half_eq hp2, not_not, powMod_one] at h1
    have ha0 : (a' : ZMod p) ≠ 0 := by
      intro e
      rw [ZMod.intCast_zmod_eq_zero_iff_dvd] at e
      have := Int.le_of_dvd (by omega) e
      omega
    refine (nonres_tot hp2).bind ?_
    rintro β ⟨hβ0, hβ⟩
    have hodd := hp.eq_two_or_odd.resolve_left hp2
    have e1 : ((p : Int) - 1).toNat = p - 1 := by omega
    rw [e1]
    obtain ⟨tlz, ht, ⟨q, hq⟩, hqodd⟩ := ctz32_spec (x := p - 1) (by omega)
    rw [ht, ok_bind]
    have hpos : 0 < 2 ^ tlz := by positivity
    rw [hq, Nat.mul_div_cancel_left _ hpos] at hqodd ⊢
    have ht1 : 1 ≤ tlz := by
      by_contra hc
      have : tlz = 0 := by omega
      rw [this, pow_zero, one_mul] at hq
      omega
    obtain ⟨i1, i2, i3⟩ := hinv a' p (by omega) (by
      refine coprime_of_not_dvd ?_
      intro hd
      have := Int.le_of_dvd (by omega) hd
      omega)
    have hia : ((inv a' p : Int) : ZMod p) = (a' : ZMod p)⁻¹ := by
      have := (ZMod.intCast_zmod_eq_zero_iff_dvd _ p).mpr i3
      rw [Int.cast_sub, Int.cast_mul, Int.cast_one, sub_eq_zero] at this
      exact eq_inv_of_mul_eq_one_right this
    obtain ⟨x1, x2, x3⟩ := powMod_cast (p := p) a' ((q + 1) / 2)
    obtain ⟨b1, b2, b3⟩ := powMod_cast (p := p) β q
    have hhalf : q * 2 ^ (tlz - 1) = p / 2 := by
      have e : 2 ^ tlz = 2 * 2 ^ (tlz - 1) := by
        rw [← pow_succ']
        congr 1
        omega
      rw [e] at hq
      have : p - 1 = 2 * (q * 2 ^ (tlz - 1)) := by rw [hq]; ring
      omega
    refine (root_tot (tlz := tlz) hr ha0 i1 hia (s := (powMod a' ((q + 1) / 2) p, powMod β q p, 2)) ?_ (by dsimp only; omega)).bind ?_
    · refine ⟨⟨x2, x3⟩, ⟨b2, b3⟩, le_refl _, by dsimp only; omega, ?_, ?_⟩
      · dsimp only
        have e : tlz + 1 - 2 = tlz - 1 := by omega
        rw [x1, e, ← pow_add]
        have e2 : (q + 1) / 2 + (q + 1) / 2 = q + 1 := by omega
        rw [e2, pow_succ, mul_assoc, mul_inv_cancel₀ ha0, mul_one, ← pow_mul, hhalf]
        exact h1
      · dsimp only
        have e : tlz + 1 - 2 = tlz - 1 := by omega
        rw [b1, e, ← pow_mul, hhalf]
        exact hβ
    · rintro s hs
      exact tot_ok.mpr hs

end

end ModSqrt
