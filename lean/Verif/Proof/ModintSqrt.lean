import Verif.Proof.ModintInv

/-! # Proofs about `mod_sqrt` of `modint` -/

namespace Modint
open Cxx

section
variable {dyn : Bool} {p : Nat} [Fact p.Prime] (hp' : p < 2 ^ 31)

theorem nat_of_cast {x y : Nat} (hx : x < p) (hy : y < p) (h : (x : ZMod p) = y) : x = y := by
  have := (ZMod.natCast_eq_natCast_iff' x y p).mp h
  rwa [Nat.mod_eq_of_lt hx, Nat.mod_eq_of_lt hy] at this

include hp'

theorem mul_cast {x y : Nat} (hx : x < p) (hy : y < p) : mul dyn p x y < p ∧ ((mul dyn p x y : Nat) : ZMod p) = (x : ZMod p) * y := by
  have h1 : 1 ≤ p := (Fact.out : p.Prime).pos
  refine ⟨mul_lt h1 hp' hx hy, ?_⟩
  rw [mul_eq h1 hp' hx hy, ZMod.natCast_mod, Nat.cast_mul]

theorem pow_cast {x : Nat} (hx : x < p) (n : Nat) : ∃ y < p, pow dyn p x n = .ok y ∧ (y : ZMod p) = (x : ZMod p) ^ n ∧ (y = ofInt dyn p 1 ↔ (x : ZMod p) ^ n = 1) := by
  have h1 : 1 ≤ p := (Fact.out : p.Prime).pos
  have h2 := (Fact.out : p.Prime).two_le
  have e : ((x ^ n % p : Nat) : ZMod p) = (x : ZMod p) ^ n := by rw [ZMod.natCast_mod, Nat.cast_pow]
  refine ⟨_, Nat.mod_lt _ h1, pow_eq h1 hp' hx (Int.natCast_nonneg n), e, ?_⟩
  rw [Int.toNat_natCast, ofInt_one h1 hp', Nat.mod_eq_of_lt (show 1 < p by omega), ← e]
  constructor
  · intro h; rw [h, Nat.cast_one]
  · intro h
    exact nat_of_cast (Nat.mod_lt _ h1) (by omega) (by rw [h, Nat.cast_one])

theorem inv_cast {a : Nat} (ha : a < p) (ha0 : a ≠ 0) : ∃ i < p, inv dyn p a = .ok i ∧ (i : ZMod p) = (a : ZMod p)⁻¹ := by
  have hp := (Fact.out : p.Prime)
  have hc : Nat.Coprime a p := (Nat.coprime_of_lt_prime (by omega) ha hp).symm
  obtain ⟨i, hi, e, h⟩ := (inv_ok (dyn := dyn) hp' ha (Or.inr fun _ => hp)).1 hc
  refine ⟨i, hi, e, ?_⟩
  have : ((a * i % p : Nat) : ZMod p) = ((1 % p : Nat) : ZMod p) := by rw [h]
  rw [ZMod.natCast_mod, ZMod.natCast_mod, Nat.cast_mul, Nat.cast_one] at this
  exact eq_inv_of_mul_eq_one_right this

theorem half_cast (h2 : p ≠ 2) : ((p : Int) - 1) / 2 = ((p / 2 : Nat) : Int) := by
  have := (Fact.out : p.Prime).eq_two_or_odd
  omega

theorem cast_ne {a : Nat} (ha : a < p) (ha0 : a ≠ 0) : (a : ZMod p) ≠ 0 := by
  rw [Ne, ZMod.natCast_eq_zero_iff]
  intro h
  have := Nat.le_of_dvd (by omega) h
  omega

theorem nonres_tot (h2 : p ≠ 2) : Tot (loop (nonresStep dyn p) p (ofInt dyn p 1)) (fun b => b < p ∧ (b : ZMod p) ^ (p / 2) = -1) := by
  have hp := (Fact.out : p.Prime)
  have h1 : 1 ≤ p := hp.pos
  have hp2 := hp.two_le
  obtain ⟨z, hz⟩ := FiniteField.exists_nonsquare (F := ZMod p) (by rw [ZMod.ringChar_zmod_n]; exact h2)
  have hz0 : z ≠ 0 := by
    rintro rfl
    exact hz ⟨0, by simp⟩
  have hz1 : z ^ (p / 2) ≠ 1 := fun h => hz ((ZMod.euler_criterion p hz0).mpr h)
  have hzv : z.val < p := ZMod.val_lt z
  have hzv0 : z.val ≠ 0 := by
    rw [Ne, ZMod.val_eq_zero]
    exact hz0
  have e1 : ofInt dyn p 1 = 1 := by rw [ofInt_one h1 hp', Nat.mod_eq_of_lt (by omega)]
  refine Tot.loop (P := fun b : Nat => 1 ≤ b ∧ b ≤ z.val) (Q := fun b => b < p ∧ (b : ZMod p) ^ (p / 2) = -1) (μ := fun b => z.val - b) ?_ (s := ofInt dyn p 1) ⟨by omega, by omega⟩ (by omega)
  rintro b ⟨hb1, hb2⟩
  unfold nonresStep
  rw [half_cast hp' h2]
  obtain ⟨y, hy, ey, -, hy1⟩ := pow_cast (dyn := dyn) hp' (show b < p by omega) (p / 2)
  rw [ey, ok_bind]
  by_cases hc : y = ofInt dyn p 1
  · rw [if_pos hc]
    rw [hy1] at hc
    have hne : b ≠ z.val := by
      rintro rfl
      rw [ZMod.natCast_zmod_val] at hc
      exact hz1 hc
    refine Tot.pure ?_
    rw [inc_eq h1 hp' (by omega), Nat.mod_eq_of_lt (by omega)]
    exact ⟨⟨by omega, by omega⟩, by omega⟩
  · rw [if_neg hc]
    rw [hy1] at hc
    exact Tot.pure ⟨by omega, (ZMod.pow_div_two_eq_neg_one_or_one p (cast_ne hp' (by omega) (by omega))).resolve_left hc⟩

omit hp' in
/-- The state of the main loop. -/
structure RInv (p : Nat) (tlz : Nat) (a : Nat) (s : Nat × Nat × Nat) : Prop where
  x : s.1 < p
  b : s.2.1 < p
  lo : 2 ≤ s.2.2
  hi : s.2.2 ≤ tlz + 1
  e1 : ((s.1 : ZMod p) * s.1 * (a : ZMod p)⁻¹) ^ 2 ^ (tlz + 1 - s.2.2) = 1
  e2 : (s.2.1 : ZMod p) ^ 2 ^ (tlz + 1 - s.2.2) = -1

theorem root_tot {tlz a : Nat} (ha : a < p) (ha' : a ≠ 0) {s : Nat × Nat × Nat} (h : RInv p tlz a s) (hf : tlz + 1 - s.2.2 ≤ tlz) :
    Tot (loop (rootStep dyn p tlz a) tlz s) (fun s => s.1 < p ∧ (s.1 : ZMod p) * s.1 = a) := by
  have ha0 := cast_ne hp' ha ha'
  refine Tot.loop (P := RInv p tlz a) (Q := fun s => s.1 < p ∧ (s.1 : ZMod p) * s.1 = a) (μ := fun s => tlz + 1 - s.2.2) ?_ (s := s) h hf
  rintro ⟨x, b, sh⟩ h
  have hx := h.x
  have hb := h.b
  have hlo := h.lo
  have hhi := h.hi
  have he1 := h.e1
  have he2 := h.e2
  dsimp only at hx hb hlo hhi he1 he2
  obtain ⟨m3, m1⟩ := mul_cast (dyn := dyn) hp' hx hx
  unfold rootStep
  dsimp only
  by_cases hc : mul dyn p x x = a
  · rw [if_pos hc]
    refine Tot.pure ⟨hx, ?_⟩
    rw [← m1, hc]
  rw [if_neg hc]
  obtain ⟨ia, hia, ei, hia'⟩ := inv_cast (dyn := dyn) hp' ha ha'
  rw [ei, ok_bind]
  by_cases ht : tlz < sh
  · exfalso
    have : tlz + 1 - sh = 0 := by omega
    rw [this, pow_zero, pow_one] at he1
    apply hc
    refine nat_of_cast m3 ha ?_
    rw [m1]
    rwa [mul_inv_eq_one₀ ha0] at he1
  · rw [if_neg ht]
    obtain ⟨d, hd⟩ : ∃ d, tlz - sh = d := ⟨_, rfl⟩
    have hd1 : tlz + 1 - sh = d + 1 := by omega
    have hd2 : tlz + 1 - (sh + 1) = d := by omega
    rw [hd1] at he1 he2
    obtain ⟨q3, q1⟩ := mul_cast (dyn := dyn) hp' hia hx
    obtain ⟨w3, w1⟩ := mul_cast (dyn := dyn) hp' q3 hx
    obtain ⟨r3, r1⟩ := mul_cast (dyn := dyn) hp' hb hb
    obtain ⟨t3, t1⟩ := mul_cast (dyn := dyn) hp' hx hb
    have hE : ((mul dyn p (mul dyn p ia x) x : Nat) : ZMod p) = (x : ZMod p) * x * (a : ZMod p)⁻¹ := by
      rw [w1, q1, hia']
      ring
    obtain ⟨y, -, ey, -, hpow⟩ := pow_cast (dyn := dyn) hp' w3 (2 ^ (tlz - sh))
    rw [hE, hd] at hpow
    rw [ey, ok_bind]
    rw [pow_succ, pow_mul] at he1 he2
    refine Tot.pure ?_
    dsimp only
    refine ⟨?_, by omega⟩
    by_cases hc1 : y ≠ ofInt dyn p 1
    · rw [if_pos hc1]
      refine ⟨t3, r3, by dsimp only; omega, by dsimp only; omega, ?_, ?_⟩
      · dsimp only
        rw [hd2, t1]
        rw [Ne, hpow] at hc1
        have hm1 : ((x : ZMod p) * x * (a : ZMod p)⁻¹) ^ 2 ^ d = -1 := by
          rw [pow_two] at he1
          rcases mul_self_eq_one_iff.mp he1 with h | h
          · exact absurd h hc1
          · exact h
        have e : (x : ZMod p) * b * (x * b) * (a : ZMod p)⁻¹ = (x * x * (a : ZMod p)⁻¹) * (b ^ 2) := by ring
        rw [e, mul_pow, hm1, ← pow_mul, mul_comm 2, pow_mul, he2]
        ring
      · dsimp only
        rw [hd2, r1, ← pow_two, ← pow_mul, mul_comm 2, pow_mul]
        exact he2
    · rw [if_neg hc1]
      rw [not_not, hpow] at hc1
      refine ⟨hx, r3, by dsimp only; omega, by dsimp only; omega, ?_, ?_⟩
      · dsimp only
        rw [hd2]
        exact hc1
      · dsimp only
        rw [hd2, r1, ← pow_two, ← pow_mul, mul_comm 2, pow_mul]
        exact he2

theorem modSqrt_tot {a : Nat} (ha : a < p) :
    Tot (modSqrt dyn p a) (fun r => match r with
      | none => ∀ y : Nat, y * y % p ≠ a
      | some x => x < p ∧ x * x % p = a) := by
  have hp := (Fact.out : p.Prime)
  have h1p : 1 ≤ p := hp.pos
  have hsq : ∀ y : Nat, y * y % p = a ↔ (y : ZMod p) * y = a := by
    intro y
    rw [← Nat.cast_mul, ZMod.natCast_eq_natCast_iff', Nat.mod_eq_of_lt ha]
  unfold modSqrt
  rw [ofInt_zero h1p hp']
  by_cases h0 : a = 0
  · rw [if_pos h0]
    refine Tot.pure ⟨hp.pos, ?_⟩
    rw [h0]; simp
  rw [if_neg h0]
  by_cases h2 : p = 2
  · rw [if_pos h2]
    refine Tot.pure ⟨ha, ?_⟩
    have : a = 1 := by omega
    rw [this, h2]
  rw [if_neg h2, half_cast hp' h2]
  have ha0 := cast_ne hp' ha h0
  obtain ⟨y, -, ey, -, hy1⟩ := pow_cast (dyn := dyn) hp' ha (p / 2)
  rw [ey, ok_bind]
  by_cases h1 : y ≠ ofInt dyn p 1
  · rw [if_pos h1]
    refine Tot.pure ?_
    intro y hy
    rw [Ne, hy1] at h1
    rw [hsq] at hy
    exact h1 ((ZMod.euler_criterion p ha0).mp ⟨y, hy.symm⟩)
  rw [if_neg h1]
  rw [not_not, hy1] at h1
  refine (nonres_tot hp' h2).bind ?_
  rintro β ⟨hβ0, hβ⟩
  have hodd := hp.eq_two_or_odd.resolve_left h2
  obtain ⟨tlz, ht, ⟨q, hq⟩, hqodd⟩ := ModSqrt.ctz32_spec (x := p - 1) (by omega)
  rw [ht, ok_bind]
  have hpos : 0 < 2 ^ tlz := by positivity
  rw [hq, Nat.mul_div_cancel_left _ hpos] at hqodd ⊢
  dsimp only
  have ht1 : 1 ≤ tlz := by
    by_contra hc
    have : tlz = 0 := by omega
    rw [this, pow_zero, one_mul] at hq
    omega
  obtain ⟨x, x3, ex, x1, -⟩ := pow_cast (dyn := dyn) hp' ha ((q + 1) / 2)
  obtain ⟨b, b3, eb, b1, -⟩ := pow_cast (dyn := dyn) hp' hβ0 q
  rw [ex, ok_bind, eb, ok_bind]
  have hhalf : q * 2 ^ (tlz - 1) = p / 2 := by
    have e : 2 ^ tlz = 2 * 2 ^ (tlz - 1) := by
      rw [← pow_succ']
      congr 1
      omega
    rw [e] at hq
    have : p - 1 = 2 * (q * 2 ^ (tlz - 1)) := by rw [hq]; ring
    omega
  refine (root_tot (tlz := tlz) hp' ha h0 (s := (x, b, 2)) ?_ (by dsimp only; omega)).bind ?_
  · refine ⟨x3, b3, le_refl _, by dsimp only; omega, ?_, ?_⟩
    · dsimp only
      have e : tlz + 1 - 2 = tlz - 1 := by omega
      rw [x1, e, ← pow_add]
      have e2 : (q + 1) / 2 + (q + 1) / 2 = q + 1 := by omega
      rw [e2, pow_succ, mul_assoc, mul_inv_cancel₀ ha0, mul_one, ← pow_mul, hhalf]
      exact h1
    · dsimp only
      have e : tlz + 1 - 2 = tlz - 1 := by omega
      rw [b1, e, ← pow_mul, hhalf]
      exact hβ
  · rintro s ⟨hs1, hs2⟩
    exact Tot.pure ⟨hs1, (hsq _).2 hs2⟩

end

end Modint
