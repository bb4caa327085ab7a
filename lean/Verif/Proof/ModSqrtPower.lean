import Verif.Proof.ModSqrt
import Mathlib.RingTheory.Multiplicity
import Mathlib.Tactic.Positivity
import Mathlib.Tactic.Linarith

namespace ModSqrt
open Cxx

/-! ## Powers of a prime -/

theorem pq_tot (p q : Nat) (hp : 0 < p) (h : (p : Int) ^ q < 2 ^ 63) :
    Tot (forUp 1 (q + 1) ((Array.replicate (q + 1) (0 : Int)).setIfInBounds 0 1) fun i pq => do
      let y ← rd pq (i - 1)
      let y ← i64 (y * p)
      wr pq i y) (fun pq => pq.size = q + 1 ∧ ∀ i, i ≤ q → at' 0 pq i = (p : Int) ^ i) := by
  refine (Tot.forUp (lo := 1) (hi := q + 1) (P := fun k (pq : Array Int) => pq.size = q + 1 ∧ ∀ i, i < k → at' 0 pq i = (p : Int) ^ i) (by omega) ⟨by simp, ?_⟩ ?_).mono ?_
  · intro i hi
    have : i = 0 := by omega
    rw [this, at_set 0 (by simp), if_pos rfl, pow_zero]
  · rintro i pq h1 h2 ⟨k1, k2⟩
    rw [rd_at 0 (by omega), ok_bind, k2 (i - 1) (by omega)]
    have e : (p : Int) ^ (i - 1) * p = (p : Int) ^ i := by
      rw [← pow_succ]
      congr 1
      omega
    have hle : (p : Int) ^ i ≤ (p : Int) ^ q := pow_le_pow_right₀ (by omega) (by omega)
    have hpos : (0 : Int) < (p : Int) ^ i := by positivity
    rw [e, i64_ok ⟨by omega, by omega⟩, ok_bind, wr_eq (by omega)]
    refine tot_ok.mpr ⟨by simp [k1], ?_⟩
    intro j hj
    rw [at_set 0 (by omega)]
    split_ifs with hij
    · rw [hij]
    · exact k2 j (by omega)
  · rintro pq ⟨k1, k2⟩
    exact ⟨k1, fun i hi => k2 i (by omega)⟩

theorem strip_tot {p : Nat} (hp : 2 ≤ p) {q : Nat} {a : Int} (h0 : a ≠ 0) (hlt : |a| < (p : Int) ^ q) :
    Tot (loop (stripStep p) q (a, 0)) (fun s => a = s.1 * (p : Int) ^ s.2 ∧ ¬ (p : Int) ∣ s.1 ∧ s.2 < q) := by
  have hb : ∀ (x : Int) (b : Nat), a = x * (p : Int) ^ b → b < q := by
    intro x b e
    by_contra hc
    have hx : x ≠ 0 := by
      rintro rfl
      rw [zero_mul] at e
      exact h0 e
    have h1 : (1 : Int) ≤ |x| := Int.one_le_abs hx
    have h2 : (p : Int) ^ q ≤ (p : Int) ^ b := pow_le_pow_right₀ (by omega) (by omega)
    have h3 : (0 : Int) < (p : Int) ^ b := by positivity
    rw [e, abs_mul, abs_of_pos h3] at hlt
    nlinarith
  refine Tot.loop (P := fun s : Int × Nat => a = s.1 * (p : Int) ^ s.2) (Q := fun s => a = s.1 * (p : Int) ^ s.2 ∧ ¬ (p : Int) ∣ s.1 ∧ s.2 < q) (μ := fun s => q - s.2) ?_ (s := (a, 0)) (by simp) (by simp)
  rintro ⟨x, b⟩ e
  dsimp only at e
  have hbq := hb x b e
  unfold stripStep
  refine tot_ok.mpr ?_
  dsimp only
  by_cases hc : x.tmod p = 0
  · rw [if_pos hc]
    have hd : (p : Int) ∣ x := Int.dvd_of_tmod_eq_zero hc
    refine ⟨?_, by dsimp only; omega⟩
    dsimp only
    rw [pow_succ, mul_comm ((p : Int) ^ b), ← mul_assoc, Int.tdiv_mul_cancel hd]
    exact e
  · rw [if_neg hc]
    exact ⟨e, fun hd => hc (Int.tmod_eq_zero_of_dvd hd), hbq⟩

/-- A root of a number divisible by `p^b` only. -/
theorem strip_square {p : Nat} (hp : p.Prime) {q b : Nat} {a y : Int} (hb : b < q) (ha : ¬ (p : Int) ∣ a) (h : (p : Int) ^ q ∣ y * y - a * (p : Int) ^ b) :
    b % 2 = 0 ∧ ∃ w : Int, (p : Int) ^ (q - b) ∣ w * w - a := by
  have hpi := Nat.prime_iff_prime_int.mp hp
  have hp0 : (p : Int) ≠ 0 := hpi.ne_zero
  have hy : y ≠ 0 := by
    rintro rfl
    rw [mul_zero, zero_sub, dvd_neg] at h
    have h1 : (p : Int) ^ (b + 1) ∣ a * (p : Int) ^ b := dvd_trans (pow_dvd_pow _ hb) h
    rw [pow_succ, mul_comm a] at h1
    exact ha (Int.dvd_of_mul_dvd_mul_left (pow_ne_zero _ hp0) h1)
  have hfin : FiniteMultiplicity (p : Int) y := Int.finiteMultiplicity_iff.mpr ⟨by
    rw [Int.natAbs_natCast]; exact hp.one_lt.ne', hy⟩
  obtain ⟨w, hw, hnw⟩ := hfin.exists_eq_pow_mul_and_not_dvd
  generalize multiplicity (p : Int) y = k at hw
  have hnww : ¬ (p : Int) ∣ w * w := fun hd => (hpi.dvd_or_dvd hd).elim hnw hnw
  rw [hw] at h
  have e : (p : Int) ^ k * w * ((p : Int) ^ k * w) = (p : Int) ^ (2 * k) * (w * w) := by
    rw [two_mul, pow_add]
    ring
  rw [e] at h
  rcases lt_trichotomy (2 * k) b with hlt | heq | hgt
  · exfalso
    have h1 : (p : Int) ^ (2 * k + 1) ∣ (p : Int) ^ (2 * k) * (w * w) - a * (p : Int) ^ b := dvd_trans (pow_dvd_pow _ (by omega)) h
    have h2 : (p : Int) ^ (2 * k + 1) ∣ a * (p : Int) ^ b := Dvd.dvd.mul_left (pow_dvd_pow _ (by omega)) _
    have h3 := (dvd_sub_comm.mp h1)
    have h4 : (p : Int) ^ (2 * k + 1) ∣ (p : Int) ^ (2 * k) * (w * w) := by
      have := dvd_add h1 h2
      rwa [sub_add_cancel] at this
    rw [pow_succ] at h4
    exact hnww (Int.dvd_of_mul_dvd_mul_left (pow_ne_zero _ hp0) h4)
  · refine ⟨by omega, w, ?_⟩
    rw [heq, mul_comm a, ← mul_sub] at h
    have e2 : q = b + (q - b) := by omega
    rw [e2, pow_add] at h
    exact Int.dvd_of_mul_dvd_mul_left (pow_ne_zero _ hp0) h
  · exfalso
    have h1 : (p : Int) ^ (b + 1) ∣ (p : Int) ^ (2 * k) * (w * w) - a * (p : Int) ^ b := dvd_trans (pow_dvd_pow _ (by omega)) h
    have h2 : (p : Int) ^ (b + 1) ∣ (p : Int) ^ (2 * k) * (w * w) := Dvd.dvd.mul_right (pow_dvd_pow _ (by omega)) _
    have h4 : (p : Int) ^ (b + 1) ∣ a * (p : Int) ^ b := by
      have := dvd_sub h2 h1
      rwa [sub_sub_cancel] at this
    rw [pow_succ, mul_comm a] at h4
    exact ha (Int.dvd_of_mul_dvd_mul_left (pow_ne_zero _ hp0) h4)

theorem unstrip {p : Nat} {q b : Nat} {a x : Int} (hb : b < q) (he : b % 2 = 0) (h : (p : Int) ^ (q - b) ∣ x * x - a) :
    (p : Int) ^ q ∣ (p : Int) ^ (b / 2) * x * ((p : Int) ^ (b / 2) * x) - a * (p : Int) ^ b := by
  have e1 : (p : Int) ^ b = (p : Int) ^ (b / 2) * (p : Int) ^ (b / 2) := by
    rw [← pow_add]
    congr 1
    omega
  have e2 : (p : Int) ^ (b / 2) * x * ((p : Int) ^ (b / 2) * x) - a * (p : Int) ^ b = (p : Int) ^ b * (x * x - a) := by
    rw [e1]
    ring
  have e3 : q = b + (q - b) := by omega
  rw [e2]
  conv_lhs => rw [e3, pow_add]
  exact mul_dvd_mul_left _ h

theorem norm_mul (u v : Int) {m : Int} (hm : 0 < m) : (if mulMod (u.tmod m) v m < 0 then mulMod (u.tmod m) v m + m else mulMod (u.tmod m) v m) = u * v % m := by
  have := norm_eq (u.tmod m * v) hm
  unfold norm at this
  unfold mulMod
  rw [this]
  have h1 : u.tmod m ≡ u [ZMOD m] := by
    have e := Int.tmod_add_mul_tdiv u m
    have : u.tmod m = u + m * (-(u.tdiv m)) := by
      rw [mul_neg]
      omega
    rw [this]
    exact (Int.modEq_add_fac_self)
  exact h1.mul (Int.ModEq.refl v)

theorem liftOdd_tot {p : Nat} (hp : p.Prime) {pq : Array Int} {Q q : Nat} (h63 : (p : Int) ^ Q < 2 ^ 63) (hqQ : q ≤ Q) (hsz : pq.size = Q + 1) (hpq : ∀ i, i ≤ Q → at' 0 pq i = (p : Int) ^ i)
    {a x0 inv0 : Int} (hq : 1 ≤ q) (hx : 0 ≤ x0 ∧ x0 < p) (hx0 : (p : Int) ∣ x0 * x0 - a) (hinv : (p : Int) ∣ 2 * x0 * inv0 - 1) :
    Tot (liftOdd pq p a inv0 q x0) (fun x => 0 ≤ x ∧ x < (p : Int) ^ q ∧ (p : Int) ^ q ∣ x * x - a) := by
  have hp0 : (0 : Int) < p := by
    have := hp.pos
    omega
  unfold liftOdd
  refine (Tot.forUp (lo := 1) (hi := q) (P := fun i (x : Int) => 0 ≤ x ∧ x < (p : Int) ^ i ∧ (p : Int) ^ i ∣ x * x - a ∧ (p : Int) ∣ x - x0) hq ⟨hx.1, by rw [pow_one]; exact hx.2, by rw [pow_one]; exact hx0, by simp⟩ ?_).mono ?_
  · rintro i x h1 h2 ⟨k1, k2, k3, k4⟩
    rw [rd_at 0 (by omega), ok_bind, hpq i (by omega)]
    dsimp only
    have hpi : (0 : Int) < (p : Int) ^ i := by positivity
    obtain ⟨t, ht⟩ := k3
    rw [norm_mul _ _ hp0]
    have htd : (x * x - a).tdiv ((p : Int) ^ i) = t := by
      rw [ht]
      exact Int.mul_tdiv_cancel_left _ (by omega)
    rw [htd]
    obtain ⟨y, hy⟩ : ∃ y, y = -t * inv0 % p := ⟨_, rfl⟩
    rw [← hy]
    have hy0 : 0 ≤ y := by rw [hy]; exact Int.emod_nonneg _ (by omega)
    have hy1 : y < p := by rw [hy]; exact Int.emod_lt_of_pos _ hp0
    have hyd : (p : Int) ∣ y - (-t * inv0) := by
      rw [hy]
      exact (Int.mod_modEq _ _).symm.dvd
    have hb1 : (p : Int) ^ i * y + (p : Int) ^ i ≤ (p : Int) ^ (i + 1) := by
      rw [pow_succ]
      nlinarith
    have hb2 : (p : Int) ^ (i + 1) ≤ (p : Int) ^ Q := pow_le_pow_right₀ (by omega) (by omega)
    have hb3 : 0 ≤ (p : Int) ^ i * y := by positivity
    rw [i64_ok ⟨by omega, by omega⟩, ok_bind, i64_ok ⟨by omega, by omega⟩]
    refine tot_ok.mpr ⟨by omega, by omega, ?_, ?_⟩
    · have e : (x + (p : Int) ^ i * y) * (x + (p : Int) ^ i * y) - a = (p : Int) ^ i * (t + 2 * x * y + (p : Int) ^ i * (y * y)) := by
        linear_combination ht
      rw [e, pow_succ]
      refine mul_dvd_mul_left _ ?_
      have hpd : (p : Int) ∣ (p : Int) ^ i * (y * y) := Dvd.dvd.mul_right (dvd_pow_self _ (by omega)) _
      refine dvd_add ?_ hpd
      obtain ⟨u, hu⟩ := hyd
      obtain ⟨v, hv⟩ := hinv
      obtain ⟨w, hw⟩ := k4
      refine ⟨2 * x * u - t * (v + 2 * inv0 * w), ?_⟩
      linear_combination (2 * x) * hu - t * hv - (t * 2 * inv0) * hw
    · have e : x + (p : Int) ^ i * y - x0 = (x - x0) + (p : Int) ^ i * y := by ring
      rw [e]
      exact dvd_add k4 (Dvd.dvd.mul_right (dvd_pow_self _ (by omega)) _)
  · rintro x ⟨k1, k2, k3, -⟩
    exact ⟨k1, k2, k3⟩

theorem liftTwo_tot {q : Nat} {a : Int} (ha : (8 : Int) ∣ 1 - a) (hq : 1 ≤ q) :
    Tot (liftTwo a q) (fun x => (x : Int) < 2 ^ q ∧ (2 : Int) ^ q ∣ x * x - a) := by
  unfold liftTwo
  by_cases hq3 : q ≤ 3
  · have e : q - 3 = 0 := by omega
    have : forUp 3 q 1 (fun i (x : Nat) => (return x ||| ((((x : Int) * x - a) / 2 ^ i) % 2).toNat <<< (i - 1) : M Nat)) = .ok 1 := by
      unfold forUp
      rw [e]
      rfl
    rw [this]
    refine tot_ok.mpr ⟨?_, ?_⟩
    · have : (2 : Int) ^ 1 ≤ 2 ^ q := pow_le_pow_right₀ (by omega) hq
      push_cast
      omega
    · have h1 : (2 : Int) ^ q ∣ 2 ^ 3 := pow_dvd_pow 2 hq3
      push_cast
      exact dvd_trans h1 ha
  · refine (Tot.forUp (lo := 3) (hi := q) (P := fun i (x : Nat) => x < 2 ^ (i - 1) ∧ x % 2 = 1 ∧ (2 : Int) ^ i ∣ x * x - a) (by omega) ⟨by norm_num, rfl, by push_cast; exact ha⟩ ?_).mono ?_
    · rintro i x h1 h2 ⟨k1, k2, t, ht⟩
      have hpi : (0 : Int) < 2 ^ i := by positivity
      have hdiv : ((x : Int) * x - a) / 2 ^ i = t := by
        rw [ht]
        exact Int.mul_ediv_cancel_left _ (by omega)
      rw [hdiv]
      obtain ⟨d, hd⟩ : ∃ d, d = (t % 2).toNat := ⟨_, rfl⟩
      rw [← hd]
      have hd2 : d < 2 := by omega
      have hor : x ||| d <<< (i - 1) = x + d * 2 ^ (i - 1) := by
        rw [Nat.or_comm, ← Nat.shiftLeft_add_eq_or_of_lt k1, Nat.shiftLeft_eq, Nat.add_comm]
      have e2 : 2 ^ (i + 1 - 1) = 2 * 2 ^ (i - 1) := by
        rw [← pow_succ']
        congr 1
        omega
      have hev : (2 ^ (i - 1)) % 2 = 0 := by
        obtain ⟨j, rfl⟩ : ∃ j, i = j + 2 := ⟨i - 2, by omega⟩
        rw [show j + 2 - 1 = j + 1 by omega, pow_succ]
        omega
      have hx2 : (x + d * 2 ^ (i - 1)) % 2 = 1 := by
        rw [Nat.add_mod, Nat.mul_mod, hev]
        omega
      rw [hor]
      refine tot_ok.mpr ⟨?_, hx2, ?_⟩
      · rw [e2]
        nlinarith
      · push_cast
        obtain ⟨j, rfl⟩ : ∃ j, i = j + 3 := ⟨i - 3, by omega⟩
        have e3 : j + 3 - 1 = j + 2 := by omega
        rw [e3]
        have e4 : ((x : Int) + d * 2 ^ (j + 2)) * (x + d * 2 ^ (j + 2)) - a = 2 ^ (j + 3) * (t + d * x + d * d * 2 ^ (j + 1)) := by
          have := ht
          have p1 : (2 : Int) ^ (j + 3) = 2 * 2 ^ (j + 2) := by ring
          have p2 : (2 : Int) ^ (j + 2) = 2 * 2 ^ (j + 1) := by ring
          rw [p1] at this ⊢
          linear_combination this + (d : Int) * d * 2 ^ (j + 2) * p2
        rw [e4, pow_succ (2 : Int) (j + 3)]
        refine mul_dvd_mul_left _ (dvd_add ?_ (Dvd.dvd.mul_left (dvd_pow_self _ (by omega)) _))
        have hdt : (d : Int) = t % 2 := by omega
        have hd01 : d = 0 ∨ d = 1 := by omega
        rcases hd01 with h | h
        · rw [h] at hdt ⊢
          push_cast at hdt ⊢
          omega
        · rw [h] at hdt ⊢
          push_cast at hdt ⊢
          omega
    · rintro x ⟨k1, k2, k3⟩
      refine ⟨?_, k3⟩
      have : 2 ^ (q - 1) ≤ 2 ^ q := Nat.pow_le_pow_right (by omega) (by omega)
      have h : x < 2 ^ q := by omega
      exact_mod_cast h

theorem tmod_dvd (a m : Int) : m ∣ a - a.tmod m := by
  have e := Int.tmod_add_mul_tdiv a m
  exact ⟨a.tdiv m, by omega⟩

theorem primePower_tot {inv : Int → Int → Int} (hinv : InvSpec inv) (a : Int) {p : Nat} (hp : p.Prime) {q : Nat} (hq : 1 ≤ q) (h63 : (p : Int) ^ q < 2 ^ 63) (h62 : p < 2 ^ 62)
    (hp32 : p % 2 ^ 32 ≠ 1) (ha2 : p = 2 → 0 ≤ a) :
    Tot (primePowerModSqrt inv a p q) (fun r => match r with
      | none => ∀ y : Int, ¬ (p : Int) ^ q ∣ y * y - a
      | some x => 0 ≤ x ∧ x < 2 ^ 63 ∧ (p : Int) ^ q ∣ x * x - a) := by
  haveI : Fact p.Prime := ⟨hp⟩
  have hpos : (0 : Int) < (p : Int) ^ q := by
    have := hp.pos
    positivity
  unfold primePowerModSqrt
  refine (pq_tot p q hp.pos h63).bind ?_
  rintro pq ⟨hsz, hpq⟩
  rw [rd_at 0 (by omega), ok_bind, hpq q (le_refl _)]
  obtain ⟨a0, ha0⟩ : ∃ a0, a0 = a.tmod ((p : Int) ^ q) := ⟨_, rfl⟩
  have hd0 := tmod_dvd a ((p : Int) ^ q)
  rw [← ha0] at hd0 ⊢
  have hiff : ∀ y : Int, (p : Int) ^ q ∣ y * y - a ↔ (p : Int) ^ q ∣ y * y - a0 := by
    intro y
    have e : y * y - a0 = (y * y - a) + (a - a0) := by ring
    rw [e]
    exact (dvd_add_left hd0).symm
  by_cases h0 : a0 = 0
  · rw [if_pos h0]
    refine tot_ok.mpr ⟨le_refl _, by norm_num, ?_⟩
    rw [hiff, h0]
    simp
  rw [if_neg h0]
  have habs : |a0| < (p : Int) ^ q := by
    rw [ha0, abs_lt]
    have h1 := Int.tmod_lt_of_pos a hpos
    have h2 := Int.lt_tmod_of_pos a hpos
    exact ⟨h2, h1⟩
  refine (strip_tot hp.two_le h0 habs).bind ?_
  rintro ⟨a1, b⟩ ⟨s1, s2, s3⟩
  dsimp only at s1 s2 s3 ⊢
  have hnone : ∀ {P : Prop}, (∀ w : Int, (p : Int) ^ (q - b) ∣ w * w - a1 → b % 2 = 0 → False) → ∀ y : Int, ¬ (p : Int) ^ q ∣ y * y - a := by
    intro _ h y hy
    rw [hiff, s1] at hy
    obtain ⟨e, w, hw⟩ := strip_square hp s3 s2 hy
    exact h w hw e
  by_cases hodd : b % 2 = 1
  · rw [if_pos hodd]
    refine tot_ok.mpr (hnone (P := True) ?_)
    intro w _ e
    omega
  rw [if_neg hodd, rd_at 0 (by omega), ok_bind, hpq (b / 2) (by omega)]
  have hev : b % 2 = 0 := by omega
  have hpk : (0 : Int) < (p : Int) ^ (b / 2) := by
    have := hp.pos
    positivity
  -- the end of both branches
  have hend : ∀ x : Int, 0 ≤ x → x < (p : Int) ^ (q - b) → (p : Int) ^ (q - b) ∣ x * x - a1 →
      Tot (do let r ← i64 ((p : Int) ^ (b / 2) * x); return some r : M (Option Int)) (fun r => match r with
        | none => ∀ y : Int, ¬ (p : Int) ^ q ∣ y * y - a
        | some x => 0 ≤ x ∧ x < 2 ^ 63 ∧ (p : Int) ^ q ∣ x * x - a) := by
    intro x hx0 hx1 hx2
    have hlt : (p : Int) ^ (b / 2) * x < 2 ^ 63 := by
      have h1 : (p : Int) ^ (b / 2) * x < (p : Int) ^ (b / 2) * (p : Int) ^ (q - b) := mul_lt_mul_of_pos_left hx1 hpk
      rw [← pow_add] at h1
      have h2 : (p : Int) ^ (b / 2 + (q - b)) ≤ (p : Int) ^ q := pow_le_pow_right₀ (by have := hp.pos; omega) (by omega)
      omega
    have h0 : 0 ≤ (p : Int) ^ (b / 2) * x := by positivity
    rw [i64_ok ⟨by omega, hlt⟩, ok_bind]
    refine tot_ok.mpr ⟨h0, hlt, ?_⟩
    rw [hiff, s1]
    exact unstrip s3 hev hx2
  by_cases hp2 : (p : Int) ≠ 2
  · rw [if_pos hp2]
    refine (primeModSqrt_tot hinv a1 hp32).bind ?_
    rintro (_ | x0) hr
    · dsimp only at hr ⊢
      refine tot_ok.mpr (hnone (P := True) ?_)
      intro w hw _
      apply hr w
      have : (p : Int) ∣ w * w - a1 := dvd_trans (dvd_pow_self _ (by omega)) hw
      have h := (ZMod.intCast_zmod_eq_zero_iff_dvd _ p).mpr this
      rw [Int.cast_sub, Int.cast_mul, sub_eq_zero] at h
      exact h
    · dsimp only at hr ⊢
      obtain ⟨r1, r2, r3⟩ := hr
      have hd : (p : Int) ∣ x0 * x0 - a1 := by
        rw [← ZMod.intCast_zmod_eq_zero_iff_dvd, Int.cast_sub, Int.cast_mul, sub_eq_zero]
        exact r3
      rw [i64_ok ⟨by omega, by omega⟩, ok_bind]
      have hcop : IsCoprime (2 * x0) (p : Int) := by
        refine coprime_of_not_dvd ?_
        intro h
        rcases (Nat.prime_iff_prime_int.mp hp).dvd_or_dvd h with h | h
        · have := Int.le_of_dvd (by omega) h
          have := hp.two_le
          omega
        · apply s2
          have h1 : (p : Int) ∣ x0 * x0 := Dvd.dvd.mul_right h _
          have := dvd_sub h1 hd
          rwa [sub_sub_cancel] at this
      obtain ⟨-, -, i3⟩ := hinv (2 * x0) p (by have := hp.pos; omega) hcop
      refine (liftOdd_tot hp h63 (by omega) hsz hpq (by omega) ⟨r1, r2⟩ hd i3).bind ?_
      rintro x ⟨x1, x2, x3⟩
      exact hend x x1 x2 x3
  · rw [if_neg hp2]
    have hp2' : p = 2 := by omega
    subst hp2'
    have ha00 : 0 ≤ a0 := by
      rw [ha0]
      exact Int.tmod_nonneg _ (ha2 rfl)
    have hb0 : (0 : Int) < 2 ^ b := by positivity
    push_cast at s1 s2 habs hend hnone ⊢
    have ha1 : 0 ≤ a1 := by
      by_contra hc
      have : a1 * 2 ^ b < 0 := mul_neg_of_neg_of_pos (by omega) hb0
      omega
    have ha1lt : a1 < 2 ^ (q - b) := by
      rw [abs_of_nonneg ha00, s1] at habs
      have e : (2 : Int) ^ q = 2 ^ (q - b) * 2 ^ b := by
        rw [← pow_add]
        congr 1
        omega
      rw [e] at habs
      exact lt_of_mul_lt_mul_right habs (le_of_lt hb0)
    rw [Int.tmod_eq_emod_of_nonneg ha1]
    by_cases h8 : a1 % 8 ≠ 1
    · rw [if_pos h8]
      refine tot_ok.mpr (hnone (P := True) ?_)
      intro w hw _
      have hwodd : ∀ {k : Int}, (2 : Int) ∣ w * w - a1 → w % 2 = 1 := by
        intro _ h
        by_contra hc
        have h2 : (2 : Int) ∣ w * w := Dvd.dvd.mul_right (by omega) _
        have := dvd_sub h2 h
        rw [sub_sub_cancel] at this
        exact s2 this
      have h2 : (2 : Int) ∣ w * w - a1 := dvd_trans (dvd_pow_self _ (by omega)) hw
      obtain ⟨z, hz⟩ : ∃ z, w = 2 * z + 1 := ⟨w / 2, by have := hwodd (k := 0) h2; omega⟩
      obtain ⟨z2, hz2⟩ : ∃ z2, z * (z + 1) = 2 * z2 := (Int.even_mul_succ_self z).two_dvd
      have hww : w * w = 8 * z2 + 1 := by
        rw [hz]
        linear_combination 4 * hz2
      by_cases hq3 : 3 ≤ q - b
      · have h3 : (8 : Int) ∣ w * w - a1 := dvd_trans (by have := pow_dvd_pow (2 : Int) hq3; norm_num at this; exact this) hw
        omega
      · have hq12 : q - b = 1 ∨ q - b = 2 := by omega
        rcases hq12 with h | h
        · rw [h] at ha1lt
          omega
        · rw [h] at ha1lt hw
          norm_num at hw
          omega
    · rw [if_neg h8]
      rw [not_not] at h8
      refine (liftTwo_tot (q := q - b) (a := a1) (by omega) (by omega)).bind ?_
      rintro x ⟨x1, x2⟩
      exact hend x (by omega) x1 x2

/-! ## Composite moduli -/

/-- The contract of `atcoder::crt` for coprime moduli. -/
def CrtSpec (crt : List Int → List Int → Int) : Prop := ∀ rs ms : List Int, (∀ m ∈ ms, 1 ≤ m) → ms.Pairwise IsCoprime → ms.prod < 2 ^ 63 → rs.length = ms.length →
  0 ≤ crt rs ms ∧ crt rs ms < ms.prod ∧ List.Forall₂ (fun r m => m ∣ crt rs ms - r) rs ms

theorem prod_dvd {ms : List Int} {z : Int} (h : ms.Pairwise IsCoprime) (hd : ∀ m ∈ ms, m ∣ z) : ms.prod ∣ z := by
  induction ms with
  | nil => simp
  | cons a ms ih =>
    rw [List.prod_cons]
    rw [List.pairwise_cons] at h
    refine IsCoprime.mul_dvd ?_ (hd a List.mem_cons_self) (ih h.2 fun m hm => hd m (List.mem_cons_of_mem _ hm))
    have : ∀ L : List Int, (∀ m ∈ L, IsCoprime a m) → IsCoprime a L.prod := by
      intro L
      induction L with
      | nil =>
        intro _
        exact isCoprime_one_right
      | cons b L ihL =>
        intro hL
        rw [List.prod_cons]
        exact IsCoprime.mul_right (hL b List.mem_cons_self) (ihL fun m hm => hL m (List.mem_cons_of_mem _ hm))
    exact this ms h.1

theorem pow_tot (p q : Nat) (hp : 0 < p) (h : (p : Int) ^ q < 2 ^ 63) : Tot (forUp 0 q 1 fun _ (y : Int) => i64 (y * p)) (fun y => y = (p : Int) ^ q) := by
  refine Tot.forUp (lo := 0) (hi := q) (P := fun k (y : Int) => y = (p : Int) ^ k) (by omega) (by simp) ?_
  rintro i y _ hi rfl
  have hle : (p : Int) ^ (i + 1) ≤ (p : Int) ^ q := pow_le_pow_right₀ (by omega) (by omega)
  have hpos : (0 : Int) < (p : Int) ^ (i + 1) := by positivity
  rw [← pow_succ, i64_ok ⟨by omega, by omega⟩]
  exact tot_ok.mpr rfl

/-- The moduli of a factorisation. -/
def mods (l : List (Nat × Nat)) : List Int := l.map fun f => (f.1 : Int) ^ f.2

theorem mods_coprime {m : Nat} {l : List (Nat × Nat)} (hf : OrderMod.Factors m l) : (mods l).Pairwise IsCoprime := by
  unfold mods
  rw [List.pairwise_map]
  have hnd := hf.nodup
  rw [List.Nodup, List.pairwise_map] at hnd
  refine hnd.imp_of_mem ?_
  intro x y hx hy hne
  refine IsCoprime.pow ?_
  rw [Nat.isCoprime_iff_coprime]
  exact (Nat.coprime_primes (hf.prime x hx).1 (hf.prime y hy).1).mpr hne

theorem mods_prod (l : List (Nat × Nat)) : (mods l).prod = (((l.map fun x => x.1 ^ x.2).prod : Nat) : Int) := by
  unfold mods
  induction l with
  | nil => simp
  | cons a l ih =>
    rw [List.map_cons, List.prod_cons, ih, List.map_cons, List.prod_cons]
    push_cast
    rfl

theorem composite_tot {inv : Int → Int → Int} {crt : List Int → List Int → Int} (hinv : InvSpec inv) (hcrt : CrtSpec crt) (a : Int) {m : Nat} {l : List (Nat × Nat)} (hm : 0 < m) (h63 : m < 2 ^ 63)
    (hf : OrderMod.Factors m l) (hp : ∀ f ∈ l, f.1 < 2 ^ 62 ∧ f.1 % 2 ^ 32 ≠ 1 ∧ (f.1 = 2 → 0 ≤ a)) :
    Tot (compositeModSqrt inv crt a l) (fun r => match r with
      | none => ∀ y : Int, ¬ (m : Int) ∣ y * y - a
      | some x => 0 ≤ x ∧ x < m ∧ (m : Int) ∣ x * x - a) := by
  have hprod : (mods l).prod = m := by rw [mods_prod, hf.prod]
  have hdvd : ∀ f ∈ l, (f.1 : Int) ^ f.2 ∣ m := by
    intro f hfl
    rw [← hprod]
    exact List.dvd_prod (List.mem_map.mpr ⟨f, hfl, rfl⟩)
  unfold compositeModSqrt
  refine (Tot.forEach (P := fun pre (s : Option (List Int × List Int)) => match s with
    | none => ∀ y : Int, ¬ (m : Int) ∣ y * y - a
    | some s => s.2 = mods pre ∧ List.Forall₂ (fun r m => m ∣ r * r - a) s.1 s.2) (show (([], []) : List Int × List Int).2 = mods [] ∧ _ from ⟨rfl, List.Forall₂.nil⟩) ?_).bind ?_
  · rintro pre f post s hpp hs
    have hfl : f ∈ l := by rw [hpp]; simp
    obtain ⟨f1, f2⟩ := hf.prime f hfl
    have hlt : (f.1 : Int) ^ f.2 < 2 ^ 63 := by
      have := Int.le_of_dvd (by omega) (hdvd f hfl)
      omega
    cases s with
    | none =>
      unfold compositeStep
      exact tot_ok.mpr hs
    | some s =>
      dsimp only at hs
      unfold compositeStep
      dsimp only
      obtain ⟨p1, p2, p3⟩ := hp f hfl
      refine (primePower_tot hinv a f1 f2 hlt p1 p2 p3).bind ?_
      rintro (_ | x) hr
      · dsimp only at hr ⊢
        refine tot_ok.mpr ?_
        dsimp only
        intro y hy
        exact hr y (dvd_trans (hdvd f hfl) hy)
      · dsimp only at hr ⊢
        refine (pow_tot f.1 f.2 f1.pos hlt).bind ?_
        rintro z rfl
        refine tot_ok.mpr ⟨?_, ?_⟩
        · dsimp only
          rw [hs.1]
          unfold mods
          rw [List.map_append]
          rfl
        · exact List.rel_append hs.2 (List.Forall₂.cons hr.2.2 List.Forall₂.nil)
  · rintro (_ | s) hs
    · exact tot_ok.mpr hs
    · dsimp only at hs ⊢
      obtain ⟨s1, s2⟩ := hs
      have hge : ∀ z ∈ mods l, 1 ≤ z := by
        intro z hz
        obtain ⟨f, hfl, rfl⟩ := List.mem_map.mp hz
        have := (hf.prime f hfl).1.pos
        have : (0 : Int) < (f.1 : Int) ^ f.2 := by positivity
        omega
      have hc := hcrt s.1 s.2 (by rw [s1]; exact hge) (by rw [s1]; exact mods_coprime hf) (by rw [s1, hprod]; omega) s2.length_eq
      obtain ⟨c1, c2, c3⟩ := hc
      refine tot_ok.mpr ⟨c1, ?_, ?_⟩
      · rw [s1, hprod] at c2
        rw [s1]
        exact c2
      · rw [← hprod, ← s1]
        refine prod_dvd (by rw [s1]; exact mods_coprime hf) ?_
        generalize hX : crt s.1 s.2 = X at *
        have : ∀ (rs ms : List Int), List.Forall₂ (fun r m => m ∣ r * r - a) rs ms → List.Forall₂ (fun r m => m ∣ X - r) rs ms → ∀ z ∈ ms, z ∣ X * X - a := by
          intro rs ms h1
          induction h1 with
          | nil =>
            intro _ z hz
            cases hz
          | cons hd _ ih =>
            intro h2 z hz
            obtain ⟨g1, g2⟩ := List.forall₂_cons.mp h2
            rcases List.mem_cons.mp hz with rfl | hz
            · rename_i r _ _ _ 
              have e : X * X - a = (X - r) * (X + r) + (r * r - a) := by ring
              rw [e]
              exact dvd_add (Dvd.dvd.mul_right g1 _) hd
            · exact ih g2 z hz
        exact this _ _ s2 c3

end ModSqrt
