import Verif.Proof.Transform
import Mathlib.NumberTheory.ArithmeticFunction.Moebius
import Mathlib.Data.Nat.Prime.Basic

/-! # Proofs about the divisor and multiple transforms -/

namespace DivisorTransform
open Cxx Finset Kronecker

variable {T : Type}

/-- What processing a prime does: the values go from `S0` to `S1`, the multiples of `p` are crossed out. -/
def BodyOk (n : Nat) (body : Nat → Array T × Array Bool → M (Array T × Array Bool)) (p : Nat) (S0 S1 : Nat → T) : Prop :=
  ∀ (s : Array T × Array Bool) B, RepA Eq s.1 n S0 → RepA Eq s.2 n B →
    Tot (body p s) fun s' => RepA Eq s'.1 n S1 ∧ RepA Eq s'.2 n fun j => B j && !decide (p ∣ j ∧ 0 < j)

theorem rd' {α : Type} {x : Array α} {n i : Nat} {f : Nat → α} (h : RepA Eq x n f) (hi : i < n) : rd x i = .ok (f i) := rd_some (h.get hi)

section
variable [AddCommMonoid T] {n p : Nat} {S0 S1 : Nat → T}

theorem cum_ok (hp : 2 ≤ p) (hpn : p < n) (h : ∀ m, 0 < m → m < n → S1 m = S0 m + if p ∣ m then S1 (m / p) else 0) (h0 : S1 0 = S0 0) : BodyOk n (cum (· + ·) n) p S0 S1 := by
  rintro ⟨f, b⟩ B hf hb
  unfold cum
  refine Tot.bind (Tot.loop (fun s : Nat × Nat × Array T × Array Bool => n - s.2.1)
    (P := fun s : Nat × Nat × Array T × Array Bool => 1 ≤ s.1 ∧ s.2.1 = s.1 * p ∧ RepA Eq s.2.2.1 n (fun m => if p ∣ m ∧ m < s.1 * p then S1 m else S0 m) ∧
      RepA Eq s.2.2.2 n (fun j => B j && !decide (p ∣ j ∧ 0 < j ∧ j < s.1 * p)))
    (Q := fun s : Nat × Nat × Array T × Array Bool => RepA Eq s.2.2.1 n S1 ∧ RepA Eq s.2.2.2 n (fun j => B j && !decide (p ∣ j ∧ 0 < j))) ?_
    ⟨le_refl 1, by simp, hf.congr fun m hm => ?_, hb.congr fun j hj => ?_⟩ (Nat.sub_le _ _)) fun s hs => Tot.pure hs
  · rintro ⟨q, pq, f, b⟩ ⟨h1, h2, h3, h4⟩
    dsimp only at h1 h2 h3 h4
    subst h2
    unfold cumStep
    dsimp only
    by_cases c : q * p < n
    · rw [if_pos c]
      have hq : q < q * p := by nlinarith
      have hq0 : 0 < q * p := by omega
      rw [rd' h3 c, ok_bind, rd' h3 (show q < n by omega), ok_bind]
      have e1 : (if p ∣ q ∧ q < q * p then S1 q else S0 q) = S1 q := by
        by_cases d : p ∣ q
        · rw [if_pos ⟨d, hq⟩]
        · rw [if_neg (fun hh => d hh.1), h q (by omega) (by omega), if_neg d, add_zero]
      have e2 : S1 (q * p) = S0 (q * p) + S1 q := by
        rw [h _ hq0 c, if_pos ⟨q, Nat.mul_comm _ _⟩, Nat.mul_div_cancel _ (by omega)]
      rw [e1, if_neg (by omega), ← e2]
      refine Tot.bind (h3.wr c (rfl : S1 (q * p) = S1 (q * p))) fun f' hf' => Tot.bind (h4.wr c (rfl : false = false)) fun b' hb' => Tot.pure ⟨⟨by omega, by ring, ?_, ?_⟩, ?_⟩
      · refine hf'.congr fun m hm => ?_
        dsimp only
        by_cases e : m = q * p
        · subst e
          rw [if_pos rfl, if_pos ⟨⟨q, Nat.mul_comm _ _⟩, by nlinarith⟩]
        · rw [if_neg e]
          refine if_congr (and_congr_right fun d => ?_) rfl rfl
          obtain ⟨r, rfl⟩ := d
          rw [Nat.mul_comm p r] at *
          constructor
          · intro hh; nlinarith
          · intro hh
            have : r < q + 1 := Nat.lt_of_mul_lt_mul_right hh
            have : r ≠ q := fun hh => e (by rw [hh])
            have : r < q := by omega
            nlinarith
      · refine hb'.congr fun m hm => ?_
        dsimp only
        by_cases e : m = q * p
        · subst e
          rw [if_pos rfl, decide_eq_true ⟨⟨q, Nat.mul_comm _ _⟩, by omega, by nlinarith⟩]
          simp
        · rw [if_neg e]
          congr 2
          refine decide_eq_decide.2 (and_congr_right fun d => ?_)
          obtain ⟨r, rfl⟩ := d
          rw [Nat.mul_comm p r] at *
          constructor
          · intro hh; exact ⟨hh.1, by nlinarith⟩
          · intro hh
            have : r < q + 1 := Nat.lt_of_mul_lt_mul_right hh.2
            have : r ≠ q := fun hh => e (by rw [hh])
            have : r < q := by omega
            exact ⟨hh.1, by nlinarith⟩
      · dsimp only; omega
    · rw [if_neg c]
      refine Tot.pure ⟨h3.congr fun m hm => ?_, h4.congr fun j hj => ?_⟩
      · by_cases d : p ∣ m
        · rw [if_pos ⟨d, by omega⟩]
        · rw [if_neg (fun hh => d hh.1)]
          rcases Nat.eq_zero_or_pos m with e | e
          · subst e; exact h0.symm
          · rw [h m e hm, if_neg d, add_zero]
      · congr 2
        exact decide_eq_decide.2 ⟨fun hh => ⟨hh.1, hh.2.1⟩, fun hh => ⟨hh.1, hh.2, by omega⟩⟩
  · dsimp only
    rw [one_mul]
    by_cases d : p ∣ m ∧ m < p
    · rw [if_pos d]
      have : m = 0 := Nat.eq_zero_of_dvd_of_lt d.1 d.2
      subst this; exact h0.symm
    · rw [if_neg d]
  · dsimp only
    rw [decide_eq_false]
    · simp
    · rintro ⟨h1, h2, h3⟩
      exact absurd (Nat.le_of_dvd h2 h1) (by omega)

end

section
variable [AddCommGroup T] {n p : Nat} {S0 S1 : Nat → T}

theorem div_bound {n p q : Nat} (hp : 0 < p) (hn : 0 < n) : q < (n - 1) / p + 1 ↔ q * p < n := by
  rw [Nat.lt_succ_iff, Nat.le_div_iff_mul_le hp]
  omega

theorem diff_ok (hp : 2 ≤ p) (hpn : p < n) (h : ∀ m, 0 < m → m < n → S1 m = S0 m - if p ∣ m then S0 (m / p) else 0) (h0 : S1 0 = S0 0) : BodyOk n (diff (· - ·) n) p S0 S1 := by
  rintro ⟨f, b⟩ B hf hb
  unfold diff
  have hb1 : ∀ q, q < (n - 1) / p + 1 ↔ q * p < n := fun q => div_bound (by omega) (by omega)
  refine (Tot.forDown (P := fun q (s : Array T × Array Bool) => RepA Eq s.1 n (fun m => if p ∣ m ∧ q * p ≤ m then S1 m else S0 m) ∧
    RepA Eq s.2 n (fun j => B j && !decide (p ∣ j ∧ q * p ≤ j))) (Nat.le_add_left 1 _) ⟨hf.congr fun m hm => ?_, hb.congr fun j hj => ?_⟩ ?_).mono ?_
  · rw [if_neg]
    rintro ⟨d, e⟩
    have := (hb1 ((n - 1) / p + 1)).not.1 (by omega)
    omega
  · rw [decide_eq_false]
    · simp
    · rintro ⟨d, e⟩
      have := (hb1 ((n - 1) / p + 1)).not.1 (by omega)
      omega
  · rintro q ⟨f, b⟩ hq1 hq2 ⟨h3, h4⟩
    dsimp only at h3 h4
    have c : q * p < n := (hb1 q).1 hq2
    unfold diffStep
    dsimp only
    have hq : q < q * p := by nlinarith
    have hq0 : 0 < q * p := by omega
    have hq3 : (q + 1) * p = q * p + p := by ring
    rw [rd' h3 c, ok_bind, rd' h3 (show q < n by omega), ok_bind]
    rw [if_neg (by omega), if_neg (by omega)]
    have e2 : S1 (q * p) = S0 (q * p) - S0 q := by
      rw [h _ hq0 c, if_pos ⟨q, Nat.mul_comm _ _⟩, Nat.mul_div_cancel _ (by omega)]
    rw [← e2]
    have key : ∀ m, m ≠ q * p → p ∣ m → ((q + 1) * p ≤ m ↔ q * p ≤ m) := by
      rintro m e ⟨r, rfl⟩
      rw [Nat.mul_comm p r] at *
      constructor
      · intro hh; omega
      · intro hh
        have : q ≤ r := Nat.le_of_mul_le_mul_right hh (by omega)
        have : r ≠ q := fun hh => e (by rw [hh])
        exact Nat.mul_le_mul_right p (by omega)
    refine Tot.bind (h3.wr c (rfl : S1 (q * p) = S1 (q * p))) fun f' hf' => Tot.bind (h4.wr c (rfl : false = false)) fun b' hb' => Tot.pure ⟨?_, ?_⟩
    · refine hf'.congr fun m hm => ?_
      by_cases e : m = q * p
      · subst e
        rw [if_pos rfl, if_pos ⟨⟨q, Nat.mul_comm _ _⟩, le_refl _⟩]
      · rw [if_neg e]
        exact if_congr (and_congr_right fun d => key m e d) rfl rfl
    · refine hb'.congr fun m hm => ?_
      by_cases e : m = q * p
      · subst e
        rw [if_pos rfl, decide_eq_true ⟨⟨q, Nat.mul_comm _ _⟩, le_refl _⟩]
        simp
      · rw [if_neg e]
        congr 2
        exact decide_eq_decide.2 (and_congr_right fun d => key m e d)
  · rintro ⟨f, b⟩ ⟨h3, h4⟩
    dsimp only at h3 h4
    rw [one_mul] at h3 h4
    have key : ∀ m, p ∣ m → (p ≤ m ↔ 0 < m) := fun m d => ⟨fun hh => by omega, fun hh => Nat.le_of_dvd hh d⟩
    refine ⟨h3.congr fun m hm => ?_, h4.congr fun m hm => ?_⟩
    · rcases Nat.eq_zero_or_pos m with e | e
      · subst e
        rw [if_neg (by omega), h0]
      · by_cases d : p ∣ m
        · rw [if_pos ⟨d, (key m d).2 e⟩]
        · rw [if_neg (fun hh => d hh.1), h m e hm, if_neg d, sub_zero]
    · congr 2
      exact decide_eq_decide.2 (and_congr_right fun d => key m d)

theorem run_tot {body : Nat → Array T × Array Bool → M (Array T × Array Bool)} {St : Nat → Nat → T} {f : Array T} (hn : f.size = n) (hf : RepA Eq f n (St 2))
    (hb : ∀ p, p.Prime → p < n → BodyOk n body p (St p) (St (p + 1))) (hc : ∀ p, 2 ≤ p → ¬ p.Prime → p < n → ∀ m, m < n → St (p + 1) m = St p m) :
    Tot (run body f) fun r => RepA Eq r n (if n < 2 then St 2 else St n) := by
  unfold run
  rw [hn]
  by_cases h2 : n < 2
  · rw [if_pos h2]
    unfold forUp
    rw [show n - 2 = 0 by omega]
    exact Tot.pure hf
  rw [if_neg h2]
  classical
  refine Tot.bind (Tot.forUp (P := fun p (s : Array T × Array Bool) => RepA Eq s.1 n (St p) ∧ RepA Eq s.2 n fun j => decide (∀ q, q.Prime → q < p → 0 < j → ¬ q ∣ j)) (by omega)
    ⟨hf, ⟨by simp, fun j hj => ⟨true, by simp [hj], ?_⟩⟩⟩ ?_) fun s hs => Tot.pure hs.1
  · symm
    rw [decide_eq_true_eq]
    intro q hq hq2
    exact absurd hq.two_le (by omega)
  · rintro p ⟨f, b⟩ hp2 hpn ⟨h3, h4⟩
    dsimp only at h3 h4
    unfold primeStep
    rw [rd' h4 hpn, ok_bind]
    by_cases hp : p.Prime
    · rw [if_pos]
      · refine (hb p hp hpn _ _ h3 h4).mono fun s hs => ⟨hs.1, hs.2.congr fun j hj => ?_⟩
        rw [Bool.eq_iff_iff]
        simp only [Bool.and_eq_true, Bool.not_eq_true', decide_eq_true_eq, decide_eq_false_iff_not]
        constructor
        · rintro ⟨g1, g2⟩ q hq hq1 hj0 hd
          by_cases e : q = p
          · exact g2 ⟨e ▸ hd, hj0⟩
          · exact g1 q hq (by omega) hj0 hd
        · intro g
          exact ⟨fun q hq hq1 => g q hq (by omega), fun ⟨g1, g2⟩ => g p hp (by omega) g2 g1⟩
      · rw [decide_eq_true_eq]
        intro q hq hqp _ hd
        rcases (Nat.dvd_prime hp).1 hd with e | e
        · exact hq.one_lt.ne' e
        · omega
    · rw [if_neg]
      · refine Tot.pure ⟨h3.congr fun m hm => (hc p hp2 hp hpn m hm).symm, h4.congr fun j hj => ?_⟩
        refine decide_eq_decide.2 ⟨fun g q hq hq1 => ?_, fun g q hq hq1 => g q hq (by omega)⟩
        exact g q hq (by have : q ≠ p := fun e => hp (e ▸ hq); omega)
      · rw [decide_eq_true_eq]
        intro g
        have h1 := Nat.minFac_prime (show p ≠ 1 by omega)
        have h2 := Nat.minFac_dvd p
        have h3 : p.minFac < p := lt_of_le_of_ne (Nat.minFac_le (by omega)) fun e => hp (e ▸ h1)
        exact g _ h1 h3 (by omega) h2

end

/-! ### Smooth and rough numbers -/

/-- All prime factors are below `p`. -/
def Smooth (p k : Nat) : Prop := ∀ q, q.Prime → q ∣ k → q < p

/-- No prime factor is below `p`. -/
def Rough (p k : Nat) : Prop := ∀ q, q.Prime → q ∣ k → p ≤ q

open Classical in
/-- Sum of a kernel over the `k` satisfying `P`. -/
noncomputable def SumP [AddCommMonoid T] (n : Nat) (P : Nat → Prop) (G : Nat → T) : T := ∑ k ∈ (Ico 1 n).filter P, G k

theorem sumP_congr [AddCommMonoid T] {n : Nat} {P Q : Nat → Prop} {G H : Nat → T} (h : ∀ k, 0 < k → k < n → (P k ↔ Q k)) (h' : ∀ k, 0 < k → k < n → P k → G k = H k) : SumP n P G = SumP n Q H := by
  classical
  unfold SumP
  refine sum_congr ?_ fun k hk => ?_
  · ext k
    simp only [mem_filter, mem_Ico]
    exact and_congr_right fun hk => h k (by omega) hk.2
  · rw [mem_filter, mem_Ico] at hk
    exact h' k (by omega) hk.1.2 ((h k (by omega) hk.1.2).2 hk.2)

/-- Splitting a sum by divisibility by `p`. -/
theorem sumP_split [AddCommMonoid T] {n p : Nat} (hp : 2 ≤ p) {P Q : Nat → Prop} (h1 : ∀ k, 0 < k → (P k ∧ ¬ p ∣ k ↔ Q k)) (h2 : ∀ k, 0 < k → (P (p * k) ↔ P k)) {G : Nat → T}
    (hG : ∀ k, n ≤ k → G k = 0) : SumP n P G = SumP n Q G + SumP n P fun k => G (p * k) := by
  classical
  unfold SumP
  rw [← sum_filter_add_sum_filter_not ((Ico 1 n).filter P) (fun k => ¬ p ∣ k)]
  congr 1
  · refine sum_congr ?_ fun _ _ => rfl
    ext k
    simp only [mem_filter, mem_Ico]
    constructor
    · rintro ⟨⟨a, b⟩, c⟩; exact ⟨a, (h1 k (by omega)).1 ⟨b, c⟩⟩
    · rintro ⟨a, b⟩; exact ⟨⟨a, ((h1 k (by omega)).2 b).1⟩, ((h1 k (by omega)).2 b).2⟩
  · rw [← sum_filter_add_sum_filter_not ((Ico 1 n).filter P) (fun k => p * k < n) (fun k => G (p * k))]
    rw [show ∑ k ∈ ((Ico 1 n).filter P).filter (fun k => ¬ p * k < n), G (p * k) = 0 from sum_eq_zero fun k hk => hG _ (by rw [mem_filter] at hk; omega), add_zero]
    symm
    refine sum_bij (fun k _ => p * k) ?_ ?_ ?_ ?_
    · intro k hk
      simp only [mem_filter, mem_Ico] at hk ⊢
      obtain ⟨⟨⟨a, b⟩, c⟩, d⟩ := hk
      exact ⟨⟨⟨by nlinarith, d⟩, (h2 k (by omega)).2 c⟩, by simp⟩
    · intro k hk k' hk' e
      exact Nat.eq_of_mul_eq_mul_left (by omega) e
    · intro k hk
      simp only [mem_filter, mem_Ico, not_not] at hk
      obtain ⟨⟨⟨a, b⟩, c⟩, r, rfl⟩ := hk
      have : 0 < r := by rcases Nat.eq_zero_or_pos r with e | e; · simp [e] at a
                         · exact e
      refine ⟨r, ?_, rfl⟩
      simp only [mem_filter, mem_Ico]
      exact ⟨⟨⟨by omega, by nlinarith⟩, (h2 r this).1 c⟩, b⟩
    · intro k hk
      rfl

theorem sumP_zero [AddCommMonoid T] {n : Nat} {P : Nat → Prop} : SumP n P (fun _ => (0 : T)) = 0 := by
  classical
  unfold SumP
  exact sum_const_zero

theorem sumP_all [AddCommMonoid T] {n : Nat} {P : Nat → Prop} (hP : ∀ k, 0 < k → k < n → P k) (G : Nat → T) : SumP n P G = ∑ k ∈ Ico 1 n, G k := by
  classical
  unfold SumP
  refine sum_congr ?_ fun _ _ => rfl
  ext k
  simp only [mem_filter, mem_Ico]
  exact ⟨fun h => h.1, fun h => ⟨h, hP k (by omega) h.2⟩⟩

theorem smooth_split {p : Nat} (hp : p.Prime) (k : Nat) (_ : 0 < k) : Smooth (p + 1) k ∧ ¬ p ∣ k ↔ Smooth p k := by
  constructor
  · rintro ⟨h, h'⟩ q hq hd
    have := h q hq hd
    have : q ≠ p := fun e => h' (e ▸ hd)
    omega
  · intro h
    exact ⟨fun q hq hd => by have := h q hq hd; omega, fun hd => absurd (h p hp hd) (by omega)⟩

theorem smooth_mul {p : Nat} (hp : p.Prime) (k : Nat) (_ : 0 < k) : Smooth (p + 1) (p * k) ↔ Smooth (p + 1) k := by
  constructor
  · exact fun h q hq hd => h q hq (Dvd.dvd.mul_left hd p)
  · intro h q hq hd
    rcases (Nat.Prime.dvd_mul hq).1 hd with e | e
    · rw [(Nat.prime_dvd_prime_iff_eq hq hp).1 e]; omega
    · exact h q hq e

theorem smooth_notprime {p : Nat} (hp : ¬ p.Prime) (k : Nat) : Smooth (p + 1) k ↔ Smooth p k :=
  ⟨fun h q hq hd => by have := h q hq hd; have : q ≠ p := fun e => hp (e ▸ hq); omega, fun h q hq hd => by have := h q hq hd; omega⟩

theorem rough_split {p : Nat} (hp : p.Prime) (k : Nat) (_ : 0 < k) : Rough p k ∧ ¬ p ∣ k ↔ Rough (p + 1) k := by
  constructor
  · rintro ⟨h, h'⟩ q hq hd
    have := h q hq hd
    have : q ≠ p := fun e => h' (e ▸ hd)
    omega
  · intro h
    exact ⟨fun q hq hd => by have := h q hq hd; omega, fun hd => absurd (h p hp hd) (by omega)⟩

theorem rough_mul {p : Nat} (hp : p.Prime) (k : Nat) (_ : 0 < k) : Rough p (p * k) ↔ Rough p k := by
  constructor
  · exact fun h q hq hd => h q hq (Dvd.dvd.mul_left hd p)
  · intro h q hq hd
    rcases (Nat.Prime.dvd_mul hq).1 hd with e | e
    · rw [(Nat.prime_dvd_prime_iff_eq hq hp).1 e]
    · exact h q hq e

theorem rough_notprime {p : Nat} (hp : ¬ p.Prime) (k : Nat) : Rough (p + 1) k ↔ Rough p k :=
  ⟨fun h q hq hd => by have := h q hq hd; omega, fun h q hq hd => by have := h q hq hd; have : q ≠ p := fun e => hp (e ▸ hq); omega⟩

theorem smooth_all {n k : Nat} (h0 : 0 < k) (hk : k < n) : Smooth n k := fun q _ hd => lt_of_le_of_lt (Nat.le_of_dvd h0 hd) hk

theorem smooth_two {k : Nat} (h0 : 0 < k) : Smooth 2 k ↔ k = 1 := by
  constructor
  · intro h
    by_contra hc
    exact absurd (h _ (Nat.minFac_prime hc) (Nat.minFac_dvd k)) (by have := (Nat.minFac_prime hc).two_le; omega)
  · rintro rfl q hq hd
    exact absurd hd (by simpa using hq.ne_one)

theorem rough_two (k : Nat) : Rough 2 k := fun _ hq _ => hq.two_le

theorem rough_all {n k : Nat} (h0 : 0 < k) (hk : k < n) : Rough n k ↔ k = 1 := by
  constructor
  · intro h
    by_contra hc
    exact absurd (h _ (Nat.minFac_prime hc) (Nat.minFac_dvd k)) (by have := Nat.minFac_le h0; omega)
  · rintro rfl q hq hd
    exact absurd hd (by simpa using hq.ne_one)

theorem sumP_one [AddCommMonoid T] {n : Nat} {P : Nat → Prop} (hn : 1 < n) (h : ∀ k, 0 < k → k < n → (P k ↔ k = 1)) (G : Nat → T) : SumP n P G = G 1 := by
  classical
  rw [sumP_congr (Q := fun k => k = 1) h (fun _ _ _ _ => rfl)]
  unfold SumP
  rw [← sum_singleton G 1]
  refine sum_congr ?_ fun _ _ => rfl
  ext k
  simp only [mem_filter, mem_Ico, mem_singleton]
  omega

/-! ### The two kernels -/

/-- Kernel of the divisor sums. -/
def KD [Zero T] (f : Nat → T) (m k : Nat) : T := if k ∣ m then f (m / k) else 0

/-- Kernel of the sums over multiples. -/
def KM [Zero T] (n : Nat) (f : Nat → T) (m k : Nat) : T := if k * m < n then f (k * m) else 0

section
variable [AddCommMonoid T] {n : Nat} (f : Nat → T)

theorem KD_zero {m k : Nat} (h0 : 0 < m) (hm : m < n) (hk : n ≤ k) : KD f m k = 0 := if_neg fun h => by have := Nat.le_of_dvd h0 h; omega

theorem KM_zero {m k : Nat} (h0 : 0 < m) (hk : n ≤ k) : KM n f m k = 0 := if_neg (by nlinarith)

theorem KD_mul {p m k : Nat} (hp : 0 < p) : KD f m (p * k) = if p ∣ m then KD f (m / p) k else 0 := by
  unfold KD
  by_cases h : p ∣ m
  · obtain ⟨r, rfl⟩ := h
    rw [if_pos (show p ∣ p * r from ⟨r, rfl⟩), Nat.mul_div_cancel_left r hp]
    by_cases c : k ∣ r
    · rw [if_pos (Nat.mul_dvd_mul_left p c), if_pos c, Nat.mul_div_mul_left _ _ hp]
    · rw [if_neg c, if_neg (fun hh => c ((Nat.mul_dvd_mul_iff_left hp).1 hh))]
  · rw [if_neg h, if_neg (fun hh => h (dvd_of_mul_right_dvd hh))]

theorem KM_mul {p m k : Nat} (hk : 0 < k) : KM n f m (p * k) = if p * m < n then KM n f (p * m) k else 0 := by
  unfold KM
  rw [show p * k * m = k * (p * m) by ring]
  by_cases h : p * m < n
  · rw [if_pos h]
  · rw [if_neg h, if_neg (by nlinarith)]

theorem sumD_split {p m : Nat} (hp : p.Prime) (h0 : 0 < m) (hm : m < n) {P Q : Nat → Prop} (h1 : ∀ k, 0 < k → (P k ∧ ¬ p ∣ k ↔ Q k)) (h2 : ∀ k, 0 < k → (P (p * k) ↔ P k)) :
    SumP n P (KD f m) = SumP n Q (KD f m) + if p ∣ m then SumP n P (KD f (m / p)) else 0 := by
  rw [sumP_split hp.two_le h1 h2 fun k hk => KD_zero f h0 hm hk]
  congr 1
  by_cases d : p ∣ m
  · rw [if_pos d]
    exact sumP_congr (fun _ _ _ => Iff.rfl) fun k _ _ _ => by rw [KD_mul f hp.pos, if_pos d]
  · rw [if_neg d]
    rw [sumP_congr (Q := P) (H := fun _ => (0 : T)) (fun _ _ _ => Iff.rfl) fun k _ _ _ => by rw [KD_mul f hp.pos, if_neg d]]
    exact sumP_zero

theorem sumM_split {p m : Nat} (hp : p.Prime) (h0 : 0 < m) {P Q : Nat → Prop} (h1 : ∀ k, 0 < k → (P k ∧ ¬ p ∣ k ↔ Q k)) (h2 : ∀ k, 0 < k → (P (p * k) ↔ P k)) :
    SumP n P (KM n f m) = SumP n Q (KM n f m) + if p * m < n then SumP n P (KM n f (p * m)) else 0 := by
  rw [sumP_split hp.two_le h1 h2 fun k hk => KM_zero f h0 hk]
  congr 1
  by_cases d : p * m < n
  · rw [if_pos d]
    exact sumP_congr (fun _ _ _ => Iff.rfl) fun k hk _ _ => by rw [KM_mul f hk, if_pos d]
  · rw [if_neg d]
    rw [sumP_congr (Q := P) (H := fun _ => (0 : T)) (fun _ _ _ => Iff.rfl) fun k hk _ _ => by rw [KM_mul f hk, if_neg d]]
    exact sumP_zero

/-- All the divisors. -/
theorem sumD_all {m : Nat} (h0 : 0 < m) (hm : m < n) {P : Nat → Prop} (hP : ∀ k, 0 < k → k < n → P k) : SumP n P (KD f m) = ∑ d ∈ (Ico 1 n).filter (fun (d : Nat) => d ∣ m), f d := by
  rw [sumP_all hP]
  unfold KD
  rw [← sum_filter]
  have e : (Ico 1 n).filter (fun (d : Nat) => d ∣ m) = m.divisors := by
    ext d
    simp only [mem_filter, mem_Ico, Nat.mem_divisors]
    constructor
    · exact fun h => ⟨h.2, by omega⟩
    · exact fun h => ⟨⟨Nat.pos_of_dvd_of_pos h.1 h0, lt_of_le_of_lt (Nat.le_of_dvd h0 h.1) hm⟩, h.1⟩
  rw [e, Nat.sum_div_divisors]

/-- All the multiples. -/
theorem sumM_all {m : Nat} (h0 : 0 < m) {P : Nat → Prop} (hP : ∀ k, 0 < k → k < n → P k) : SumP n P (KM n f m) = ∑ j ∈ (Ico 1 n).filter (fun (j : Nat) => m ∣ j), f j := by
  rw [sumP_all hP]
  unfold KM
  rw [← sum_filter]
  refine sum_bij (fun k _ => k * m) ?_ ?_ ?_ ?_
  · intro k hk
    simp only [mem_filter, mem_Ico] at hk ⊢
    exact ⟨⟨by nlinarith, hk.2⟩, by simp⟩
  · intro k _ k' _ e
    exact Nat.eq_of_mul_eq_mul_right h0 e
  · intro j hj
    simp only [mem_filter, mem_Ico] at hj
    obtain ⟨⟨a, b⟩, k, rfl⟩ := hj
    have : 0 < k := by rcases Nat.eq_zero_or_pos k with e | e; · simp [e] at a
                       · exact e
    refine ⟨k, ?_, Nat.mul_comm _ _⟩
    simp only [mem_filter, mem_Ico]
    rw [Nat.mul_comm]
    exact ⟨⟨by omega, by nlinarith⟩, b⟩
  · intro k _; rfl

end

/-- Keep index 0 as it is. -/
def fix0 (f g : Nat → T) (m : Nat) : T := if m = 0 then f 0 else g m

theorem fix0_pos (f g : Nat → T) {m : Nat} (h : 0 < m) : fix0 f g m = g m := if_neg (by omega)

/-- Sums over divisors in `[1, n)`. -/
def zetaD [AddCommMonoid T] (n : Nat) (f : Nat → T) : Nat → T := fix0 f fun m => ∑ d ∈ (Ico 1 n).filter (fun (d : Nat) => d ∣ m), f d

/-- Sums over multiples in `[1, n)`. -/
def zetaM [AddCommMonoid T] (n : Nat) (f : Nat → T) : Nat → T := fix0 f fun m => ∑ d ∈ (Ico 1 n).filter (fun (d : Nat) => m ∣ d), f d

theorem zeta_tot [AddCommGroup T] {n : Nat} {x : Array T} {f : Nat → T} (hx : RepA Eq x n f) : Tot (zeta (· + ·) x) fun r => RepA Eq r n (zetaD n f) := by
  unfold zeta
  rw [hx.1]
  refine (run_tot (St := fun p => fix0 f fun m => SumP n (Smooth p) (KD f m)) hx.1 (hx.congr fun m hm => ?_) ?_ ?_).mono fun r hr => hr.congr fun m hm => ?_
  · rcases Nat.eq_zero_or_pos m with e | e
    · subst e; rfl
    · rw [fix0_pos _ _ e, sumP_one (by omega) (fun k h0 _ => smooth_two h0)]
      simp [KD]
  · intro p hp hpn
    refine cum_ok hp.two_le hpn ?_ rfl
    intro m h0 hm
    rw [fix0_pos _ _ h0, fix0_pos _ _ h0, sumD_split f hp h0 hm (smooth_split hp) (smooth_mul hp)]
    congr 1
    split
    · rename_i d
      rw [fix0_pos _ _ (Nat.div_pos (Nat.le_of_dvd h0 d) hp.pos)]
    · rfl
  · intro p _ hp _ m _
    unfold fix0
    split
    · rfl
    · exact sumP_congr (fun k _ _ => smooth_notprime hp k) (fun _ _ _ _ => rfl)
  · rcases Nat.eq_zero_or_pos m with e | e
    · subst e; split <;> rfl
    · rw [if_neg (by omega)]
      unfold zetaD
      rw [fix0_pos _ _ e, fix0_pos _ _ e, sumD_all f e hm fun k a b => smooth_all a b]

theorem mobius_tot [AddCommGroup T] {n : Nat} {x : Array T} {h : Nat → T} (hx : RepA Eq x n (zetaD n h)) : Tot (mobius (· - ·) x) fun r => RepA Eq r n h := by
  unfold mobius
  rw [hx.1]
  refine (run_tot (St := fun p => fix0 h fun m => SumP n (Rough p) (KD h m)) hx.1 (hx.congr fun m hm => ?_) ?_ ?_).mono fun r hr => hr.congr fun m hm => ?_
  · rcases Nat.eq_zero_or_pos m with e | e
    · subst e; rfl
    · unfold zetaD
      rw [fix0_pos _ _ e, fix0_pos _ _ e, sumD_all h e hm fun k a b => rough_two k]
  · intro p hp hpn
    refine diff_ok hp.two_le hpn ?_ rfl
    intro m h0 hm
    rw [fix0_pos _ _ h0, fix0_pos _ _ h0, sumD_split h hp h0 hm (rough_split hp) (rough_mul hp)]
    split
    · rename_i d
      rw [fix0_pos _ _ (Nat.div_pos (Nat.le_of_dvd h0 d) hp.pos), add_sub_cancel_right]
    · simp
  · intro p _ hp _ m _
    unfold fix0
    split
    · rfl
    · exact sumP_congr (fun k _ _ => rough_notprime hp k) (fun _ _ _ _ => rfl)
  · rcases Nat.eq_zero_or_pos m with e | e
    · subst e; split <;> rfl
    · rw [if_neg (by omega), fix0_pos _ _ e, sumP_one (by omega) (fun k h0 hk => rough_all h0 hk)]
      simp [KD]

/-- Every function is a divisor sum. -/
theorem exists_zetaD [AddCommGroup T] (n : Nat) (f : Nat → T) : ∃ h : Nat → T, ∀ m, m < n → f m = zetaD n h m := by
  have key := (ArithmeticFunction.sum_eq_iff_sum_smul_moebius_eq (f := fun m => ∑ x ∈ m.divisorsAntidiagonal, (ArithmeticFunction.moebius x.1 : Int) • f x.2) (g := f)).2 (fun _ _ => rfl)
  refine ⟨fix0 f fun m => ∑ x ∈ m.divisorsAntidiagonal, (ArithmeticFunction.moebius x.1 : Int) • f x.2, fun m hm => ?_⟩
  rcases Nat.eq_zero_or_pos m with e | e
  · subst e; rfl
  · unfold zetaD
    rw [fix0_pos _ _ e, ← key m e]
    symm
    refine sum_congr ?_ fun d hd => ?_
    · ext d
      simp only [mem_filter, mem_Ico, Nat.mem_divisors]
      constructor
      · exact fun h => ⟨h.2, by omega⟩
      · exact fun h => ⟨⟨Nat.pos_of_dvd_of_pos h.1 e, lt_of_le_of_lt (Nat.le_of_dvd e h.1) hm⟩, h.1⟩
    · exact fix0_pos _ _ (Nat.pos_of_mem_divisors hd)

end DivisorTransform

namespace MultipleTransform
open Cxx Finset Kronecker DivisorTransform

variable {T : Type}

theorem cum_ok [AddCommMonoid T] {n p : Nat} {S0 S1 : Nat → T} (hp : 2 ≤ p) (hpn : p < n) (h : ∀ m, 0 < m → m < n → S1 m = S0 m + if p * m < n then S1 (p * m) else 0) (h0 : S1 0 = S0 0) :
    BodyOk n (cum (· + ·) n) p S0 S1 := by
  rintro ⟨f, b⟩ B hf hb
  unfold cum
  have hb1 : ∀ q, q < (n - 1) / p + 1 ↔ q * p < n := fun q => div_bound (by omega) (by omega)
  have hbm := (hb1 ((n - 1) / p + 1)).not.1 (by omega)
  refine (Tot.forDown (P := fun q (s : Array T × Array Bool) => RepA Eq s.1 n (fun m => if q ≤ m then S1 m else S0 m) ∧
    RepA Eq s.2 n (fun j => B j && !decide (p ∣ j ∧ q * p ≤ j))) (Nat.le_add_left 1 _) ⟨hf.congr fun m hm => ?_, hb.congr fun j hj => ?_⟩ ?_).mono ?_
  · split
    · rename_i g
      have : ¬ m * p < n := fun hh => absurd ((hb1 m).2 hh) (by omega)
      rw [h m (lt_of_lt_of_le (Nat.succ_pos _) g) hm, if_neg (by rw [Nat.mul_comm]; exact this), add_zero]
    · rfl
  · rw [decide_eq_false]
    · simp
    · rintro ⟨d, e⟩
      omega
  · rintro q ⟨f, b⟩ hq1 hq2 ⟨h3, h4⟩
    dsimp only at h3 h4
    have c : q * p < n := (hb1 q).1 hq2
    unfold cumStep
    dsimp only
    have hq : q < q * p := by nlinarith
    have hq0 : 0 < q * p := by omega
    have hq3 : (q + 1) * p = q * p + p := by ring
    rw [rd' h3 (show q < n by omega), ok_bind, rd' h3 c, ok_bind]
    rw [if_neg (by omega), if_pos (by omega)]
    have e2 : S1 q = S0 q + S1 (q * p) := by
      rw [h q (by omega) (by omega), if_pos (by rw [Nat.mul_comm]; exact c), Nat.mul_comm]
    rw [← e2]
    have key : ∀ m, m ≠ q * p → p ∣ m → ((q + 1) * p ≤ m ↔ q * p ≤ m) := by
      rintro m e ⟨r, rfl⟩
      rw [Nat.mul_comm p r] at *
      constructor
      · intro hh; omega
      · intro hh
        have : q ≤ r := Nat.le_of_mul_le_mul_right hh (by omega)
        have : r ≠ q := fun hh => e (by rw [hh])
        exact Nat.mul_le_mul_right p (by omega)
    refine Tot.bind (h3.wr (show q < n by omega) (rfl : S1 q = S1 q)) fun f' hf' => Tot.bind (h4.wr c (rfl : false = false)) fun b' hb' => Tot.pure ⟨?_, ?_⟩
    · refine hf'.congr fun m hm => ?_
      by_cases e : m = q
      · subst e
        rw [if_pos rfl, if_pos (le_refl _)]
      · rw [if_neg e]
        exact if_congr ⟨fun hh => by omega, fun hh => by omega⟩ rfl rfl
    · refine hb'.congr fun m hm => ?_
      by_cases e : m = q * p
      · subst e
        rw [if_pos rfl, decide_eq_true ⟨⟨q, Nat.mul_comm _ _⟩, le_refl _⟩]
        simp
      · rw [if_neg e]
        congr 2
        exact decide_eq_decide.2 (and_congr_right fun d => key m e d)
  · rintro ⟨f, b⟩ ⟨h3, h4⟩
    dsimp only at h3 h4
    rw [one_mul] at h4
    have key : ∀ m, p ∣ m → (p ≤ m ↔ 0 < m) := fun m d => ⟨fun hh => by omega, fun hh => Nat.le_of_dvd hh d⟩
    refine ⟨h3.congr fun m hm => ?_, h4.congr fun m hm => ?_⟩
    · rcases Nat.eq_zero_or_pos m with e | e
      · subst e
        rw [if_neg (by omega), h0]
      · rw [if_pos (by omega)]
    · congr 2
      exact decide_eq_decide.2 (and_congr_right fun d => key m d)

theorem diff_ok [AddCommGroup T] {n p : Nat} {S0 S1 : Nat → T} (hp : 2 ≤ p) (hpn : p < n) (h : ∀ m, 0 < m → m < n → S1 m = S0 m - if p * m < n then S0 (p * m) else 0) (h0 : S1 0 = S0 0) :
    BodyOk n (diff (· - ·) n) p S0 S1 := by
  rintro ⟨f, b⟩ B hf hb
  unfold diff
  refine Tot.bind (Tot.loop (fun s : Nat × Nat × Array T × Array Bool => n - s.2.1)
    (P := fun s : Nat × Nat × Array T × Array Bool => 1 ≤ s.1 ∧ s.2.1 = s.1 * p ∧ RepA Eq s.2.2.1 n (fun m => if m < s.1 then S1 m else S0 m) ∧
      RepA Eq s.2.2.2 n (fun j => B j && !decide (p ∣ j ∧ 0 < j ∧ j < s.1 * p)))
    (Q := fun s : Nat × Nat × Array T × Array Bool => RepA Eq s.2.2.1 n S1 ∧ RepA Eq s.2.2.2 n (fun j => B j && !decide (p ∣ j ∧ 0 < j))) ?_
    ⟨le_refl 1, by simp, hf.congr fun m hm => ?_, hb.congr fun j hj => ?_⟩ (Nat.sub_le _ _)) fun s hs => Tot.pure hs
  · rintro ⟨q, pq, f, b⟩ ⟨h1, h2, h3, h4⟩
    dsimp only at h1 h2 h3 h4
    subst h2
    unfold diffStep
    dsimp only
    by_cases c : q * p < n
    · rw [if_pos c]
      have hq : q < q * p := by nlinarith
      have hq0 : 0 < q * p := by omega
      rw [rd' h3 (show q < n by omega), ok_bind, rd' h3 c, ok_bind]
      have e2 : S1 q = S0 q - S0 (q * p) := by
        rw [h q (by omega) (by omega), if_pos (by rw [Nat.mul_comm]; exact c), Nat.mul_comm]
      rw [if_neg (by omega), if_neg (by omega), ← e2]
      refine Tot.bind (h3.wr (show q < n by omega) (rfl : S1 q = S1 q)) fun f' hf' => Tot.bind (h4.wr c (rfl : false = false)) fun b' hb' => Tot.pure ⟨⟨by omega, by ring, ?_, ?_⟩, ?_⟩
      · refine hf'.congr fun m hm => ?_
        dsimp only
        by_cases e : m = q
        · subst e
          rw [if_pos rfl, if_pos (by omega)]
        · rw [if_neg e]
          exact if_congr ⟨fun hh => by omega, fun hh => by omega⟩ rfl rfl
      · refine hb'.congr fun m hm => ?_
        dsimp only
        by_cases e : m = q * p
        · subst e
          rw [if_pos rfl, decide_eq_true ⟨⟨q, Nat.mul_comm _ _⟩, by omega, by nlinarith⟩]
          simp
        · rw [if_neg e]
          congr 2
          refine decide_eq_decide.2 (and_congr_right fun d => ?_)
          obtain ⟨r, rfl⟩ := d
          rw [Nat.mul_comm p r] at *
          constructor
          · intro hh; exact ⟨hh.1, by nlinarith⟩
          · intro hh
            have : r < q + 1 := Nat.lt_of_mul_lt_mul_right hh.2
            have : r ≠ q := fun hh => e (by rw [hh])
            have : r < q := by omega
            exact ⟨hh.1, by nlinarith⟩
      · dsimp only; omega
    · rw [if_neg c]
      refine Tot.pure ⟨h3.congr fun m hm => ?_, h4.congr fun j hj => ?_⟩
      · split
        · rfl
        · rename_i g
          rw [h m (by omega) hm, if_neg (by nlinarith), sub_zero]
      · congr 2
        exact decide_eq_decide.2 ⟨fun hh => ⟨hh.1, hh.2.1⟩, fun hh => ⟨hh.1, hh.2, by omega⟩⟩
  · dsimp only
    by_cases d : m < 1
    · rw [if_pos d]
      have : m = 0 := by omega
      subst this; exact h0.symm
    · rw [if_neg d]
  · dsimp only
    rw [decide_eq_false]
    · simp
    · rintro ⟨h1, h2, h3⟩
      exact absurd (Nat.le_of_dvd h2 h1) (by omega)

theorem zeta_tot [AddCommGroup T] {n : Nat} {x : Array T} {f : Nat → T} (hx : RepA Eq x n f) : Tot (zeta (· + ·) x) fun r => RepA Eq r n (zetaM n f) := by
  unfold zeta
  rw [hx.1]
  refine (run_tot (St := fun p => fix0 f fun m => SumP n (Smooth p) (KM n f m)) hx.1 (hx.congr fun m hm => ?_) ?_ ?_).mono fun r hr => hr.congr fun m hm => ?_
  · rcases Nat.eq_zero_or_pos m with e | e
    · subst e; rfl
    · rw [fix0_pos _ _ e, sumP_one (by omega) (fun k h0 _ => smooth_two h0)]
      simp [KM, hm]
  · intro p hp hpn
    refine cum_ok hp.two_le hpn ?_ rfl
    intro m h0 hm
    rw [fix0_pos _ _ h0, fix0_pos _ _ h0, sumM_split f hp h0 (smooth_split hp) (smooth_mul hp), fix0_pos _ _ (Nat.mul_pos hp.pos h0)]
  · intro p _ hp _ m _
    unfold fix0
    split
    · rfl
    · exact sumP_congr (fun k _ _ => smooth_notprime hp k) (fun _ _ _ _ => rfl)
  · rcases Nat.eq_zero_or_pos m with e | e
    · subst e; split <;> rfl
    · rw [if_neg (by omega)]
      unfold zetaM
      rw [fix0_pos _ _ e, fix0_pos _ _ e, sumM_all f e fun k a b => smooth_all a b]

theorem mobius_tot [AddCommGroup T] {n : Nat} {x : Array T} {h : Nat → T} (hx : RepA Eq x n (zetaM n h)) : Tot (mobius (· - ·) x) fun r => RepA Eq r n h := by
  unfold mobius
  rw [hx.1]
  refine (run_tot (St := fun p => fix0 h fun m => SumP n (Rough p) (KM n h m)) hx.1 (hx.congr fun m hm => ?_) ?_ ?_).mono fun r hr => hr.congr fun m hm => ?_
  · rcases Nat.eq_zero_or_pos m with e | e
    · subst e; rfl
    · unfold zetaM
      rw [fix0_pos _ _ e, fix0_pos _ _ e, sumM_all h e fun k a b => rough_two k]
  · intro p hp hpn
    refine diff_ok hp.two_le hpn ?_ rfl
    intro m h0 hm
    rw [fix0_pos _ _ h0, fix0_pos _ _ h0, sumM_split h hp h0 (rough_split hp) (rough_mul hp), fix0_pos _ _ (Nat.mul_pos hp.pos h0), add_sub_cancel_right]
  · intro p _ hp _ m _
    unfold fix0
    split
    · rfl
    · exact sumP_congr (fun k _ _ => rough_notprime hp k) (fun _ _ _ _ => rfl)
  · rcases Nat.eq_zero_or_pos m with e | e
    · subst e; split <;> rfl
    · rw [if_neg (by omega), fix0_pos _ _ e, sumP_one (by omega) (fun k h0 hk => rough_all h0 hk)]
      simp [KM, hm]

/-- Every function is a sum over multiples. -/
theorem exists_zetaM [AddCommGroup T] (n : Nat) (f : Nat → T) : ∃ h : Nat → T, ∀ m, m < n → f m = zetaM n h m := by
  have key : ∀ t, ∃ h : Nat → T, ∀ m, m < n → n ≤ m + t → 0 < m → f m = ∑ d ∈ (Ico 1 n).filter (fun (d : Nat) => m ∣ d), h d := by
    intro t
    induction t with
    | zero => exact ⟨f, fun m h1 h2 _ => by omega⟩
    | succ t ih =>
      obtain ⟨h, hh⟩ := ih
      obtain ⟨s, hs⟩ : ∃ s, s = n - (t + 1) := ⟨_, rfl⟩
      refine ⟨Function.update h s (f s - ∑ d ∈ ((Ico 1 n).filter (fun (d : Nat) => s ∣ d)).erase s, h d), fun m h1 h2 h3 => ?_⟩
      by_cases e : m = s
      · subst e
        rw [← add_sum_erase _ _ (show m ∈ (Ico 1 n).filter (fun (d : Nat) => m ∣ d) by simp; omega), Function.update_self]
        rw [show ∀ v : T, ∑ d ∈ ((Ico 1 n).filter (fun (d : Nat) => m ∣ d)).erase m, Function.update h m v d = ∑ d ∈ ((Ico 1 n).filter (fun (d : Nat) => m ∣ d)).erase m, h d from
          fun v => sum_congr rfl fun d hd => Function.update_of_ne (ne_of_mem_erase hd) _ _, sub_add_cancel]
      · rw [hh m h1 (by omega) h3]
        refine sum_congr rfl fun d hd => ?_
        rw [mem_filter, mem_Ico] at hd
        have := Nat.le_of_dvd (by omega) hd.2
        rw [Function.update_of_ne (by omega)]
  obtain ⟨h, hh⟩ := key n
  refine ⟨fix0 f h, fun m hm => ?_⟩
  rcases Nat.eq_zero_or_pos m with e | e
  · subst e; rfl
  · unfold zetaM
    rw [fix0_pos _ _ e, hh m hm (by omega) e]
    refine sum_congr rfl fun d hd => ?_
    rw [mem_filter, mem_Ico] at hd
    exact (fix0_pos _ _ (by omega)).symm

/-! ### The convolutions -/

/-- Convolution with index 0 separate. -/
def conv0 [Ring T] (n : Nat) (op : Nat → Nat → Nat) (a b : Nat → T) : Nat → T := fun k => if k = 0 then a 0 * b 0 else convOf (Ico 1 n) op a b k

theorem gcdConvolution_tot [Ring T] {n : Nat} {a b : Array T} (ha : a.size = n) (hb : b.size = n) :
    Tot (gcdConvolution a b) fun r => RepA Eq r n (conv0 n Nat.gcd (at' 0 a) (at' 0 b)) := by
  unfold gcdConvolution transformConvolution
  rw [decide_eq_true (show a.size = b.size by omega), check_true, ok_bind]
  refine Tot.bind (zeta_tot (repA_of_size ha)) fun x hx => Tot.bind (zeta_tot (repA_of_size hb)) fun y hy => ?_
  refine Tot.bind (pointwise_tot (rep := Eq) (m := (· * ·)) hx hy fun c d u v => ok2_tot c d u v) fun z hz => mobius_tot (hz.congr fun m hm => ?_)
  rcases Nat.eq_zero_or_pos m with e | e
  · subst e; rfl
  · unfold zetaM
    rw [fix0_pos _ _ e, fix0_pos _ _ e, fix0_pos _ _ e]
    have := conv_thm (Ico 1 n) Nat.gcd (fun i => if m ∣ i then 1 else 0) ?_ ?_ (at' 0 a) (at' 0 b)
    · simp only [sum_filter]
      simp only [ite_smul, one_smul, zero_smul] at this
      rw [this]
      refine sum_congr rfl fun y hy => ?_
      rw [mem_Ico] at hy
      split
      · rw [conv0, if_neg (by omega)]; rfl
      · rfl
    · intro i _ j _ _
      by_cases c1 : m ∣ i <;> by_cases c2 : m ∣ j <;> simp [Nat.dvd_gcd_iff, c1, c2]
    · intro i hi j hj hij
      rw [mem_Ico] at hi hj hij
      have h1 := Nat.gcd_pos_of_pos_left j (show 0 < i by omega)
      have h2 := Nat.gcd_le_left j (show 0 < i by omega)
      omega

theorem lcmConvolution_tot [Ring T] {n : Nat} {a b : Array T} (ha : a.size = n) (hb : b.size = n) :
    Tot (lcmConvolution a b) fun r => RepA Eq r n (conv0 n Nat.lcm (at' 0 a) (at' 0 b)) := by
  unfold lcmConvolution transformConvolution
  rw [decide_eq_true (show a.size = b.size by omega), check_true, ok_bind]
  refine Tot.bind (DivisorTransform.zeta_tot (repA_of_size ha)) fun x hx => Tot.bind (DivisorTransform.zeta_tot (repA_of_size hb)) fun y hy => ?_
  refine Tot.bind (pointwise_tot (rep := Eq) (m := (· * ·)) hx hy fun c d u v => ok2_tot c d u v) fun z hz => DivisorTransform.mobius_tot (hz.congr fun m hm => ?_)
  rcases Nat.eq_zero_or_pos m with e | e
  · subst e; rfl
  · unfold zetaD
    rw [fix0_pos _ _ e, fix0_pos _ _ e, fix0_pos _ _ e]
    have := conv_thm (Ico 1 n) Nat.lcm (fun i => if i ∣ m then 1 else 0) ?_ ?_ (at' 0 a) (at' 0 b)
    · simp only [sum_filter]
      simp only [ite_smul, one_smul, zero_smul] at this
      rw [this]
      refine sum_congr rfl fun y hy => ?_
      rw [mem_Ico] at hy
      split
      · rw [conv0, if_neg (by omega)]; rfl
      · rfl
    · intro i _ j _ _
      by_cases c1 : i ∣ m <;> by_cases c2 : j ∣ m <;> simp [Nat.lcm_dvd_iff, c1, c2]
    · intro i hi j hj hij
      rw [mem_Ico] at hi hj hij
      have h1 := Nat.lcm_pos (show 0 < i by omega) (show 0 < j by omega)
      by_cases c1 : i ∣ m <;> by_cases c2 : j ∣ m <;> simp [c1, c2]
      have := Nat.le_of_dvd e (Nat.lcm_dvd c1 c2)
      omega

end MultipleTransform
