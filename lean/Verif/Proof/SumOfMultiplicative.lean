import Verif.Model.SumOfMultiplicative
import Mathlib.NumberTheory.ArithmeticFunction.Moebius
import Mathlib.Data.Nat.Totient
import Mathlib.Tactic.Ring
import Mathlib.Algebra.BigOperators.Intervals

namespace SumOfMult
open Cxx

variable {T : Type} [CommRing T]

/-- Sum of the first `x` values. -/
def S (f : Nat → T) (x : Nat) : T := ∑ k ∈ Finset.Icc 1 x, f k

theorem S_succ (f : Nat → T) (x : Nat) : S f (x + 1) = f (x + 1) + S f x := by
  unfold S
  rw [Finset.sum_Icc_succ_top (by omega), add_comm]

theorem sum_head {g : Nat → T} {i : Nat} (h : 1 ≤ i) : ∑ l ∈ Finset.Icc 1 i, g l = g 1 + ∑ l ∈ Finset.Icc 2 i, g l := by
  have : Finset.Icc 1 i = insert 1 (Finset.Icc 2 i) := by
    ext t
    simp only [Finset.mem_Icc, Finset.mem_insert]
    omega
  rw [this, Finset.sum_insert (by simp)]

/-- Summation by divisors. -/
theorem hyperbola (f : Nat → T) (x : Nat) : ∑ l ∈ Finset.Icc 1 x, S f (x / l) = ∑ m ∈ Finset.Icc 1 x, ∑ d ∈ m.divisors, f d := by
  have h1 : ∀ l ∈ Finset.Icc 1 x, S f (x / l) = ∑ k ∈ Finset.Icc 1 x, if l * k ≤ x then f k else 0 := by
    intro l hl
    rw [Finset.mem_Icc] at hl
    unfold S
    rw [← Finset.sum_filter]
    refine Finset.sum_congr ?_ fun _ _ => rfl
    ext k
    simp only [Finset.mem_filter, Finset.mem_Icc]
    rw [Nat.le_div_iff_mul_le (by omega), Nat.mul_comm k l]
    constructor
    · rintro ⟨h1, h2⟩
      refine ⟨⟨h1, le_trans (Nat.le_mul_of_pos_left k (by omega)) h2⟩, h2⟩
    · rintro ⟨⟨h1, -⟩, h2⟩
      exact ⟨h1, h2⟩
  have h2 : ∀ m ∈ Finset.Icc 1 x, ∑ d ∈ m.divisors, f d = ∑ k ∈ Finset.Icc 1 x, if k ∣ m then f k else 0 := by
    intro m hm
    rw [Finset.mem_Icc] at hm
    rw [← Finset.sum_filter]
    refine Finset.sum_congr ?_ fun _ _ => rfl
    ext k
    simp only [Finset.mem_filter, Finset.mem_Icc, Nat.mem_divisors]
    constructor
    · rintro ⟨h1, h2⟩
      have := Nat.le_of_dvd (by omega) h1
      have := Nat.pos_of_dvd_of_pos h1 (by omega)
      exact ⟨⟨by omega, by omega⟩, h1⟩
    · rintro ⟨-, h1⟩
      exact ⟨h1, by omega⟩
  rw [Finset.sum_congr rfl h1, Finset.sum_congr rfl h2, Finset.sum_comm, Finset.sum_comm (s := Finset.Icc 1 x) (t := Finset.Icc 1 x) (f := fun m k => if k ∣ m then f k else 0)]
  refine Finset.sum_congr rfl fun k hk => ?_
  rw [Finset.mem_Icc] at hk
  rw [← Finset.sum_filter, ← Finset.sum_filter, Finset.sum_const, Finset.sum_const]
  congr 1
  refine Finset.card_bij (fun l _ => l * k) ?_ ?_ ?_
  · intro l hl
    simp only [Finset.mem_filter, Finset.mem_Icc] at hl ⊢
    refine ⟨⟨?_, hl.2⟩, Nat.dvd_mul_left k l⟩
    exact Nat.mul_pos (by omega) (by omega)
  · intro a _ b _ h
    exact Nat.eq_of_mul_eq_mul_right (by omega) h
  · intro m hm
    simp only [Finset.mem_filter, Finset.mem_Icc] at hm
    obtain ⟨⟨h1, h2⟩, c, rfl⟩ := hm
    refine ⟨c, ?_, Nat.mul_comm c k⟩
    simp only [Finset.mem_filter, Finset.mem_Icc]
    rw [Nat.mul_comm c k]
    refine ⟨⟨Nat.pos_of_mul_pos_left (by omega : 0 < k * c), le_trans (Nat.le_mul_of_pos_left c (by omega)) h2⟩, h2⟩

theorem div_block {i l t : Nat} (hl : 1 ≤ l) (hli : l ≤ i) (h1 : l ≤ t) (h2 : t ≤ i / (i / l)) : i / t = i / l := by
  have hq : 1 ≤ i / l := (Nat.le_div_iff_mul_le (by omega)).mpr (by omega)
  refine le_antisymm (Nat.div_le_div_left h1 (by omega)) ?_
  rw [Nat.le_div_iff_mul_le (by omega), Nat.mul_comm]
  exact (Nat.le_div_iff_mul_le (by omega)).mp h2

theorem le_block {i l : Nat} (hl : 1 ≤ l) (hli : l ≤ i) : l ≤ i / (i / l) := by
  have hq : 1 ≤ i / l := (Nat.le_div_iff_mul_le (by omega)).mpr (by omega)
  rw [Nat.le_div_iff_mul_le (by omega)]
  exact Nat.mul_div_le i l

/-- The small entries. -/
def Small (f : Nat → T) (dps : Array T) : Prop := ∀ q, q < dps.size → at' 0 dps q = S f q

/-- The loop over blocks. -/
theorem block_tot {f : Nat → T} {dps dpl : Array T} {n d : Nat} (hs : Small f dps) (hd : 1 ≤ d)
    (hl : ∀ e, d < e → dps.size ≤ n / e → e < dpl.size ∧ at' 0 dpl e = S f (n / e)) (s : T) :
    Tot (loop (blockStep dps dpl (n / d) d) (n / d) (2, s)) fun r => r.2 = s - ∑ l ∈ Finset.Icc 2 (n / d), S f (n / d / l) := by
  obtain ⟨i, hi⟩ : ∃ i, i = n / d := ⟨_, rfl⟩
  rw [← hi]
  refine Tot.loop (P := fun r => 2 ≤ r.1 ∧ (r.1 ≤ i + 1 ∨ r.1 = 2) ∧ r.2 = s - ∑ l ∈ Finset.Ico 2 r.1, S f (i / l)) (fun r => i + 1 - r.1) ?_ ⟨le_refl _, by dsimp only; omega, by simp⟩ (by dsimp only; omega)
  rintro ⟨l, v⟩ ⟨h1, h2, h3⟩
  dsimp only at h1 h2 h3
  unfold blockStep
  dsimp only
  by_cases hc : l ≤ i
  · rw [if_pos hc, if_neg (by omega)]
    have hq : 1 ≤ i / l := (Nat.le_div_iff_mul_le (by omega)).mpr (by omega)
    have hb := le_block (by omega) hc
    have hri : i / (i / l) ≤ i := Nat.div_le_self _ _
    rw [if_neg (by omega)]
    have he : entry dps dpl (i / l) (d * l) = .ok (S f (i / l)) := by
      unfold entry
      have e1 : n / (d * l) = i / l := by rw [hi, Nat.div_div_eq_div_mul]
      split_ifs with hlt
      · rw [rd_at 0 hlt, hs _ hlt]
      · have hdl : d < d * l := by
          calc d = d * 1 := (Nat.mul_one d).symm
            _ < d * l := Nat.mul_lt_mul_of_pos_left (by omega) (by omega)
        obtain ⟨h4, h5⟩ := hl (d * l) hdl (by rw [e1]; omega)
        rw [rd_at 0 h4, h5, e1]
    rw [he, ok_bind]
    refine Tot.pure ⟨⟨by dsimp only; omega, by dsimp only; omega, ?_⟩, by dsimp only; omega⟩
    dsimp only
    rw [h3, ← Finset.sum_Ico_consecutive _ h1 (by omega : l ≤ i / (i / l) + 1)]
    have : ∑ t ∈ Finset.Ico l (i / (i / l) + 1), S f (i / t) = S f (i / l) * ((i / (i / l) - l + 1 : Nat) : T) := by
      rw [Finset.sum_congr rfl (g := fun _ => S f (i / l))]
      · rw [Finset.sum_const, Nat.card_Ico, nsmul_eq_mul, mul_comm]
        congr 2
        omega
      · intro t ht
        rw [Finset.mem_Ico] at ht
        rw [div_block (by omega) hc ht.1 (by omega)]
    rw [this]
    ring
  · rw [if_neg hc]
    refine Tot.pure ?_
    dsimp only
    rw [h3]
    congr 1
    refine Finset.sum_congr ?_ fun _ _ => rfl
    ext t
    rw [Finset.mem_Ico, Finset.mem_Icc]
    omega

/-- The large entries. -/
theorem large_tot {f : Nat → T} {dps : Array T} {n : Nat} {start : Nat → T} (hs : Small f dps) (h0 : 1 ≤ dps.size)
    (hst : ∀ i, 1 ≤ i → i ≤ n → start i = ∑ m ∈ Finset.Icc 1 i, ∑ d ∈ m.divisors, f d) (hsz : n / dps.size + 1 < 2 ^ 32) :
    Tot (large n start dps) fun dpl => ∀ e, 1 ≤ e → dps.size ≤ n / e → e < dpl.size ∧ at' 0 dpl e = S f (n / e) := by
  unfold large
  rw [Nat.mod_eq_of_lt hsz]
  obtain ⟨L, hL⟩ : ∃ L, L = n / dps.size + 1 := ⟨_, rfl⟩
  rw [← hL]
  refine (Tot.forDown (lo := 1) (hi := L) (P := fun d dpl => dpl.size = L ∧ ∀ e, d ≤ e → dps.size ≤ n / e → e < dpl.size ∧ at' 0 dpl e = S f (n / e)) (by rw [hL]; exact Nat.le_add_left 1 _) ?_ ?_).mono
    fun dpl h e he => h.2 e he
  · refine ⟨by simp, fun e he hq => ?_⟩
    exfalso
    have h1 : dps.size * e ≤ n := by
      rcases Nat.eq_zero_or_pos e with rfl | hp
      · omega
      · exact (Nat.le_div_iff_mul_le hp).mp hq
    have h2 : e ≤ n / dps.size := (Nat.le_div_iff_mul_le (by omega)).mpr (by rw [Nat.mul_comm]; exact h1)
    omega
  · rintro d dpl h1 h2 ⟨hsz, hl⟩
    have hdn : dps.size * d ≤ n := by
      have := (Nat.le_div_iff_mul_le (by omega : 0 < dps.size)).mp (by omega : d ≤ n / dps.size)
      rw [Nat.mul_comm]; exact this
    have hi : 1 ≤ n / d := (Nat.le_div_iff_mul_le (by omega)).mpr (by nlinarith)
    refine Tot.bind (block_tot hs h1 (fun e he hq => hl e (by omega) hq) (start (n / d))) fun r hr => ?_
    have hds : d < dpl.size := by omega
    refine Tot.wr hds ⟨by simpa using hsz, fun e he hq => ⟨?_, ?_⟩⟩
    · by_cases e1 : e = d
      · subst e1; simpa using hds
      · have := (hl e (by omega) hq).1
        simpa using this
    · rw [at_set 0 hds]
      by_cases e1 : d = e
      · subst e1
        rw [if_pos rfl, hr, hst _ hi (Nat.div_le_self _ _), ← hyperbola, sum_head hi, Nat.div_one]
        ring
      · rw [if_neg e1]
        exact (hl e (by omega) hq).2

theorem prefix_tot {f : Nat → T} {a : Array T} (ha : ∀ i, 1 ≤ i → i < a.size → at' 0 a i = f i) (h1 : 1 ≤ a.size) :
    Tot (prefixSums a) fun dps => dps.size = a.size ∧ Small f dps := by
  unfold prefixSums
  refine (Tot.forUp (lo := 1) (hi := a.size) (P := fun i dps => dps.size = a.size ∧ ∀ q, q < i → at' 0 dps q = S f q) h1 ?_ ?_).mono ?_
  · refine ⟨by simp, fun q hq => ?_⟩
    have : q = 0 := by omega
    subst this
    unfold S
    simp only [at', Array.getElem?_replicate]
    split <;> simp
  · rintro i dps h2 h3 ⟨h4, h5⟩
    rw [rd_at 0 h3, ok_bind, rd_at 0 (by omega), ok_bind]
    have hs : i < dps.size := by omega
    refine Tot.wr hs ⟨by simpa using h4, fun q hq => ?_⟩
    rw [at_set 0 hs]
    by_cases e : i = q
    · subst e
      obtain ⟨j, rfl⟩ : ∃ j, i = j + 1 := ⟨i - 1, by omega⟩
      rw [if_pos rfl, S_succ, ha _ h2 h3, h5 _ (by omega)]
      rfl
    · rw [if_neg e]
      exact h5 q (by omega)
  · rintro dps ⟨h2, h3⟩
    exact ⟨h2, fun q hq => h3 q (by omega)⟩

theorem ask_ok {f : Nat → T} {dps dpl : Array T} {n : Nat} (hs : Small f dps)
    (hl : ∀ e, 1 ≤ e → dps.size ≤ n / e → e < dpl.size ∧ at' 0 dpl e = S f (n / e)) {den : Nat} (hden : 1 ≤ den) :
    ask n dps dpl den = .ok (S f (n / den)) := by
  unfold ask
  rw [if_neg (by omega)]
  split_ifs with h
  · rw [rd_at 0 h, hs _ h]
  · obtain ⟨q, hq⟩ : ∃ q, q = n / den := ⟨_, rfl⟩
    rw [← hq] at h ⊢
    have e1 : n / (n / (q + 1) + 1) = q := by
      have h1 : q * den ≤ n := by rw [hq]; exact Nat.div_mul_le_self n den
      have h2 : n < (n / (q + 1) + 1) * (q + 1) := by
        have := Nat.lt_mul_div_succ n (by omega : 0 < q + 1)
        rw [Nat.mul_comm]; exact this
      have h3 : n / (q + 1) < den := by
        rw [Nat.div_lt_iff_lt_mul (by omega)]
        have : n < den * (n / den + 1) := Nat.lt_mul_div_succ n (by omega)
        rw [hq]
        exact this
      refine Nat.div_eq_of_lt_le ?_ ?_
      · calc q * (n / (q + 1) + 1) ≤ q * den := Nat.mul_le_mul_left q (by omega)
          _ ≤ n := h1
      · rw [Nat.mul_comm]
        exact h2
    obtain ⟨h4, h5⟩ := hl (n / (q + 1) + 1) (Nat.le_add_left 1 _) (by rw [e1]; omega)
    rw [rd_at 0 h4, h5, e1]

/-- Prime factors of `q` less than `p`. -/
def PF (p q : Nat) : Finset Nat := q.primeFactors.filter (· < p)

theorem mem_PF {p q r : Nat} : r ∈ PF p q ↔ r.Prime ∧ r ∣ q ∧ q ≠ 0 ∧ r < p := by
  unfold PF
  rw [Finset.mem_filter, Nat.mem_primeFactors]
  tauto

theorem PF_not_mem (p q : Nat) : p ∉ PF p q := by
  rw [mem_PF]; omega

theorem PF_succ_dvd {p q : Nat} (hp : p.Prime) (hd : p ∣ q) (hq : q ≠ 0) : PF (p + 1) q = insert p (PF p q) := by
  ext r
  rw [Finset.mem_insert, mem_PF, mem_PF]
  constructor
  · rintro ⟨h1, h2, h3, h4⟩
    by_cases e : r = p
    · exact .inl e
    · exact .inr ⟨h1, h2, h3, by omega⟩
  · rintro (rfl | ⟨h1, h2, h3, h4⟩)
    · exact ⟨hp, hd, hq, by omega⟩
    · exact ⟨h1, h2, h3, by omega⟩

theorem PF_succ_not {p q : Nat} (h : ¬(p.Prime ∧ p ∣ q)) : PF (p + 1) q = PF p q := by
  ext r
  rw [mem_PF, mem_PF]
  constructor
  · rintro ⟨h1, h2, h3, h4⟩
    refine ⟨h1, h2, h3, ?_⟩
    by_contra hc
    have : r = p := by omega
    subst this
    exact h ⟨h1, h2⟩
  · rintro ⟨h1, h2, h3, h4⟩
    exact ⟨h1, h2, h3, by omega⟩

theorem PF_two (q : Nat) : PF 2 q = ∅ := by
  ext r
  rw [mem_PF]
  constructor
  · rintro ⟨h1, -, -, h4⟩
    have := h1.two_le
    omega
  · intro h; simp at h

theorem PF_all {sz q : Nat} (h : q < sz) : PF sz q = q.primeFactors := by
  ext r
  rw [mem_PF, Nat.mem_primeFactors]
  constructor
  · rintro ⟨h1, h2, h3, -⟩; exact ⟨h1, h2, h3⟩
  · rintro ⟨h1, h2, h3⟩
    have := Nat.le_of_dvd (by omega) h2
    exact ⟨h1, h2, h3, by omega⟩

theorem prime_iff_PF {p : Nat} (hp : 2 ≤ p) : p.Prime ↔ PF p p = ∅ := by
  constructor
  · intro h
    ext r
    rw [mem_PF]
    constructor
    · rintro ⟨h1, h2, -, h4⟩
      have := (Nat.prime_dvd_prime_iff_eq h1 h).mp h2
      omega
    · intro h; simp at h
  · intro h
    by_contra hc
    have h1 : p.minFac ∈ PF p p := mem_PF.mpr ⟨Nat.minFac_prime (by omega), Nat.minFac_dvd p, by omega, (Nat.not_prime_iff_minFac_lt hp).mp hc⟩
    rw [h] at h1
    simp at h1

/-- The multiples of `p` below `sz` are `k p` with `k` below the rounded up quotient. -/
theorem ceil_bound {sz p k : Nat} (hp : 1 ≤ p) : k < (sz + p - 1) / p ↔ k * p < sz := by
  rw [show k < (sz + p - 1) / p ↔ k + 1 ≤ (sz + p - 1) / p from Iff.rfl, Nat.le_div_iff_mul_le (by omega), Nat.add_mul]
  omega

end SumOfMult

namespace SumOfMobius
open Cxx SumOfMult

/-- The product of the contributions of the prime factors less than `p`. -/
def muP (p q : Nat) : Int := ∏ r ∈ PF p q, if r * r ∣ q then 0 else -1

theorem muP_all {sz q : Nat} (h : q < sz) (hq : 1 ≤ q) : muP sz q = ArithmeticFunction.moebius q := by
  unfold muP
  rw [PF_all h, ArithmeticFunction.isMultiplicative_moebius.multiplicative_factorization _ (by omega), Finsupp.prod, Nat.support_factorization]
  refine Finset.prod_congr rfl fun r hr => ?_
  rw [Nat.mem_primeFactors] at hr
  have h1 : q.factorization r ≠ 0 := by
    have := hr.1.factorization_pos_of_dvd hr.2.2 hr.2.1
    omega
  rw [ArithmeticFunction.moebius_apply_prime_pow hr.1 h1]
  have h2 : r * r ∣ q ↔ 2 ≤ q.factorization r := by
    rw [← hr.1.pow_dvd_iff_le_factorization hr.2.2, pow_two]
  by_cases hc : r * r ∣ q
  · rw [if_pos hc, if_neg (by have := h2.mp hc; omega)]
  · rw [if_neg hc, if_pos]
    by_contra h3
    exact hc (h2.mpr (by omega))

/-- One entry after the primes less than `b`. -/
def Ent (mpf : Array Nat) (mob : Array Int) (b q : Nat) : Prop :=
  (at' 0 mpf q = 0 ↔ PF b q = ∅) ∧ at' 1 mob q = muP b q

/-- The sieve state. -/
def SInv (sz p : Nat) (s : Array Nat × Array Int) : Prop :=
  s.1.size = sz ∧ s.2.size = sz ∧ ∀ q, 1 ≤ q → q < sz → Ent s.1 s.2 p q

/-- The sieve state inside `mark`. -/
def MInv (sz p k : Nat) (s : Array Nat × Array Int) : Prop :=
  s.1.size = sz ∧ s.2.size = sz ∧ ∀ q, 1 ≤ q → q < sz → Ent s.1 s.2 (if p ∣ q ∧ q < k * p then p + 1 else p) q

theorem muP_succ {p q : Nat} (hp : p.Prime) (hd : p ∣ q) (hq : q ≠ 0) : muP (p + 1) q = (if p * p ∣ q then 0 else -1) * muP p q := by
  unfold muP
  rw [PF_succ_dvd hp hd hq, Finset.prod_insert (PF_not_mem p q)]

theorem dvd_lt_step {p k q : Nat} (hp : 1 ≤ p) (hne : k * p ≠ q) : (p ∣ q ∧ q < (k + 1) * p) ↔ (p ∣ q ∧ q < k * p) := by
  constructor
  · rintro ⟨⟨c, rfl⟩, h2⟩
    refine ⟨⟨c, rfl⟩, ?_⟩
    rw [Nat.mul_comm] at h2 hne ⊢
    have h3 : c < k + 1 := Nat.lt_of_mul_lt_mul_left (by rw [Nat.mul_comm p (k + 1)]; rw [Nat.mul_comm] at h2; rw [Nat.mul_comm p c]; first | exact h2 | (rw [Nat.mul_comm]; exact h2))
    have h4 : c ≠ k := by
      rintro rfl
      exact hne (by first | rfl | exact Nat.mul_comm _ _)
    have h5 : c < k := by omega
    calc _ = c * p := by first | rfl | exact Nat.mul_comm _ _
      _ < k * p := Nat.mul_lt_mul_of_pos_right h5 hp
      _ = _ := by first | rfl | exact Nat.mul_comm _ _
  · rintro ⟨h1, h2⟩
    refine ⟨h1, ?_⟩
    rw [Nat.add_mul]
    omega

theorem markStep_tot {sz p k : Nat} {s : Array Nat × Array Int} (hp : p.Prime) (hk : 1 ≤ k) (hks : k * p < sz) (h : MInv sz p k s) :
    Tot (markStep p k s) (MInv sz p (k + 1)) := by
  obtain ⟨h1, h2, h3⟩ := h
  have hp1 := hp.one_lt
  have hkp : 1 ≤ k * p := Nat.mul_pos (by omega) (by omega)
  have hz := h3 (k * p) hkp hks
  rw [if_neg (by omega)] at hz
  unfold markStep
  dsimp only
  have s1 : k * p < s.1.size := by omega
  have s2 : k * p < s.2.size := by omega
  rw [rd_at 0 s1, ok_bind]
  rw [wr_eq s1, ok_bind]
  rw [rd_at 1 s2, ok_bind]
  rw [wr_eq s2, ok_bind]
  refine Tot.pure ⟨by simpa using h1, by simpa using h2, fun q hq1 hq2 => ?_⟩
  dsimp only
  unfold Ent
  rw [at_set 0 s1, at_set 1 s2]
  have hdk : p ∣ k * p := Nat.dvd_mul_left p k
  by_cases e : k * p = q
  · subst e
    rw [if_pos rfl, if_pos rfl, if_pos (show p ∣ k * p ∧ k * p < (k + 1) * p from ⟨hdk, by rw [Nat.add_mul]; omega⟩)]
    constructor
    · rw [PF_succ_dvd hp hdk (by omega)]
      constructor
      · intro h4
        exfalso
        split_ifs at h4 <;> omega
      · intro h4
        simp at h4
    · rw [muP_succ hp hdk (by omega), ← hz.2]
      by_cases hc : p * p ∣ k * p
      · rw [if_pos hc, if_neg (by rw [Nat.mod_eq_zero_of_dvd hc]; simp), zero_mul]
      · rw [if_neg hc, if_pos (fun h => hc (Nat.dvd_of_mod_eq_zero h))]
        ring
  · rw [if_neg e, if_neg e]
    have := h3 q hq1 hq2
    simp only [dvd_lt_step (by omega : 1 ≤ p) e]
    exact this

theorem mark_start {sz p : Nat} {s : Array Nat × Array Int} (hp : p.Prime) (hps : p < sz) (h : SInv sz p s) :
    MInv sz p 2 (s.1.setIfInBounds p p, s.2.setIfInBounds p (-1)) := by
  have hp1 := hp.one_lt
  obtain ⟨h1, h2, h3⟩ := h
  have s1 : p < s.1.size := by omega
  have s2 : p < s.2.size := by omega
  refine ⟨by simpa using h1, by simpa using h2, fun q hq1 hq2 => ?_⟩
  dsimp only
  unfold Ent
  rw [at_set 0 s1, at_set 1 s2]
  by_cases e : p = q
  · subst e
    rw [if_pos rfl, if_pos rfl, if_pos ⟨dvd_refl p, by omega⟩]
    constructor
    · rw [PF_succ_dvd hp (dvd_refl p) (by omega)]
      constructor
      · intro h4; omega
      · intro h4; simp at h4
    · rw [muP_succ hp (dvd_refl p) (by omega), if_neg]
      · unfold muP
        rw [(prime_iff_PF (by omega)).mp hp]
        simp
      · intro hd
        have := Nat.le_of_dvd (by omega) hd
        nlinarith
  · rw [if_neg e, if_neg e, if_neg]
    · exact h3 q hq1 hq2
    · rintro ⟨⟨c, rfl⟩, h5⟩
      have h6 : c < 2 := Nat.lt_of_mul_lt_mul_left (a := p) (by rw [Nat.mul_comm p 2]; exact h5)
      have h7 : c ≠ 1 := by rintro rfl; simp at e
      have h8 : c = 0 := by omega
      subst h8
      simp at hq1

theorem mark_tot {sz p : Nat} {s : Array Nat × Array Int} (hp : p.Prime) (hps : p < sz) (h : SInv sz p s) :
    Tot (mark sz p s) (SInv sz (p + 1)) := by
  have hp1 := hp.one_lt
  obtain ⟨h1, h2, h3⟩ := h
  unfold mark
  have s1 : p < s.1.size := by omega
  have s2 : p < s.2.size := by omega
  rw [wr_eq s1, ok_bind]
  rw [wr_eq s2, ok_bind]
  have hK : 2 ≤ (sz + p - 1) / p := (ceil_bound (by omega)).mpr (by omega : 1 * p < sz)
  refine (Tot.forUp (lo := 2) (hi := (sz + p - 1) / p) (P := MInv sz p) hK ?_ ?_).mono ?_
  · exact mark_start hp hps ⟨h1, h2, h3⟩
  · intro k s' hk1 hk2 hm
    exact markStep_tot hp (by omega) ((ceil_bound (by omega)).mp hk2) hm
  · rintro s' ⟨h4, h5, h6⟩
    refine ⟨h4, h5, fun q hq1 hq2 => ?_⟩
    have := h6 q hq1 hq2
    by_cases hd : p ∣ q
    · have hlt : q < (sz + p - 1) / p * p := by
        obtain ⟨c, rfl⟩ := hd
        rw [Nat.mul_comm p c] at hq2 ⊢
        exact Nat.mul_lt_mul_of_pos_right ((ceil_bound (by omega)).mpr hq2) (by omega)
      rw [if_pos ⟨hd, hlt⟩] at this
      exact this
    · rw [if_neg (fun h => hd h.1)] at this
      unfold Ent muP at *
      rw [PF_succ_not (fun h => hd h.2)]
      exact this

theorem sieve_tot (sz : Nat) : Tot (sieve sz) fun mob => mob.size = sz ∧ ∀ q, 1 ≤ q → q < sz → at' 1 mob q = ArithmeticFunction.moebius q := by
  unfold sieve
  have h0 : SInv sz 2 (Array.replicate sz 0, Array.replicate sz 1) := by
    refine ⟨by simp, by simp, fun q h1 h2 => ?_⟩
    unfold Ent muP
    rw [PF_two]
    simp [at', h2]
  have hfin : ∀ b s, sz ≤ b → SInv sz b s → s.2.size = sz ∧ ∀ q, 1 ≤ q → q < sz → at' 1 s.2 q = ArithmeticFunction.moebius q := by
    rintro b s hb ⟨h1, h2, h3⟩
    refine ⟨h2, fun q hq1 hq2 => ?_⟩
    rw [(h3 q hq1 hq2).2, muP_all (by omega) hq1]
  by_cases hsz : 2 ≤ sz
  · refine Tot.bind (Tot.forUp (lo := 2) (hi := sz) (P := SInv sz) hsz h0 ?_) fun s hs => Tot.pure (hfin sz s (le_refl _) hs)
    intro p s hp1 hp2 hs
    unfold sieveStep
    rw [rd_at 0 (by rw [hs.1]; exact hp2), ok_bind]
    have hpz := (hs.2.2 p (by omega) hp2).1
    split_ifs with hc
    · refine Tot.pure ⟨hs.1, hs.2.1, fun q hq1 hq2 => ?_⟩
      have hnp : ¬p.Prime := fun h => hc (hpz.mpr ((prime_iff_PF hp1).mp h))
      have := hs.2.2 q hq1 hq2
      unfold Ent muP at *
      rw [PF_succ_not (fun h => hnp h.1)]
      exact this
    · exact mark_tot ((prime_iff_PF hp1).mpr (hpz.mp (by simpa using hc))) hp2 hs
  · have : forUp 2 sz (Array.replicate sz 0, Array.replicate sz (1 : Int)) (fun p s => sieveStep sz p s) = .ok (Array.replicate sz 0, Array.replicate sz 1) := by
      unfold forUp
      rw [show sz - 2 = 0 by omega]
      rfl
    rw [this, ok_bind]
    exact Tot.pure (hfin 2 _ (by omega) h0)

variable {T : Type} [CommRing T]

theorem start_eq (i : Nat) (hi : 1 ≤ i) : (1 : T) = ∑ m ∈ Finset.Icc 1 i, ∑ d ∈ m.divisors, ((ArithmeticFunction.moebius d : Int) : T) := by
  have h : ∀ m ∈ Finset.Icc 1 i, ∑ d ∈ m.divisors, ((ArithmeticFunction.moebius d : Int) : T) = if m = 1 then 1 else 0 := by
    intro m hm
    rw [← Int.cast_sum, ← ArithmeticFunction.coe_zeta_mul_apply, ArithmeticFunction.coe_zeta_mul_moebius, ArithmeticFunction.one_apply]
    split_ifs <;> simp
  rw [Finset.sum_congr rfl h, Finset.sum_ite_eq' ]
  simp [hi]

theorem build_tot {n thr : Nat} (hs : n / (thr + 1) + 1 < 2 ^ 32) :
    Tot (build (T := T) n thr) fun b => ∀ den, 1 ≤ den → ask n b.1 b.2 den = .ok (S (fun k => ((ArithmeticFunction.moebius k : Int) : T)) (n / den)) := by
  unfold build
  refine Tot.bind (sieve_tot (thr + 1)) fun mob hm => ?_
  refine Tot.bind (prefix_tot (f := fun k => ((ArithmeticFunction.moebius k : Int) : T)) ?_ (by rw [Array.size_map]; omega)) fun dps hd => ?_
  · intro i h1 h2
    rw [Array.size_map] at h2
    rw [← hm.2 i h1 (by omega)]
    simp [at', h2]
  · rw [Array.size_map, hm.1] at hd
    refine Tot.bind (large_tot hd.2 (by omega) (fun i h1 _ => start_eq i h1) (by rw [hd.1]; exact hs)) fun dpl hl => ?_
    exact Tot.pure fun den hden => ask_ok hd.2 hl hden

end SumOfMobius

namespace SumOfTotient
open Cxx SumOfMult

/-- One entry after the primes less than `b`. -/
def Ent (phi : Array Nat) (b q : Nat) : Prop := at' 0 phi q * ∏ r ∈ PF b q, r = q * ∏ r ∈ PF b q, (r - 1)

theorem ent_step {p q x : Nat} (hp : p.Prime) (hd : p ∣ q) (hq : q ≠ 0) (h : x * ∏ r ∈ PF p q, r = q * ∏ r ∈ PF p q, (r - 1)) :
    x / p * (p - 1) * ∏ r ∈ PF (p + 1) q, r = q * ∏ r ∈ PF (p + 1) q, (r - 1) := by
  rw [PF_succ_dvd hp hd hq, Finset.prod_insert (PF_not_mem p q), Finset.prod_insert (PF_not_mem p q)]
  have h1 : p ∣ x := by
    have h2 : p ∣ x * ∏ r ∈ PF p q, r := h ▸ Dvd.dvd.mul_right hd _
    rcases hp.dvd_mul.mp h2 with h3 | h3
    · exact h3
    · exfalso
      obtain ⟨r, hr, h4⟩ := (hp.prime.dvd_finset_prod_iff _).mp h3
      rw [mem_PF] at hr
      have := (Nat.prime_dvd_prime_iff_eq hp hr.1).mp h4
      omega
  obtain ⟨c, rfl⟩ := h1
  rw [Nat.mul_div_cancel_left c hp.pos]
  calc c * (p - 1) * (p * ∏ r ∈ PF p q, r) = (p - 1) * (p * c * ∏ r ∈ PF p q, r) := by ring
    _ = (p - 1) * (q * ∏ r ∈ PF p q, (r - 1)) := by rw [h]
    _ = q * ((p - 1) * ∏ r ∈ PF p q, (r - 1)) := by ring

theorem ent_all {sz q x : Nat} (h : q < sz) (hx : x * ∏ r ∈ PF sz q, r = q * ∏ r ∈ PF sz q, (r - 1)) : x = q.totient := by
  rw [PF_all h, ← Nat.totient_mul_prod_primeFactors] at hx
  refine Nat.eq_of_mul_eq_mul_right ?_ hx
  exact Finset.prod_pos fun r hr => (Nat.prime_of_mem_primeFactors hr).pos

theorem prime_iff_ent {p x : Nat} (hp : 2 ≤ p) (h : x * ∏ r ∈ PF p p, r = p * ∏ r ∈ PF p p, (r - 1)) : x = p ↔ p.Prime := by
  rw [prime_iff_PF hp]
  constructor
  · rintro rfl
    by_contra hc
    have h1 := Nat.eq_of_mul_eq_mul_left (by omega) h
    have h2 : ∏ r ∈ PF x x, (r - 1) < ∏ r ∈ PF x x, r := by
      refine Finset.prod_lt_prod_of_nonempty ?_ ?_ (Finset.nonempty_iff_ne_empty.mpr hc)
      · intro r hr
        have := (mem_PF.mp hr).1.two_le
        omega
      · intro r hr
        have := (mem_PF.mp hr).1.two_le
        omega
    omega
  · intro h1
    rw [h1] at h
    simpa using h

def SInv (sz p : Nat) (phi : Array Nat) : Prop := phi.size = sz ∧ ∀ q, 1 ≤ q → q < sz → Ent phi p q

def MInv (sz p k : Nat) (phi : Array Nat) : Prop :=
  phi.size = sz ∧ ∀ q, 1 ≤ q → q < sz → Ent phi (if p ∣ q ∧ q < k * p then p + 1 else p) q

theorem markStep_tot {sz p k : Nat} {phi : Array Nat} (hp : p.Prime) (hk : 1 ≤ k) (hks : k * p < sz) (h : MInv sz p k phi) :
    Tot (markStep p k phi) (MInv sz p (k + 1)) := by
  obtain ⟨h1, h3⟩ := h
  have hp1 := hp.one_lt
  have hkp : 1 ≤ k * p := Nat.mul_pos (by omega) (by omega)
  have hz := h3 (k * p) hkp hks
  rw [if_neg (by omega)] at hz
  have s1 : k * p < phi.size := by omega
  unfold markStep
  rw [rd_at 0 s1, ok_bind]
  refine Tot.wr s1 ⟨by simpa using h1, fun q hq1 hq2 => ?_⟩
  unfold Ent
  rw [at_set 0 s1]
  have hdk : p ∣ k * p := Nat.dvd_mul_left p k
  by_cases e : k * p = q
  · subst e
    rw [if_pos rfl, if_pos ⟨hdk, by rw [Nat.add_mul]; omega⟩]
    exact ent_step hp hdk (by omega) hz
  · rw [if_neg e]
    have := h3 q hq1 hq2
    simp only [SumOfMobius.dvd_lt_step (by omega : 1 ≤ p) e]
    exact this

theorem sieve_tot (sz : Nat) : Tot (sieve sz) fun phi => phi.size = sz ∧ ∀ q, 1 ≤ q → q < sz → at' 0 phi q = q.totient := by
  unfold sieve
  have h0 : SInv sz 2 (Array.range sz) := by
    refine ⟨by simp, fun q h1 h2 => ?_⟩
    unfold Ent
    rw [PF_two]
    simp [at', h2]
  have hfin : ∀ b s, sz ≤ b → SInv sz b s → s.size = sz ∧ ∀ q, 1 ≤ q → q < sz → at' 0 s q = q.totient := by
    rintro b s hb ⟨h1, h3⟩
    exact ⟨h1, fun q hq1 hq2 => ent_all (by omega) (h3 q hq1 hq2)⟩
  by_cases hsz : 2 ≤ sz
  · refine (Tot.forUp (lo := 2) (hi := sz) (P := SInv sz) hsz h0 ?_).mono fun s hs => hfin sz s (le_refl _) hs
    intro p s hp1 hp2 hs
    unfold sieveStep
    rw [rd_at 0 (by rw [hs.1]; exact hp2), ok_bind]
    have hpz := prime_iff_ent hp1 (hs.2 p (by omega) hp2)
    split_ifs with hc
    · refine Tot.pure ⟨hs.1, fun q hq1 hq2 => ?_⟩
      have := hs.2 q hq1 hq2
      unfold Ent at *
      rw [PF_succ_not (fun h => hc (hpz.mpr h.1))]
      exact this
    · have hp : p.Prime := hpz.mp (by simpa using hc)
      have hK : 1 ≤ (sz + p - 1) / p := by
        have := (ceil_bound (sz := sz) (k := 1) (by omega : 1 ≤ p)).mpr (by omega : 1 * p < sz)
        exact le_of_lt this
      refine (Tot.forUp (lo := 1) (hi := (sz + p - 1) / p) (P := MInv sz p) hK ?_ ?_).mono ?_
      · refine ⟨hs.1, fun q hq1 hq2 => ?_⟩
        rw [if_neg]
        · exact hs.2 q hq1 hq2
        · rintro ⟨h1, h2⟩
          have := Nat.le_of_dvd (by omega) h1
          omega
      · intro k s' hk1 hk2 hm
        exact markStep_tot hp hk1 ((ceil_bound (by omega)).mp hk2) hm
      · rintro s' ⟨h4, h6⟩
        refine ⟨h4, fun q hq1 hq2 => ?_⟩
        have := h6 q hq1 hq2
        by_cases hd : p ∣ q
        · have hlt : q < (sz + p - 1) / p * p := by
            obtain ⟨c, rfl⟩ := hd
            rw [Nat.mul_comm p c] at hq2 ⊢
            exact Nat.mul_lt_mul_of_pos_right ((ceil_bound (by omega)).mpr hq2) (by omega)
          rw [if_pos ⟨hd, hlt⟩] at this
          exact this
        · rw [if_neg (fun h => hd h.1)] at this
          unfold Ent at *
          rw [PF_succ_not (fun h => hd h.2)]
          exact this
  · have : forUp 2 sz (Array.range sz) (fun p s => sieveStep sz p s) = .ok (Array.range sz) := by
      unfold forUp
      rw [show sz - 2 = 0 by omega]
      rfl
    rw [this]
    exact ⟨_, rfl, hfin 2 _ (by omega) h0⟩

variable {T : Type} [CommRing T]

theorem start_eq {i : Nat} (hi : 1 ≤ i) (hlt : i + 1 < 2 ^ 64) : (start i : T) = ∑ m ∈ Finset.Icc 1 i, ∑ d ∈ m.divisors, ((Nat.totient d : Nat) : T) := by
  have h : ∀ m ∈ Finset.Icc 1 i, ∑ d ∈ m.divisors, ((Nat.totient d : Nat) : T) = ((m : Nat) : T) := by
    intro m hm
    rw [← Nat.cast_sum, Nat.sum_totient]
  rw [Finset.sum_congr rfl h, ← Nat.cast_sum]
  have h2 : ∀ i, 2 * ∑ m ∈ Finset.Icc 1 i, m = i * (i + 1) := by
    intro i
    induction i with
    | zero => rfl
    | succ i ih =>
      rw [Finset.sum_Icc_succ_top (by omega), Nat.mul_add, ih]
      ring
  unfold start
  rw [Nat.mod_eq_of_lt hlt]
  split_ifs with hc
  · rw [← Nat.cast_mul]
    congr 1
    have h3 := h2 i
    have h4 : 2 * ((i + 1) / 2) = i + 1 := by omega
    have : 2 * ((i + 1) / 2 * i) = i * (i + 1) := by rw [← Nat.mul_assoc, h4, Nat.mul_comm]
    omega
  · rw [← Nat.cast_mul]
    congr 1
    have h3 := h2 i
    have h4 : 2 * (i / 2) = i := by omega
    have : 2 * (i / 2 * (i + 1)) = i * (i + 1) := by rw [← Nat.mul_assoc, h4]
    omega

theorem build_tot {n thr : Nat} (hs : n / (thr + 1) + 1 < 2 ^ 32) (hn : n + 1 < 2 ^ 64) :
    Tot (build (T := T) n thr) fun b => ∀ den, 1 ≤ den → ask n b.1 b.2 den = .ok (S (fun k => ((Nat.totient k : Nat) : T)) (n / den)) := by
  unfold build
  refine Tot.bind (sieve_tot (thr + 1)) fun mob hm => ?_
  refine Tot.bind (prefix_tot (f := fun k => ((Nat.totient k : Nat) : T)) ?_ (by rw [Array.size_map]; omega)) fun dps hd => ?_
  · intro i h1 h2
    rw [Array.size_map] at h2
    rw [← hm.2 i h1 (by omega)]
    simp [at', h2]
  · rw [Array.size_map, hm.1] at hd
    refine Tot.bind (large_tot hd.2 (by omega) (fun i h1 h2 => start_eq h1 (by omega)) (by rw [hd.1]; exact hs)) fun dpl hl => ?_
    exact Tot.pure fun den hden => ask_ok hd.2 hl hden

end SumOfTotient
