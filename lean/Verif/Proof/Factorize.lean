import Verif.Model.NumberUtil
import Mathlib.Data.Nat.Prime.Basic
import Mathlib.Tactic.Ring
import Mathlib.Tactic.IntervalCases
import Mathlib.Tactic.FinCases
import Mathlib.Tactic.Linarith
import Mathlib.Tactic.NormNum.Prime

/-! # Proofs about `factorize` -/

namespace NumberUtil
open Cxx

/-- `l` is the prime factorisation of `n`, in increasing order of the primes. -/
structure Fact (n : Nat) (l : List (Nat × Nat)) : Prop where
  sorted : l.Pairwise fun a b => a.1 < b.1
  prime : ∀ x ∈ l, x.1.Prime ∧ 0 < x.2
  prod : (l.map fun x => x.1 ^ x.2).prod = n

/-- The list as the integer type of the code. -/
def castL (l : List (Nat × Nat)) : List (Int × Nat) := l.map fun x => ((x.1 : Int), x.2)

theorem castL_append (l : List (Nat × Nat)) (p c : Nat) : castL l ++ [((p : Int), c)] = castL (l ++ [(p, c)]) := by simp [castL]

/-- What is left is `m`; the primes found are below `c`. -/
structure Inv (n0 c m : Nat) (s : Int × List (Int × Nat)) : Prop where
  ex : ∃ l, s = ((m : Int), castL l) ∧ l.Pairwise (fun a b => a.1 < b.1) ∧ (∀ x ∈ l, (x.1.Prime ∧ 0 < x.2) ∧ x.1 < c) ∧ m * (l.map fun x => x.1 ^ x.2).prod = n0
  pos : 0 < m

theorem divLoop_tot {p m : Nat} (hp : 2 ≤ p) (hm : 0 < m) : Tot (loop (divStep (p : Int)) (m : Int).natAbs ((m : Int), 0)) fun q =>
    ∃ m' : Nat, q.1 = m' ∧ m' * p ^ q.2 = m ∧ ¬ p ∣ m' := by
  refine Tot.loop (P := fun (q : Int × Nat) => ∃ m' : Nat, q.1 = m' ∧ m' * p ^ q.2 = m) (fun q => q.1.natAbs) ?_ ⟨m, rfl, by simp⟩ (le_refl _)
  rintro ⟨n, k⟩ ⟨m', rfl, h⟩
  dsimp only at h
  unfold divStep
  have h0 : 0 < m' := Nat.pos_of_ne_zero (by rintro rfl; simp at h; omega)
  by_cases c : p ∣ m'
  · rw [if_pos (by show ((m' : Int)).tmod p = 0; rw [Int.tmod_eq_zero_of_dvd]; exact_mod_cast c)]
    obtain ⟨e, rfl⟩ := c
    refine Tot.pure ⟨⟨e, ?_, ?_⟩, ?_⟩
    · show ((p * e : Nat) : Int).tdiv p = e
      push_cast
      exact Int.mul_tdiv_cancel_left _ (by omega)
    · show e * p ^ (k + 1) = m
      rw [← h, pow_succ]; ring
    · show (((p * e : Nat) : Int).tdiv p).natAbs < ((p * e : Nat) : Int).natAbs
      push_cast
      rw [Int.mul_tdiv_cancel_left _ (by omega), Int.natAbs_mul]
      simp only [Int.natAbs_natCast]
      have : 0 < e := Nat.pos_of_ne_zero (by rintro rfl; simp at h0)
      nlinarith
  · rw [if_neg (by
      show ¬ ((m' : Int)).tmod p = 0
      intro hc
      have := Int.dvd_of_tmod_eq_zero hc
      exact c (by exact_mod_cast this))]
    exact Tot.pure ⟨m', rfl, h, c⟩

theorem strip_noop {p : Int} {s : Int × List (Int × Nat)} (hp : p ≠ 0) (h : ¬ p ∣ s.1) : strip s p = .ok s := by
  unfold strip
  rw [if_neg hp, if_pos (fun hc => h (Int.dvd_of_tmod_eq_zero hc))]
  rfl

theorem strip_tot {n0 c m p : Nat} {s : Int × List (Int × Nat)} (h : Inv n0 c m s) (hp : 2 ≤ p) (hc : c ≤ p) (hq : ∀ q, q.Prime → q < p → ¬ q ∣ m) :
    Tot (strip s (p : Int)) fun s' => ∃ m', m' ∣ m ∧ ¬ p ∣ m' ∧ Inv n0 (p + 1) m' s' := by
  obtain ⟨⟨l, rfl, h1, h2, h3⟩, h0⟩ := h
  by_cases d : p ∣ m
  · have hprime : p.Prime := by
      have e := Nat.minFac_prime (show p ≠ 1 by omega)
      have e2 := Nat.minFac_dvd p
      rcases Nat.lt_or_ge p.minFac p with c | c
      · exact absurd (e2.trans d) (hq _ e c)
      · have := Nat.le_of_dvd (by omega) e2
        rw [show p = p.minFac by omega]; exact e
    unfold strip
    rw [if_neg (by omega), if_neg (by
      push Not
      show ((m : Int)).tmod p = 0
      rw [Int.tmod_eq_zero_of_dvd]; exact_mod_cast d)]
    refine Tot.bind (divLoop_tot hp h0) ?_
    rintro ⟨n, k⟩ ⟨m', rfl, e1, e2⟩
    dsimp only at e1
    have hk : 0 < k := Nat.pos_of_ne_zero (by rintro rfl; simp at e1; subst e1; exact e2 d)
    refine Tot.pure ⟨m', ⟨_, e1.symm⟩, e2, ⟨⟨l ++ [(p, k)], ?_, ?_, ?_, ?_⟩, ?_⟩⟩
    · show ((m' : Int), castL l ++ _) = _
      rw [castL_append]
    · rw [List.pairwise_append]
      refine ⟨h1, by simp, fun a ha b hb => ?_⟩
      simp only [List.mem_singleton] at hb
      subst hb
      have := (h2 a ha).2
      om
    · intro x hx
      rcases List.mem_append.1 hx with hx | hx
      · have := (h2 x hx)
        exact ⟨this.1, by omega⟩
      · simp only [List.mem_singleton] at hx
        subst hx
        exact ⟨⟨hprime, hk⟩, by om⟩
    · rw [List.map_append, List.prod_append, ← h3, ← e1]; simp; ring
    · exact Nat.pos_of_ne_zero (by rintro rfl; simp at e1; omega)
  · rw [strip_noop (by omega) (by show ¬ ((p : Int) ∣ (m : Int)); exact_mod_cast d)]
    exact Tot.pure ⟨m, dvd_refl _, d, ⟨⟨l, rfl, h1, fun x hx => ⟨(h2 x hx).1, by have := (h2 x hx).2; omega⟩, h3⟩, h0⟩⟩

theorem primes_spec : primes = [2, 3, 5, 7, 11, 13] := rfl

theorem small_primes {q : Nat} (hq : q.Prime) (h : q < 17) : q ∈ primes := by
  have := hq.two_le
  interval_cases q <;> first | decide | (exact absurd hq (by norm_num))

theorem Inv.weaken {n0 c c' m : Nat} {s : Int × List (Int × Nat)} (h : Inv n0 c m s) (hc : c ≤ c') : Inv n0 c' m s := by
  obtain ⟨⟨l, h1, h2, h3, h4⟩, h0⟩ := h
  exact ⟨⟨l, h1, h2, fun x hx => ⟨(h3 x hx).1, by have := (h3 x hx).2; omega⟩, h4⟩, h0⟩

/-- The first loop, over the six small primes. -/
theorem smallLoop_tot {n : Nat} (hn : 0 < n) : Tot (forEach primes ((n : Int), []) fun t (p : Nat) => strip t (p : Int)) fun s =>
    ∃ m, Inv n 17 m s ∧ ∀ q, q.Prime → q < 17 → ¬ q ∣ m := by
  refine (Tot.forEach (P := fun pre (s : Int × List (Int × Nat)) => ∃ m c, Inv n c m s ∧ (∀ x ∈ pre, x < c ∧ ¬ x ∣ m) ∧ (c ≤ 17 ∧ ∀ x ∈ primes, x ∉ pre → c ≤ x)) ?_ ?_).mono ?_
  · refine ⟨n, 2, ⟨⟨[], rfl, by simp, by simp, by simp⟩, hn⟩, by simp, by norm_num, fun x hx _ => ?_⟩
    fin_cases hx <;> norm_num
  · rintro pre p post s hs ⟨m, c, h1, h2, h3, h4⟩
    have hsort : primes.Pairwise (· < ·) := by decide
    rw [hs, List.pairwise_append] at hsort
    have hpp : p ∈ primes := by rw [hs]; simp
    have hnot : p ∉ pre := fun hc => by have := hsort.2.2 p hc p (by simp); omega
    have hp2 : 2 ≤ p ∧ p < 17 := by fin_cases hpp <;> norm_num
    refine (strip_tot h1 hp2.1 (h4 p hpp hnot) ?_).mono ?_
    · intro q hq hlt
      have hqm := small_primes hq (by omega)
      rw [hs] at hqm
      rcases List.mem_append.1 hqm with h | h
      · exact (h2 q h).2
      · rcases List.mem_cons.1 h with rfl | h
        · omega
        · have := (List.pairwise_cons.1 hsort.2.1).1 q h
          omega
    · rintro s' ⟨m', d1, d2, d3⟩
      refine ⟨m', p + 1, d3, ?_, by omega, ?_⟩
      · intro x hx
        rcases List.mem_append.1 hx with h | h
        · exact ⟨by have := hsort.2.2 x h p (by simp); omega, fun hc => (h2 x h).2 (hc.trans d1)⟩
        · simp only [List.mem_singleton] at h
          subst h
          exact ⟨by omega, d2⟩
      · intro x hx hxp
        rw [List.mem_append, not_or] at hxp
        rw [hs] at hx
        rcases List.mem_append.1 hx with h | h
        · exact absurd h hxp.1
        · rcases List.mem_cons.1 h with rfl | h
          · simp at hxp
          · exact (List.pairwise_cons.1 hsort.2.1).1 x h
  · rintro s ⟨m, c, h1, h2, h3, -⟩
    exact ⟨m, h1.weaken h3, fun q hq hlt => (h2 q (small_primes hq hlt)).2⟩

theorem offsets_sorted : offsets.Pairwise (· < ·) := by
  unfold offsets
  rw [List.pairwise_map]
  have : ((List.range (period / 2)).filter fun j => primes.all fun p => decide ((nextPrime + 2 * j) % p > 0)).Pairwise (· < ·) :=
    List.pairwise_lt_range.filter _
  exact this.imp fun h => by omega

theorem mem_offsets {o : Nat} : o ∈ offsets ↔ o % 2 = 0 ∧ o < 30030 ∧ ∀ p ∈ primes, (17 + o) % p ≠ 0 := by
  unfold offsets
  simp only [List.mem_map, List.mem_filter, List.mem_range, List.all_eq_true, decide_eq_true_eq, period, nextPrime]
  constructor
  · rintro ⟨j, ⟨h1, h2⟩, rfl⟩
    exact ⟨by omega, by omega, fun p hp => Nat.pos_iff_ne_zero.1 (of_decide_eq_true (h2 p hp))⟩
  · rintro ⟨h1, h2, h3⟩
    refine ⟨o / 2, ⟨by omega, fun p hp => ?_⟩, by omega⟩
    rw [show 2 * (o / 2) = o by omega]
    exact decide_eq_true (Nat.pos_iff_ne_zero.2 (h3 p hp))

theorem prime_mem_offsets {k o : Nat} (ho : o < 30030) (hq : (17 + 30030 * k + o).Prime) : o ∈ offsets := by
  have key : ∀ p ∈ primes, (17 + o) % p ≠ 0 := by
    intro p hp hc
    have hp' : p ∣ 30030 ∧ 2 ≤ p ∧ p < 17 := by fin_cases hp <;> norm_num
    have : p ∣ 17 + 30030 * k + o := by
      rw [show 17 + 30030 * k + o = (17 + o) + 30030 * k by ring]
      exact (Nat.dvd_add (Nat.dvd_of_mod_eq_zero hc) (hp'.1.mul_right k))
    rcases (Nat.dvd_prime hq).1 this with h | h <;> omega
  refine mem_offsets.2 ⟨?_, ho, key⟩
  have := key 2 (by decide)
  omega

/-- No prime below `b + o` divides what is left, once the offsets before `o` have been tried. -/
theorem below_clear {k o m : Nat} {pre post : List Nat} (hs : offsets = pre ++ o :: post) (hb : ∀ q, q.Prime → q < 17 + 30030 * k → ¬ q ∣ m)
    (hpre : ∀ x ∈ pre, ¬ (17 + 30030 * k + x) ∣ m) : ∀ q, q.Prime → q < 17 + 30030 * k + o → ¬ q ∣ m := by
  intro q hq hlt
  rcases Nat.lt_or_ge q (17 + 30030 * k) with c | c
  · exact hb q hq c
  · obtain ⟨x, rfl⟩ : ∃ x, q = 17 + 30030 * k + x := ⟨q - (17 + 30030 * k), by omega⟩
    have ho : o ∈ offsets := by rw [hs]; simp
    have ho2 := (mem_offsets.1 ho).2.1
    have hx := prime_mem_offsets (by omega) hq
    have hsort := offsets_sorted
    rw [hs, List.pairwise_append] at hsort
    rw [hs] at hx
    rcases List.mem_append.1 hx with h | h
    · exact hpre x h
    · rcases List.mem_cons.1 h with rfl | h
      · omega
      · have := (List.pairwise_cons.1 hsort.2.1).1 x h
        omega

/-- One block of candidates. -/
theorem block_tot {n0 k m : Nat} {s : Int × List (Int × Nat)} (h : Inv n0 (17 + 30030 * k) m s) (hb : ∀ q, q.Prime → q < 17 + 30030 * k → ¬ q ∣ m)
    (hsmall : 17 + 30030 * (k + 1) ≤ 2 ^ 31) :
    Tot (forEach offsets s fun t o => strip t (toI32 (17 + 30030 * k + o))) fun s' =>
      ∃ m', m' ∣ m ∧ Inv n0 (17 + 30030 * (k + 1)) m' s' ∧ ∀ q, q.Prime → q < 17 + 30030 * (k + 1) → ¬ q ∣ m' := by
  refine (Tot.forEach (P := fun pre (s : Int × List (Int × Nat)) => ∃ m' c, m' ∣ m ∧ Inv n0 c m' s ∧ (∀ x ∈ pre, ¬ (17 + 30030 * k + x) ∣ m') ∧
    c ≤ 17 + 30030 * (k + 1) ∧ ∀ x ∈ offsets, x ∉ pre → c ≤ 17 + 30030 * k + x) ?_ ?_).mono ?_
  · exact ⟨m, 17 + 30030 * k, dvd_refl _, h, by simp, by omega, fun x _ _ => by omega⟩
  · rintro pre o post s hs ⟨m', c, h1, h2, h3, h4, h5⟩
    have hsort := offsets_sorted
    rw [hs, List.pairwise_append] at hsort
    have ho : o ∈ offsets := by rw [hs]; simp
    have ho2 := (mem_offsets.1 ho).2.1
    have hnot : o ∉ pre := fun hc => by have := hsort.2.2 o hc o (by simp); omega
    rw [toI32_of_lt (by omega)]
    refine (strip_tot h2 (by omega) (h5 o ho hnot) (below_clear hs (fun q hq hlt hc => hb q hq hlt (hc.trans h1)) h3)).mono ?_
    rintro s' ⟨m'', d1, d2, d3⟩
    refine ⟨m'', _, d1.trans h1, d3, ?_, by omega, ?_⟩
    · intro x hx
      rcases List.mem_append.1 hx with h | h
      · exact fun hc => h3 x h (hc.trans d1)
      · simp only [List.mem_singleton] at h
        subst h; exact d2
    · intro x hx hxp
      rw [List.mem_append, not_or] at hxp
      rw [hs] at hx
      rcases List.mem_append.1 hx with h | h
      · exact absurd h hxp.1
      · rcases List.mem_cons.1 h with rfl | h
        · simp at hxp
        · have := (List.pairwise_cons.1 hsort.2.1).1 x h
          omega
  · rintro s ⟨m', c, h1, h2, h3, h4, -⟩
    refine ⟨m', h1, h2.weaken h4, fun q hq hlt => ?_⟩
    rcases Nat.lt_or_ge q (17 + 30030 * k) with c | c
    · exact fun hc => hb q hq c (hc.trans h1)
    · obtain ⟨x, rfl⟩ : ∃ x, q = 17 + 30030 * k + x := ⟨q - (17 + 30030 * k), by omega⟩
      exact h3 x (prime_mem_offsets (by omega) hq)

/-- The arithmetic on `b` stays in range for this `n`: every `b` that is squared fits, every candidate fits into `int`. -/
def Safe (maxT n : Nat) : Prop := ∀ k,
  ((k = 0 ∨ (17 + 30030 * (k - 1)) ^ 2 ≤ n) → (17 + 30030 * k) ^ 2 ≤ maxT) ∧
  ((17 + 30030 * k) ^ 2 ≤ n → 17 + 30030 * (k + 1) ≤ 2 ^ 31 ∧ 17 + 30030 * (k + 1) ≤ maxT)

theorem factorize_tot {maxT n : Nat} (hn : 0 < n) (hs : Safe maxT n) : Tot (factorize maxT n) fun r => ∃ l, r = castL l ∧ Fact n l := by
  unfold factorize
  rw [decide_eq_true (show ((n : Int) > 0) by omega), check_true, ok_bind]
  refine Tot.bind (smallLoop_tot hn) ?_
  rintro s ⟨m, h1, h2⟩
  refine Tot.bind (Tot.loop (P := fun (s : Nat × Int × List (Int × Nat)) => ∃ k m, s.1 = 17 + 30030 * k ∧ (k = 0 ∨ (17 + 30030 * (k - 1)) ^ 2 ≤ n) ∧ m ≤ n ∧
      Inv n (17 + 30030 * k) m s.2 ∧ ∀ q, q.Prime → q < 17 + 30030 * k → ¬ q ∣ m)
    (Q := fun s => ∃ k m, (17 + 30030 * k) ^ 2 > m ∧ Inv n (17 + 30030 * k) m s.2 ∧ ∀ q, q.Prime → q < 17 + 30030 * k → ¬ q ∣ m)
    (fun s => n + 17 - s.1) ?_ ?_ ?_) ?_
  · rintro ⟨b, t⟩ ⟨k, m, rfl, hk, hm, h3, h4⟩
    dsimp only at h3
    unfold blockStep
    have hsq : (17 + 30030 * k) * (17 + 30030 * k) = (17 + 30030 * k) ^ 2 := (sq _).symm
    have ht1 : t.1 = (m : Int) := by obtain ⟨⟨l, rfl, -⟩, -⟩ := h3; rfl
    dsimp only
    rw [if_neg (by rw [hsq]; have := (hs k).1 hk; omega)]
    by_cases c : (17 + 30030 * k) ^ 2 ≤ m
    · rw [if_pos (by rw [ht1]; rw [← hsq] at c; exact_mod_cast c)]
      have hsafe := (hs k).2 (c.trans hm)
      refine Tot.bind (block_tot h3 h4 hsafe.1) ?_
      rintro s' ⟨m', d1, d2, d3⟩
      rw [if_neg (by unfold period; omega)]
      have hm' : m' ≤ m := Nat.le_of_dvd h3.pos d1
      refine Tot.pure ⟨⟨k + 1, m', by unfold period; show _ + _ = _; ring, Or.inr (by simpa using c.trans hm), hm'.trans hm, d2, d3⟩, ?_⟩
      show n + 17 - (17 + 30030 * k + period) < n + 17 - (17 + 30030 * k)
      have : 17 + 30030 * k ≤ (17 + 30030 * k) ^ 2 := by nlinarith
      unfold period
      omega
    · rw [if_neg (by rw [ht1]; rw [← hsq] at c; exact_mod_cast c)]
      exact Tot.pure ⟨k, m, by omega, h3, h4⟩
  · refine ⟨0, m, rfl, Or.inl rfl, ?_, h1, h2⟩
    obtain ⟨⟨l, -, -, h3, h4⟩, -⟩ := h1
    have : m ∣ n := ⟨_, h4.symm⟩
    exact Nat.le_of_dvd hn this
  · show n + 17 - 17 ≤ (n : Int).toNat
    omega
  · rintro ⟨b, t⟩ ⟨k, m, h3, ⟨⟨l, h4, h5, h6, h7⟩, h0⟩, h8⟩
    dsimp only at h4
    subst h4
    dsimp only
    unfold finish
    by_cases c : m = 1
    · subst c
      rw [if_neg (by simp)]
      exact Tot.pure ⟨l, rfl, h5, fun x hx => (h6 x hx).1, by simpa using h7⟩
    · rw [if_pos (by show ((m : Int)) ≠ 1; exact_mod_cast c)]
      have hp : m.Prime := by
        have e := Nat.minFac_prime c
        by_contra hc
        have := Nat.minFac_sq_le_self h0 hc
        have hge : 17 + 30030 * k ≤ m.minFac := by
          by_contra hlt
          exact h8 _ e (by omega) (Nat.minFac_dvd m)
        have := Nat.pow_le_pow_left hge 2
        omega
      refine Tot.pure ⟨l ++ [(m, 1)], castL_append l m 1, ?_, ?_, ?_⟩
      · rw [List.pairwise_append]
        refine ⟨h5, by simp, fun a ha b hb => ?_⟩
        simp only [List.mem_singleton] at hb
        subst hb
        have h9 := (h6 a ha).2
        have : 17 + 30030 * k ≤ m := by
          by_contra hlt
          exact h8 m hp (by omega) (dvd_refl _)
        om
      · intro x hx
        rcases List.mem_append.1 hx with hx | hx
        · exact (h6 x hx).1
        · simp only [List.mem_singleton] at hx
          subst hx
          exact ⟨hp, by om⟩
      · rw [List.map_append, List.prod_append, ← h7]; simp [Nat.mul_comm]

theorem safe_longlong {n : Nat} (h : n < (2 ^ 31 - 30030) ^ 2) : Safe (2 ^ 63 - 1) n := by
  intro k
  constructor
  · rintro (rfl | hk)
    · norm_num
    · have : 17 + 30030 * (k - 1) < 2 ^ 31 - 30030 := lt_of_pow_lt_pow_left₀ 2 (by norm_num) (hk.trans_lt h)
      have : (17 + 30030 * k) ^ 2 ≤ (2 ^ 31) ^ 2 := Nat.pow_le_pow_left (by omega) 2
      exact this.trans (by norm_num)
  · intro hk
    have : 17 + 30030 * k < 2 ^ 31 - 30030 := lt_of_pow_lt_pow_left₀ 2 (by norm_num) (hk.trans_lt h)
    omega

theorem safe_int {n : Nat} (h : n < 30047 ^ 2) : Safe (2 ^ 31 - 1) n := by
  intro k
  constructor
  · rintro (rfl | hk)
    · norm_num
    · have : 17 + 30030 * (k - 1) < 30047 := lt_of_pow_lt_pow_left₀ 2 (by norm_num) (hk.trans_lt h)
      have : (17 + 30030 * k) ^ 2 ≤ 30047 ^ 2 := Nat.pow_le_pow_left (by omega) 2
      exact this.trans (by norm_num)
  · intro hk
    have : 17 + 30030 * k < 30047 := lt_of_pow_lt_pow_left₀ 2 (by norm_num) (hk.trans_lt h)
    omega

/-! ### Where it goes wrong -/

/-- No `d, d + 2, …` (`k` numbers) divides `n`. -/
def noDiv (n : Nat) : Nat → Nat → Bool
  | 0, _ => true
  | k + 1, d => if n % d = 0 then false else noDiv n k (d + 2)

theorem noDiv_spec {n : Nat} : ∀ {k d}, noDiv n k d = true → ∀ j, j < k → n % (d + 2 * j) ≠ 0
  | k + 1, d, h, j, hj => by
    unfold noDiv at h
    split at h
    · cases h
    · rcases j with _ | j
      · simpa
      · have := noDiv_spec h j (by omega)
        rwa [show d + 2 * (j + 1) = d + 2 + 2 * j by ring]

theorem prime_of_noDiv {n k : Nat} (h2 : 2 ≤ n) (ho : n % 2 = 1) (hk : noDiv n k 3 = true) (hb : n < (2 * k + 2) ^ 2) : n.Prime := by
  by_contra hc
  have h1 := Nat.minFac_sq_le_self (by omega) hc
  have h3 : n.minFac < 2 * k + 2 := lt_of_pow_lt_pow_left₀ 2 (by omega) (h1.trans_lt hb)
  have h4 := Nat.minFac_dvd n
  have h5 := (Nat.minFac_prime (show n ≠ 1 by omega)).two_le
  have h6 : n.minFac % 2 = 1 := by
    rcases Nat.mod_two_eq_zero_or_one n.minFac with c | c
    · have := (Nat.dvd_of_mod_eq_zero c).trans h4
      omega
    · exact c
  refine noDiv_spec hk ((n.minFac - 3) / 2) (by omega) ?_
  rw [show 3 + 2 * ((n.minFac - 3) / 2) = n.minFac by omega]
  exact Nat.mod_eq_zero_of_dvd h4

theorem prime_mersenne31 : Nat.Prime 2147483647 :=
  prime_of_noDiv (k := 23200) (by norm_num) (by norm_num) (by decide +kernel) (by norm_num)

theorem prime_above : Nat.Prime 2147483659 :=
  prime_of_noDiv (k := 23200) (by norm_num) (by norm_num) (by decide +kernel) (by norm_num)

theorem forEach_noop {σ α} {l : List α} {s : σ} {f : σ → α → M σ} (h : ∀ x ∈ l, f s x = .ok s) : forEach l s f = .ok s := by
  have : Tot (forEach l s f) fun t => t = s := by
    refine Tot.forEach (P := fun _ t => t = s) rfl ?_
    rintro pre x post t hs rfl
    rw [h x (by rw [hs]; simp)]
    exact Tot.pure rfl
  exact tot_eq.1 this

theorem primes_noop {n : Nat} (h : ∀ p ∈ primes, ¬ p ∣ n) : (forEach primes ((n : Int), []) fun t (p : Nat) => strip t (p : Int)) = .ok ((n : Int), []) := by
  refine forEach_noop fun p hp => strip_noop ?_ ?_
  · have : p ≠ 0 := by fin_cases hp <;> norm_num
    omega
  · show ¬ ((p : Int) ∣ (n : Int))
    exact_mod_cast h p hp

theorem factorize_int_overflow : factorize (2 ^ 31 - 1) 2147483647 = .error .ub := by
  have hn : ∀ d : Nat, 2 ≤ d → d < 2147483647 → ¬ d ∣ 2147483647 := fun d h1 h2 hc => by
    rcases (Nat.dvd_prime prime_mersenne31).1 hc with h | h <;> omega
  have hblock : ∀ b : Nat, 2 ≤ b → b ≤ 60077 → forEach offsets (((2147483647 : Nat) : Int), ([] : List (Int × Nat))) (fun t o => strip t (toI32 (b + o))) =
      .ok (((2147483647 : Nat) : Int), []) := by
    intro b h1 h2
    refine forEach_noop fun o ho => ?_
    have := (mem_offsets.1 ho).2.1
    rw [toI32_of_lt (by omega)]
    refine strip_noop (by omega) ?_
    show ¬ (((b + o : Nat) : Int) ∣ ((2147483647 : Nat) : Int))
    rw [Int.natCast_dvd_natCast]
    exact hn _ (by omega) (by omega)
  unfold factorize
  rw [decide_eq_true (show ((2147483647 : Int) > 0) by norm_num), check_true, ok_bind]
  have := primes_noop (n := 2147483647) (fun p hp => hn p (by fin_cases hp <;> norm_num) (by fin_cases hp <;> norm_num))
  rw [show (2147483647 : Int) = ((2147483647 : Nat) : Int) from rfl, this, ok_bind]
  have e1 : ∀ b : Nat, 2 ≤ b → b ≤ 30047 → blockStep (2 ^ 31 - 1) (b, ((2147483647 : Nat) : Int), []) = .ok (some (b + 30030, ((2147483647 : Nat) : Int), [])) := by
    intro b h1 h2
    unfold blockStep
    have hb : b * b ≤ 30047 * 30047 := Nat.mul_le_mul h2 h2
    dsimp only
    rw [if_neg (by omega), if_pos (by
      have : ((b * b : Nat) : Int) ≤ 2147483647 := by omega
      exact_mod_cast this), hblock b h1 (by omega), ok_bind, if_neg (by unfold period; omega)]
    rfl
  obtain ⟨f, hf⟩ : ∃ f, ((2147483647 : Nat) : Int).toNat = f + 2 := ⟨2147483645, rfl⟩
  rw [hf]
  unfold loop
  rw [show nextPrime = 17 from rfl, e1 17 (by norm_num) (by norm_num), ok_bind]
  dsimp only
  unfold loop
  rw [e1 (17 + 30030) (by norm_num) (by norm_num), ok_bind]
  dsimp only
  obtain ⟨r, hr⟩ : ∃ r, blockStep (2 ^ 31 - 1) (17 + 30030 + 30030, ((2147483647 : Nat) : Int), []) = r := ⟨_, rfl⟩
  have : r = .error .ub := by
    rw [← hr]
    unfold blockStep
    rw [if_pos (by norm_num)]
  subst this
  cases f <;> · unfold loop; rw [hr]; rfl

theorem toI32_neg {x : Nat} (h1 : 2 ^ 31 ≤ x) (h2 : x < 2 ^ 32) : toI32 x = -((2 ^ 32 - x : Nat) : Int) := by
  unfold toI32
  rw [Nat.mod_eq_of_lt h2]
  rw [if_neg (by omega)]
  omega

theorem factorize_square_missed : factorize (2 ^ 63 - 1) ((2147483659 : Int) ^ 2) = .ok [((2147483659 : Int) ^ 2, 1)] := by
  obtain ⟨N, hN⟩ : ∃ N : Nat, N = 2147483659 ^ 2 := ⟨_, rfl⟩
  have hNv : N = 4611686065672028281 := by rw [hN]; norm_num
  have hn : ∀ d : Nat, 2 ≤ d → d < 2147483659 → ¬ d ∣ N := fun d h1 h2 hc => by
    rw [hN] at hc
    obtain ⟨i, hi, rfl⟩ := (Nat.dvd_prime_pow prime_above).1 hc
    interval_cases i
    · simp at h1
    · simp at h2
    · norm_num at h2
  have hNi : ((2147483659 : Int) ^ 2) = (N : Int) := by rw [hNv]; norm_num
  rw [hNi]
  have hblock : ∀ b : Nat, 2 ≤ b → b < 2147483677 → forEach offsets ((N : Int), ([] : List (Int × Nat))) (fun t o => strip t (toI32 (b + o))) = .ok ((N : Int), []) := by
    intro b h1 h2
    refine forEach_noop fun o ho => ?_
    have := (mem_offsets.1 ho).2.1
    rcases Nat.lt_or_ge (b + o) (2 ^ 31) with c | c
    · rw [toI32_of_lt (by omega)]
      refine strip_noop (by omega) ?_
      show ¬ (((b + o : Nat) : Int) ∣ (N : Int))
      rw [Int.natCast_dvd_natCast]
      exact hn _ (by omega) (by omega)
    · rw [toI32_neg c (by omega)]
      refine strip_noop (by omega) ?_
      show ¬ (-((2 ^ 32 - (b + o) : Nat) : Int) ∣ (N : Int))
      rw [Int.neg_dvd, Int.natCast_dvd_natCast]
      exact hn _ (by omega) (by omega)
  have hp := primes_noop (n := N) (fun p hp => hn p (by fin_cases hp <;> norm_num) (by fin_cases hp <;> norm_num))
  unfold factorize
  rw [decide_eq_true (show ((N : Int) > 0) by omega), check_true, ok_bind, hp, ok_bind]
  have hl : Tot (loop (blockStep (2 ^ 63 - 1)) (N : Int).toNat (nextPrime, (N : Int), [])) fun s => s.2 = ((N : Int), []) := by
    refine Tot.loop (P := fun (s : Nat × Int × List (Int × Nat)) => 2 ≤ s.1 ∧ s.1 ≤ 2147483677 + 30030 ∧ s.2 = ((N : Int), [])) (fun s => 3000000000 - s.1) ?_ ⟨by unfold nextPrime; norm_num, by unfold nextPrime; norm_num, rfl⟩ ?_
    · rintro ⟨b, t⟩ ⟨h1, h2, rfl⟩
      dsimp only at h1 h2
      unfold blockStep
      dsimp only
      have hb : b * b ≤ (2147483677 + 30030) * (2147483677 + 30030) := Nat.mul_le_mul h2 h2
      rw [if_neg (by norm_num at hb ⊢; omega)]
      by_cases c : b * b ≤ N
      · rw [if_pos (by exact_mod_cast c)]
        have hlt : b < 2147483677 := by
          by_contra hge
          have : 2147483677 * 2147483677 ≤ b * b := Nat.mul_le_mul (by omega) (by omega)
          norm_num at this
          omega
        rw [hblock b h1 hlt, ok_bind, if_neg (by unfold period; omega)]
        exact Tot.pure ⟨⟨by unfold period; om, by unfold period; om, rfl⟩, by unfold period; om⟩
      · rw [if_neg (by exact_mod_cast c)]
        exact Tot.pure rfl
    · rw [Int.toNat_natCast, hNv]
      show 3000000000 - 17 ≤ _
      norm_num
  have h2 : Tot (loop (blockStep (2 ^ 63 - 1)) (N : Int).toNat (nextPrime, (N : Int), []) >>= fun s => (Pure.pure (finish s.2) : M _)) fun r => r = [((N : Int), 1)] := by
    refine Tot.bind hl fun s hs => ?_
    rw [hs]
    refine Tot.pure ?_
    unfold finish
    rw [if_pos (by show (N : Int) ≠ 1; omega)]
    rfl
  exact tot_eq.1 h2

end NumberUtil
