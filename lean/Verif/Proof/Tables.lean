import Verif.Proof.NumberUtil

/-! # Proofs about `divisors_table`, `totient_table` and `LinearSieve` -/

namespace NumberUtil
open Cxx

/-- Entry `j` once the numbers below `k` have been handled. -/
def divsBelow (k j : Nat) : List Nat := (List.range k).filter fun (d : Nat) => decide (0 < d ∧ 0 < j ∧ d ∣ j)

theorem divsBelow_succ (k j : Nat) : divsBelow (k + 1) j = divsBelow k j ++ (if 0 < k ∧ 0 < j ∧ k ∣ j then [k] else []) := by
  unfold divsBelow
  rw [List.range_succ, List.filter_append]
  congr 1
  by_cases c : 0 < k ∧ 0 < j ∧ k ∣ j <;> simp [c]

theorem divisorsTable_tot (n : Nat) : Tot (divisorsTable n) fun t => t.size = n + 1 ∧ ∀ j ≤ n, at' [] t j = divsBelow (n + 1) j := by
  unfold divisorsTable
  refine (Tot.forUp (P := fun i (t : Array (List Nat)) => t.size = n + 1 ∧ ∀ j ≤ n, at' [] t j = divsBelow i j) (by omega) ?_ ?_).mono ?_
  · refine ⟨by simp, fun j hj => ?_⟩
    simp [at', divsBelow, show j < n + 1 by omega]
  · rintro i t hi hi2 ⟨h1, h2⟩
    refine Tot.bind (Tot.loop (P := fun (s : Nat × Array (List Nat)) => ∃ k, 0 < k ∧ s.1 = i * k ∧ s.2.size = n + 1 ∧
        ∀ j ≤ n, at' [] s.2 j = divsBelow i j ++ (if 0 < j ∧ i ∣ j ∧ j < i * k then [i] else []))
      (Q := fun s => s.2.size = n + 1 ∧ ∀ j ≤ n, at' [] s.2 j = divsBelow (i + 1) j) (fun s => n + 1 - s.1) ?_ ?_ ?_) ?_
    · rintro ⟨q, d⟩ ⟨k, hk, rfl, h3, h4⟩
      dsimp only at h3 h4
      unfold tableStep
      dsimp only
      by_cases c : i * k ≤ n
      · rw [if_pos c, rd_at [] (by omega), ok_bind, wr_eq (by omega), ok_bind]
        refine Tot.pure ⟨⟨k + 1, by omega, by show i * k + i = _; ring, by simpa using h3, ?_⟩, by show n + 1 - (i * k + i) < n + 1 - i * k; omega⟩
        intro j hj
        show at' [] (d.setIfInBounds _ _) j = _
        rw [at_set [] (by omega)]
        by_cases cj : j = i * k
        · subst cj
          have hpos : 0 < i * k := Nat.mul_pos (by omega) hk
          rw [if_pos rfl, h4 _ c, if_neg (by omega), if_pos ⟨hpos, dvd_mul_right _ _, by rw [Nat.mul_add]; omega⟩]
          simp
        · rw [if_neg (by first | exact cj | exact Ne.symm cj), h4 j hj]
          congr 1
          by_cases c1 : 0 < j ∧ i ∣ j ∧ j < i * k
          · rw [if_pos c1, if_pos ⟨c1.1, c1.2.1, by rw [Nat.mul_add]; omega⟩]
          · rw [if_neg c1, if_neg]
            rintro ⟨e1, ⟨e, rfl⟩, e3⟩
            have : e < k + 1 := Nat.lt_of_mul_lt_mul_left e3
            rcases Nat.lt_or_ge e k with hek | hek
            · exact c1 ⟨e1, dvd_mul_right _ _, Nat.mul_lt_mul_of_pos_left hek (by omega)⟩
            · exact cj (by rw [show e = k by omega])
      · rw [if_neg c]
        refine Tot.pure ⟨h3, fun j hj => ?_⟩
        rw [show at' [] d j = _ from h4 j hj, divsBelow_succ]
        congr 1
        by_cases c1 : 0 < j ∧ i ∣ j
        · rw [if_pos ⟨c1.1, c1.2, by omega⟩, if_pos ⟨by omega, c1⟩]
        · rw [if_neg (by tauto), if_neg (by tauto)]
    · refine ⟨1, by omega, by simp, h1, fun j hj => ?_⟩
      show at' [] t j = _
      rw [h2 j hj, if_neg]
      · simp
      · rintro ⟨e1, ⟨e, rfl⟩, e3⟩
        have : e < 1 := Nat.lt_of_mul_lt_mul_left e3
        have : e = 0 := by omega
        subst this
        simp at e1
    · show n + 1 - i ≤ n
      omega
    · rintro ⟨q, d⟩ h
      exact Tot.pure h
  · intro t h
    exact h

/-! ### totient_table -/

/-- The prime factors of `j` below `p`. -/
def S (p j : Nat) : Finset Nat := j.primeFactors.filter fun (r : Nat) => r < p

/-- Entry `j` once the primes below `p` have been handled. -/
def phiBelow (p j : Nat) : Nat := j / (∏ r ∈ S p j, r) * ∏ r ∈ S p j, (r - 1)

theorem S_succ_prime {p j : Nat} (h : p ∈ j.primeFactors) : S (p + 1) j = insert p (S p j) := by
  ext r
  simp only [S, Finset.mem_filter, Finset.mem_insert]
  constructor
  · rintro ⟨h1, h2⟩
    rcases Nat.lt_or_ge r p with c | c
    · exact Or.inr ⟨h1, c⟩
    · exact Or.inl (by omega)
  · rintro (rfl | ⟨h1, h2⟩)
    · exact ⟨h, by omega⟩
    · exact ⟨h1, by omega⟩

theorem S_succ_not {p j : Nat} (h : p ∉ j.primeFactors) : S (p + 1) j = S p j := by
  ext r
  simp only [S, Finset.mem_filter]
  constructor
  · rintro ⟨h1, h2⟩
    refine ⟨h1, ?_⟩
    rcases Nat.lt_or_ge r p with c | c
    · exact c
    · exact absurd h1 (by rw [show r = p by omega]; exact h)
  · rintro ⟨h1, h2⟩
    exact ⟨h1, by omega⟩

theorem not_mem_S (p j : Nat) : p ∉ S p j := by simp [S]

theorem prod_S_dvd (p j : Nat) : (∏ r ∈ S p j, r) ∣ j :=
  (Finset.prod_dvd_prod_of_subset _ _ _ (Finset.filter_subset _ _)).trans (Nat.prod_primeFactors_dvd j)

theorem phiBelow_step {p j : Nat} (h : p ∈ j.primeFactors) : phiBelow p j / p * (p - 1) = phiBelow (p + 1) j := by
  unfold phiBelow
  have hp := Nat.pos_of_mem_primeFactors h
  have hd := prod_S_dvd (p + 1) j
  rw [S_succ_prime h, Finset.prod_insert (not_mem_S p j), Finset.prod_insert (not_mem_S p j)] at *
  obtain ⟨A, hA⟩ : ∃ A, A = ∏ r ∈ S p j, r := ⟨_, rfl⟩
  obtain ⟨B, hB⟩ : ∃ B, B = ∏ r ∈ S p j, (r - 1) := ⟨_, rfl⟩
  simp only [← hA, ← hB] at hd ⊢
  obtain ⟨e, he⟩ := hd
  have hj : 0 < j := Nat.pos_of_ne_zero (by rintro rfl; simp at h)
  have hApos : 0 < A := Nat.pos_of_ne_zero (by rintro rfl; simp at he; omega)
  have e1 : j / A = p * e := by rw [he, show p * A * e = A * (p * e) by ring]; exact Nat.mul_div_cancel_left _ hApos
  have e2 : j / (p * A) = e := by rw [he]; exact Nat.mul_div_cancel_left _ (Nat.mul_pos hp hApos)
  rw [e1, e2, show p * e * B = p * (e * B) by ring, Nat.mul_div_cancel_left _ hp]
  ring

theorem phiBelow_not {p j : Nat} (h : p ∉ j.primeFactors) : phiBelow (p + 1) j = phiBelow p j := by
  unfold phiBelow
  rw [S_succ_not h]

theorem phiBelow_all {p j : Nat} (h : ∀ r ∈ j.primeFactors, r < p) : phiBelow p j = Nat.totient j := by
  unfold phiBelow
  rw [Nat.totient_eq_div_primeFactors_mul, show S p j = j.primeFactors from Finset.filter_true_of_mem h]

theorem phiBelow_self {p : Nat} (hp : 2 ≤ p) : phiBelow p p = p ↔ p.Prime := by
  constructor
  · intro h
    by_contra hc
    rw [phiBelow_all] at h
    · have := Nat.totient_lt p (by omega)
      omega
    · intro r hr
      have h1 := Nat.le_of_mem_primeFactors hr
      rcases Nat.lt_or_ge r p with c | c
      · exact c
      · exact absurd (Nat.prime_of_mem_primeFactors hr) (by rw [show r = p by omega]; exact hc)
  · intro h
    unfold phiBelow
    have : S p p = ∅ := by
      unfold S
      rw [h.primeFactors]
      simp
    rw [this]; simp

theorem phiInner_tot {n p : Nat} {a : Array Nat} (hp : p.Prime) (hs : a.size = n + 1) (h : ∀ j ≤ n, at' 0 a j = phiBelow p j) :
    Tot (loop (phiStep n p) n (p, a)) fun s => s.2.size = n + 1 ∧ ∀ j ≤ n, at' 0 s.2 j = phiBelow (p + 1) j := by
  have hp0 := hp.pos
  refine Tot.loop (P := fun (s : Nat × Array Nat) => ∃ k, 0 < k ∧ s.1 = p * k ∧ s.2.size = n + 1 ∧
      ∀ j ≤ n, at' 0 s.2 j = if j < p * k then phiBelow (p + 1) j else phiBelow p j) (fun s => n + 1 - s.1) ?_ ?_ ?_
  · rintro ⟨q, d⟩ ⟨k, hk, rfl, h3, h4⟩
    dsimp only at h3 h4
    unfold phiStep
    dsimp only
    by_cases c : p * k ≤ n
    · rw [if_pos c, rd_at 0 (by omega), ok_bind, wr_eq (by omega), ok_bind]
      refine Tot.pure ⟨⟨k + 1, by omega, by show p * k + p = _; ring, by simpa using h3, ?_⟩, by show n + 1 - (p * k + p) < n + 1 - p * k; omega⟩
      intro j hj
      show at' 0 (d.setIfInBounds _ _) j = _
      rw [at_set 0 (by omega)]
      have hmul : p * (k + 1) = p * k + p := by ring
      by_cases cj : j = p * k
      · subst cj
        rw [if_pos rfl, if_pos (by omega), h4 _ c, if_neg (by omega)]
        have hpos : 0 < p * k := Nat.mul_pos hp0 hk
        exact phiBelow_step (Nat.mem_primeFactors.2 ⟨hp, dvd_mul_right _ _, by omega⟩)
      · rw [if_neg (by first | exact cj | exact Ne.symm cj), h4 j hj]
        by_cases c1 : j < p * k
        · rw [if_pos c1, if_pos (by omega)]
        · rw [if_neg c1]
          by_cases c2 : j < p * (k + 1)
          · rw [if_pos c2, phiBelow_not]
            intro hm
            obtain ⟨e, rfl⟩ := Nat.dvd_of_mem_primeFactors hm
            have h5 : e < k + 1 := Nat.lt_of_mul_lt_mul_left c2
            rcases Nat.lt_or_ge e k with hek | hek
            · exact c1 (Nat.mul_lt_mul_of_pos_left hek hp0)
            · exact cj (by rw [show e = k by omega])
          · rw [if_neg c2]
    · rw [if_neg c]
      refine Tot.pure ⟨h3, fun j hj => ?_⟩
      show at' 0 d j = _
      rw [h4 j hj, if_pos (by omega)]
  · refine ⟨1, by omega, by simp, hs, fun j hj => ?_⟩
    show at' 0 a j = _
    rw [h j hj]
    by_cases c : j < p * 1
    · rw [if_pos c, phiBelow_not]
      intro hm
      have := Nat.le_of_mem_primeFactors hm
      omega
    · rw [if_neg c]
  · show n + 1 - p ≤ n
    omega

theorem phiPrime_tot {n p : Nat} {a : Array Nat} (hp : 2 ≤ p) (hpn : p ≤ n) (hs : a.size = n + 1) (h : ∀ j ≤ n, at' 0 a j = phiBelow p j) :
    Tot (phiPrime n p a) fun a' => a'.size = n + 1 ∧ ∀ j ≤ n, at' 0 a' j = phiBelow (p + 1) j := by
  unfold phiPrime
  rw [rd_at 0 (by omega), ok_bind, h p hpn]
  by_cases c : p.Prime
  · rw [if_neg (by push Not; exact (phiBelow_self hp).2 c)]
    refine Tot.bind (phiInner_tot c hs h) ?_
    rintro ⟨q, d⟩ h
    exact Tot.pure h
  · rw [if_pos (fun hc => c ((phiBelow_self hp).1 hc))]
    refine Tot.pure ⟨hs, fun j hj => ?_⟩
    rw [h j hj, phiBelow_not]
    exact fun hm => c (Nat.prime_of_mem_primeFactors hm)

theorem totientTable_tot (n : Nat) : Tot (totientTable n) fun a => a.size = n + 1 ∧ ∀ j ≤ n, at' 0 a j = Nat.totient j := by
  unfold totientTable
  refine Tot.bind (Tot.loop (P := fun (s : Nat × Array Nat) => 3 ≤ s.1 ∧ s.1 % 2 = 1 ∧ s.2.size = n + 1 ∧ ∀ j ≤ n, at' 0 s.2 j = phiBelow s.1 j)
    (Q := fun s => s.2.size = n + 1 ∧ ∀ j ≤ n, at' 0 s.2 j = Nat.totient j) (fun s => n + 1 - s.1) ?_ ?_ ?_) ?_
  · rintro ⟨p, a⟩ ⟨h1, h2, h3, h4⟩
    dsimp only at h1 h2 h3 h4
    unfold phiLoop
    dsimp only
    by_cases c : p ≤ n
    · rw [if_pos c]
      refine Tot.bind (phiPrime_tot (by omega) c h3 h4) ?_
      rintro a' ⟨h5, h6⟩
      refine Tot.pure ⟨⟨by om, by om, h5, fun j hj => ?_⟩, by om⟩
      show at' 0 a' j = phiBelow (p + 1 + 1) j
      rw [h6 j hj, phiBelow_not (p := p + 1)]
      intro hm
      have hpr := Nat.prime_of_mem_primeFactors hm
      rcases hpr.eq_two_or_odd with e | e <;> omega
    · rw [if_neg c]
      refine Tot.pure ⟨h3, fun j hj => ?_⟩
      show at' 0 a j = _
      rw [h4 j hj, phiBelow_all]
      intro r hr
      have := Nat.le_of_mem_primeFactors hr
      omega
  · refine ⟨by om, by om, by simp, fun j hj => ?_⟩
    have e0 : phiBelow 2 j = j := by
      unfold phiBelow
      have : S 2 j = ∅ := by
        unfold S
        rw [Finset.filter_eq_empty_iff]
        intro r hr
        have := (Nat.prime_of_mem_primeFactors hr).two_le
        omega
      rw [this]; simp
    have e1 : at' 0 (Array.ofFn (n := n + 1) fun i => if i.val % 2 = 0 then i.val / 2 else i.val) j = if j % 2 = 0 then j / 2 else j := by
      simp [at', show j < n + 1 by omega]
    show at' 0 (Array.ofFn _) j = _
    rw [e1]
    by_cases c : j % 2 = 0
    · rw [if_pos c]
      by_cases c0 : j = 0
      · subst c0
        simp [phiBelow]
      · rw [← phiBelow_step (Nat.mem_primeFactors.2 ⟨Nat.prime_two, Nat.dvd_of_mod_eq_zero c, c0⟩), e0]
        simp
    · rw [if_neg c, phiBelow_not, e0]
      intro hm
      have := Nat.mod_eq_zero_of_dvd (Nat.dvd_of_mem_primeFactors hm)
      omega
  · show n + 1 - 3 ≤ n
    omega
  · rintro ⟨p, a⟩ h
    exact Tot.pure h

end NumberUtil

namespace LinearSieve
open Cxx

/-- Entry `k` once the multipliers below `d` have been handled. -/
def mpfAt (d k : Nat) : Nat := if 2 ≤ k ∧ ¬ k.Prime ∧ k / k.minFac < d then k.minFac else k

/-- The primes below `d`. -/
def primesBelow (d : Nat) : List Nat := (List.range d).filter fun (p : Nat) => decide p.Prime

theorem mem_primesBelow {d p : Nat} : p ∈ primesBelow d ↔ p.Prime ∧ p < d := by
  unfold primesBelow
  rw [List.mem_filter, List.mem_range, decide_eq_true_eq]; tauto

theorem primesBelow_sorted (d : Nat) : (primesBelow d).Pairwise (· < ·) := List.pairwise_lt_range.filter _

theorem primesBelow_succ (d : Nat) : primesBelow (d + 1) = primesBelow d ++ (if d.Prime then [d] else []) := by
  unfold primesBelow
  rw [List.range_succ, List.filter_append]
  congr 1
  by_cases c : d.Prime <;> simp [c]

theorem minFac_self {d : Nat} : d.minFac = d ↔ d.Prime ∨ d = 1 := by
  constructor
  · intro h
    by_cases c : d = 1
    · exact Or.inr c
    · left; rw [← h]; exact Nat.minFac_prime c
  · rintro (h | rfl)
    · exact h.minFac_eq
    · exact Nat.minFac_one

theorem mpfAt_self {d : Nat} (hd : 2 ≤ d) : mpfAt d d = d.minFac := by
  unfold mpfAt
  by_cases c : d.Prime
  · rw [if_neg (by tauto), c.minFac_eq]
  · refine if_pos ⟨hd, c, ?_⟩
    have := (Nat.minFac_prime (show d ≠ 1 by omega)).one_lt
    exact Nat.div_lt_self (by omega) this

theorem minFac_mul {p d : Nat} (hp : p.Prime) (hd : 2 ≤ d) (h : p ≤ d.minFac) : (p * d).minFac = p := by
  refine le_antisymm (Nat.minFac_le_of_dvd hp.two_le (dvd_mul_right _ _)) ?_
  have hne : p * d ≠ 1 := by have := hp.two_le; nlinarith
  have h1 := Nat.minFac_prime hne
  rcases h1.dvd_mul.1 (Nat.minFac_dvd (p * d)) with h2 | h2
  · rcases (Nat.dvd_prime hp).1 h2 with h3 | h3
    · exact absurd h3 h1.one_lt.ne'
    · exact h3.ge
  · exact h.trans (Nat.minFac_le_of_dvd h1.two_le h2)

open Classical in
/-- What the inner loop has to write for the multiplier `d`. -/
theorem mpfAt_succ {n d k : Nat} (hd : 2 ≤ d) (hk : k ≤ n) :
    mpfAt (d + 1) k = if ∃ p, p.Prime ∧ p ≤ d.minFac ∧ p ≤ n / d ∧ k = p * d then k / d else mpfAt d k := by
  by_cases c : ∃ p, p.Prime ∧ p ≤ d.minFac ∧ p ≤ n / d ∧ k = p * d
  · rw [if_pos c]
    obtain ⟨p, h1, h2, h3, rfl⟩ := c
    have hp := h1.two_le
    unfold mpfAt
    rw [minFac_mul h1 hd h2, Nat.mul_div_cancel_left _ h1.pos, Nat.mul_div_cancel _ (by omega : 0 < d)]
    refine if_pos ⟨by nlinarith, ?_, by omega⟩
    exact Nat.not_prime_mul (by omega) (by omega)
  · rw [if_neg c]
    unfold mpfAt
    by_cases c1 : 2 ≤ k ∧ ¬ k.Prime ∧ k / k.minFac < d
    · rw [if_pos c1, if_pos ⟨c1.1, c1.2.1, by omega⟩]
    · rw [if_neg c1, if_neg]
      rintro ⟨e1, e2, e3⟩
      have e4 : k / k.minFac = d := by
        by_contra hc
        exact c1 ⟨e1, e2, by omega⟩
      have hp := Nat.minFac_prime (show k ≠ 1 by omega)
      have e5 : k = k.minFac * d := by rw [← e4, Nat.mul_div_cancel' (Nat.minFac_dvd k)]
      refine c ⟨k.minFac, hp, ?_, ?_, e5⟩
      · refine Nat.minFac_le_of_dvd (Nat.minFac_prime (show d ≠ 1 by omega)).two_le ?_
        exact (Nat.minFac_dvd d).trans ⟨k.minFac, by rw [Nat.mul_comm]; exact e5⟩
      · rw [Nat.le_div_iff_mul_le (by omega)]
        omega

open Classical in
theorem mark_tot {n d : Nat} {ps a : Array Nat} (hd : 2 ≤ d) (hdn : d ≤ n) (hs : a.size = n + 1) (hps : ps.toList = primesBelow (d + 1))
    (ha : ∀ k ≤ n, at' 0 a k = mpfAt d k) :
    Tot (loop (markStep ps d (min d.minFac (n / d))) ps.size (0, a)) fun s => s.2.size = n + 1 ∧ ∀ k ≤ n, at' 0 s.2 k = mpfAt (d + 1) k := by
  have hsort := primesBelow_sorted (d + 1)
  rw [← hps] at hsort
  have hmem : ∀ i (h : i < ps.size), ps[i].Prime ∧ ps[i] < d + 1 := by
    intro i h
    have : ps[i] ∈ ps.toList := by simp
    rw [hps] at this
    exact mem_primesBelow.1 this
  refine Tot.loop (P := fun (s : Nat × Array Nat) => s.1 ≤ ps.size ∧ s.2.size = n + 1 ∧ (∀ i (h : i < ps.size), i < s.1 → ps[i] ≤ min d.minFac (n / d)) ∧
      (∀ k ≤ n, at' 0 s.2 k = if ∃ i, ∃ (h : i < ps.size), i < s.1 ∧ k = ps[i] * d then k / d else mpfAt d k)) (fun s => ps.size - s.1) ?_ ?_ ?_
  · rintro ⟨i, b⟩ ⟨h1, h2, h3, h4⟩
    dsimp only at h1 h2 h3 h4
    have fin : (∀ j (h : j < ps.size), i ≤ j → min d.minFac (n / d) < ps[j]) → b.size = n + 1 ∧ ∀ k ≤ n, at' 0 b k = mpfAt (d + 1) k := by
      intro hc
      refine ⟨h2, fun k hk => ?_⟩
      rw [h4 k hk, mpfAt_succ hd hk]
      have : (∃ j, ∃ (h : j < ps.size), j < i ∧ k = ps[j] * d) ↔ ∃ p, p.Prime ∧ p ≤ d.minFac ∧ p ≤ n / d ∧ k = p * d := by
        constructor
        · rintro ⟨j, hj, hji, rfl⟩
          have := h3 j hj hji
          exact ⟨ps[j], (hmem j hj).1, by omega, by omega, rfl⟩
        · rintro ⟨p, p1, p2, p3, rfl⟩
          have hle := Nat.minFac_le (show 0 < d by omega)
          have : p ∈ ps.toList := by rw [hps]; exact mem_primesBelow.2 ⟨p1, by omega⟩
          obtain ⟨j, hj, e⟩ := List.getElem_of_mem this
          have hj' : j < ps.size := by simpa using hj
          have e' : ps[j] = p := by simpa using e
          refine ⟨j, hj', ?_, by rw [e']⟩
          by_contra hge
          have := hc j hj' (by omega)
          omega
      by_cases c : ∃ j, ∃ (h : j < ps.size), j < i ∧ k = ps[j] * d
      · rw [if_pos c, if_pos (this.1 c)]
      · rw [if_neg c, if_neg (fun h => c (this.2 h))]
    unfold markStep
    dsimp only
    by_cases c : i < ps.size
    · rw [if_pos c, rd_eq c, ok_bind]
      by_cases c2 : ps[i] > min d.minFac (n / d)
      · rw [if_pos c2]
        refine Tot.pure (fin ?_)
        intro j hj hij
        rcases Nat.lt_or_ge i j with c3 | c3
        · have := List.pairwise_iff_getElem.1 hsort i j (by simpa using c) (by simpa using hj) c3
          simp at this
          omega
        · have : j = i := by omega
          subst this
          exact c2
      · rw [if_neg c2]
        have hle : ps[i] * d ≤ n := by
          have : ps[i] ≤ n / d := by omega
          exact (Nat.le_div_iff_mul_le (by omega)).1 this
        rw [wr_eq (by omega), ok_bind]
        refine Tot.pure ⟨⟨by om, by simpa using h2, ?_, ?_⟩, by om⟩
        · intro j hj hji
          have hji' : j < i + 1 := hji
          rcases Nat.lt_or_ge j i with c3 | c3
          · exact h3 j hj c3
          · have : j = i := by omega
            subst this
            omega
        · intro k hk
          show at' 0 (b.setIfInBounds _ _) k = if ∃ j, ∃ (h : j < ps.size), j < i + 1 ∧ k = ps[j] * d then k / d else mpfAt d k
          rw [at_set 0 (by omega)]
          by_cases ck : k = ps[i] * d
          · rw [if_pos (by first | exact ck | exact ck.symm), if_pos ⟨i, c, by omega, ck⟩, ck, Nat.mul_div_cancel _ (by omega : 0 < d)]
          · rw [if_neg (by first | exact ck | exact Ne.symm ck), h4 k hk]
            have : (∃ j, ∃ (h : j < ps.size), j < i ∧ k = ps[j] * d) ↔ ∃ j, ∃ (h : j < ps.size), j < i + 1 ∧ k = ps[j] * d := by
              constructor
              · rintro ⟨j, hj, h5, h6⟩; exact ⟨j, hj, by omega, h6⟩
              · rintro ⟨j, hj, h5, h6⟩
                refine ⟨j, hj, ?_, h6⟩
                rcases Nat.lt_or_ge j i with c3 | c3
                · exact c3
                · have : j = i := by omega
                  subst this
                  exact absurd h6 ck
            simp only [this]
    · rw [if_neg c]
      exact Tot.pure (fin fun j hj hij => by omega)
  · refine ⟨by om, hs, fun i _ hi => by om, fun k hk => ?_⟩
    rw [if_neg]
    · exact ha k hk
    · rintro ⟨i, _, hi, -⟩
      om
  · om

/-- What the constructor establishes. -/
structure Ok (n : Nat) (s : State) : Prop where
  n_eq : s.n = n
  size : s.mpf.size = n + 1
  mpf : ∀ k, 2 ≤ k → k ≤ n → at' 0 s.mpf k = k.minFac
  primes : s.primes.toList = primesBelow (n + 1)

theorem make_tot (n : Nat) : Tot (make n) (Ok n) := by
  unfold make
  have key : Tot (forUp 2 (n + 1) (Array.range (n + 1), #[]) (sieveStep n)) fun s => s.1.size = n + 1 ∧ (∀ k ≤ n, 2 ≤ k → at' 0 s.1 k = k.minFac) ∧
      s.2.toList = primesBelow (n + 1) := by
    rcases Nat.lt_or_ge n 2 with c | c
    · have : forUp 2 (n + 1) (Array.range (n + 1), (#[] : Array Nat)) (sieveStep n) = .ok (Array.range (n + 1), #[]) := by
        unfold forUp
        rw [show n + 1 - 2 = 0 by omega]; rfl
      rw [this]
      refine Tot.pure ⟨by simp, fun k _ _ => by omega, ?_⟩
      show [] = _
      symm
      rw [List.eq_nil_iff_forall_not_mem]
      intro p hp
      have h1 := mem_primesBelow.1 hp
      have := h1.1.two_le
      omega
    · refine (Tot.forUp (P := fun d (s : Array Nat × Array Nat) => s.1.size = n + 1 ∧ (∀ k ≤ n, at' 0 s.1 k = mpfAt d k) ∧ s.2.toList = primesBelow d) (by omega) ?_ ?_).mono ?_
      · refine ⟨by simp, fun k hk => ?_, show [] = primesBelow 2 by decide⟩
        have e1 : at' 0 (Array.range (n + 1)) k = k := by simp [at', show k < n + 1 by omega]
        rw [e1]
        unfold mpfAt
        rw [if_neg]
        rintro ⟨h1, h2, h3⟩
        have hp := Nat.minFac_prime (show k ≠ 1 by omega)
        have h4 := Nat.minFac_le (show 0 < k by omega)
        have h5 : 0 < k / k.minFac := Nat.div_pos h4 hp.pos
        have h6 : k / k.minFac = 1 := by omega
        have h7 := Nat.mul_div_cancel' (Nat.minFac_dvd k)
        rw [h6, Nat.mul_one] at h7
        rw [h7] at hp
        exact h2 hp
      · rintro d ⟨a, ps⟩ h1 h2 ⟨h3, h4, h5⟩
        dsimp only at h3 h4 h5
        unfold sieveStep
        dsimp only
        rw [rd_at 0 (by omega), ok_bind, h4 d (by omega), mpfAt_self h1]
        have hps : (if d.minFac = d then ps.push d else ps).toList = primesBelow (d + 1) := by
          rw [primesBelow_succ]
          by_cases c1 : d.Prime
          · rw [if_pos c1.minFac_eq, if_pos c1]
            simp [h5]
          · rw [if_neg (fun h => by rcases minFac_self.1 h with h | h; exacts [c1 h, by omega]), if_neg c1]
            simp [h5]
        refine Tot.bind (mark_tot h1 (by omega) h3 hps h4) ?_
        rintro ⟨j, b⟩ ⟨h6, h7⟩
        exact Tot.pure ⟨h6, h7, hps⟩
      · rintro ⟨a, ps⟩ ⟨h1, h2, h3⟩
        refine ⟨h1, fun k hk hk2 => ?_, h3⟩
        show at' 0 a k = _
        rw [h2 k hk]
        unfold mpfAt
        by_cases c1 : k.Prime
        · rw [if_neg (by tauto), c1.minFac_eq]
        · refine if_pos ⟨hk2, c1, ?_⟩
          have := Nat.div_le_self k k.minFac
          omega
  refine Tot.bind key ?_
  rintro ⟨a, ps⟩ ⟨h1, h2, h3⟩
  exact Tot.pure ⟨rfl, h1, fun k a b => h2 k b a, h3⟩

open NumberUtil in
theorem factorize_tot {n k : Nat} {s : State} (hs : Ok n s) (hk : 0 < k) (hkn : k ≤ n) : Tot (factorize s k) (Fact k) := by
  unfold factorize
  rw [decide_eq_true (show 0 < k ∧ k ≤ s.n by rw [hs.n_eq]; omega), check_true, ok_bind]
  refine Tot.bind (Tot.loop (P := fun (t : Nat × List (Nat × Nat)) => 0 < t.1 ∧ t.1 ≤ n ∧ t.1 * prodOf t.2 = k ∧ t.2.Pairwise (fun a b => a.1 < b.1) ∧
      ∀ x ∈ t.2, (x.1.Prime ∧ 0 < x.2) ∧ ∀ q, q.Prime → q ∣ t.1 → x.1 < q) (Q := fun t => Fact k t.2) (fun t => t.1) ?_ ?_ (le_refl _)) ?_
  · rintro ⟨m, l⟩ ⟨h1, h2, h3, h4, h5⟩
    dsimp only at h1 h2 h3 h4 h5
    unfold factorStep
    dsimp only
    by_cases c : m > 1
    · have hp := Nat.minFac_prime (show m ≠ 1 by omega)
      have hsz := hs.size
      rw [if_pos c, rd_at 0 (by omega), ok_bind, hs.mpf m (by omega) h2, if_neg hp.ne_zero]
      obtain ⟨p, hpe⟩ : ∃ p, p = m.minFac := ⟨_, rfl⟩
      have hpd : p ∣ m := by rw [hpe]; exact Nat.minFac_dvd m
      have hpmin : ∀ q, q.Prime → q ∣ m → p ≤ q := fun q hq hd => by rw [hpe]; exact Nat.minFac_le_of_dvd hq.two_le hd
      simp only [← hpe] at hp ⊢
      obtain ⟨e, rfl⟩ := hpd
      have hp2 := hp.two_le
      have he : 0 < e := Nat.pos_of_ne_zero (by rintro rfl; simp at c)
      rw [Nat.mul_div_cancel_left _ hp.pos]
      refine Tot.bind (Tot.loop (P := fun (t : Nat × Nat) => 0 < t.1 ∧ 0 < t.2 ∧ t.1 * p ^ t.2 = p * e) (Q := fun t => (0 < t.1 ∧ 0 < t.2 ∧ t.1 * p ^ t.2 = p * e) ∧ ¬ p ∣ t.1)
        (fun t => t.1) ?_ ?_ ?_) ?_
      · rintro ⟨x, i⟩ ⟨g1, g2, g3⟩
        dsimp only at g1 g2 g3
        unfold divStep
        dsimp only
        by_cases cx : x % p = 0
        · rw [if_pos cx]
          obtain ⟨y, rfl⟩ := Nat.dvd_of_mod_eq_zero cx
          rw [Nat.mul_div_cancel_left _ hp.pos]
          have hy : 0 < y := Nat.pos_of_ne_zero (by rintro rfl; simp at g1)
          refine Tot.pure ⟨⟨hy, by om, ?_⟩, ?_⟩
          · show y * p ^ (i + 1) = _
            rw [← g3, pow_succ]; ring
          · show y < p * y
            nlinarith
        · rw [if_neg cx]
          exact Tot.pure ⟨⟨g1, g2, g3⟩, fun hd => cx (Nat.mod_eq_zero_of_dvd hd)⟩
      · exact ⟨he, by om, by show e * p ^ 1 = _; ring⟩
      · show e ≤ p * e
        nlinarith
      · rintro ⟨x, i⟩ ⟨⟨g1, g2, g3⟩, g4⟩
        dsimp only at g1 g2 g3 g4
        have hxd : x ∣ p * e := ⟨_, g3.symm⟩
        refine Tot.pure ⟨⟨g1, ?_, ?_, ?_, ?_⟩, ?_⟩
        · show x ≤ n
          exact (Nat.le_of_dvd (by nlinarith) hxd).trans h2
        · show x * prodOf (l ++ [(p, i)]) = k
          rw [prodOf_append, ← h3, ← g3]
          show x * (prodOf l * p ^ i) = x * p ^ i * prodOf l
          ring
        · show (l ++ [(p, i)]).Pairwise _
          rw [List.pairwise_append]
          refine ⟨h4, by simp, fun a ha b hb => ?_⟩
          simp only [List.mem_singleton] at hb
          subst hb
          exact (h5 a ha).2 p hp (dvd_mul_right _ _)
        · intro y hy
          have hy' : y ∈ l ++ [(p, i)] := hy
          rcases List.mem_append.1 hy' with h | h
          · exact ⟨(h5 y h).1, fun q hq hqd => (h5 y h).2 q hq (hqd.trans hxd)⟩
          · simp only [List.mem_singleton] at h
            subst h
            refine ⟨⟨hp, g2⟩, fun q hq hqd => ?_⟩
            have := hpmin q hq (hqd.trans hxd)
            refine lt_of_le_of_ne this ?_
            rintro rfl
            exact g4 hqd
        · show x < p * e
          have : p ≤ p ^ i := Nat.le_self_pow (by omega) p
          nlinarith
    · rw [if_neg c]
      have : m = 1 := by omega
      subst this
      exact Tot.pure ⟨h4, fun x hx => (h5 x hx).1, by simpa [prodOf] using h3⟩
  · exact ⟨hk, hkn, by simp [prodOf], by simp, by simp⟩
  · rintro ⟨m, l⟩ h
    exact Tot.pure h

end LinearSieve
