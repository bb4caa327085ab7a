import Verif.Proof.WheelSieve2
import Verif.Proof.NumberUtil
import Mathlib.Data.List.Sort

/-! # Queries of the sieves -/

namespace WheelSieve
open Cxx

theorem simpleIsPrime_eq {sz : Nat} {flag : Array Nat} (hf : Exact sz flag) {p : Nat} (hp : p < 30 * sz) :
    simpleIsPrime flag p = .ok (decide p.Prime) := by
  unfold simpleIsPrime
  by_cases h : p = 2 ∨ p = 3 ∨ p = 5
  · rw [if_pos h]
    have : p.Prime := by rcases h with rfl | rfl | rfl <;> norm_num
    simp [this]
  · rw [if_neg h]
    cases hj : residueIndex (p % 30) with
    | none =>
      have hc := residueIndex_none hj
      have : ¬ p.Prime := by
        intro hpp
        refine hc ((Nat.Prime.coprime_iff_not_dvd hpp).2 ?_)
        intro hd
        have := (Nat.dvd_of_mod_eq_zero (Nat.mod_eq_zero_of_dvd hd))
        rw [show (30 : Nat) = 2 * (3 * 5) by norm_num] at this
        rcases hpp.dvd_mul.1 this with h2 | h2
        · exact h (.inl ((Nat.prime_dvd_prime_iff_eq hpp Nat.prime_two).1 h2))
        · rcases hpp.dvd_mul.1 h2 with h2 | h2
          · exact h (.inr (.inl ((Nat.prime_dvd_prime_iff_eq hpp Nat.prime_three).1 h2)))
          · exact h (.inr (.inr ((Nat.prime_dvd_prime_iff_eq hpp Nat.prime_five).1 h2)))
      simp [this]
    | some j =>
      obtain ⟨h8, hw⟩ := residueIndex_some hj
      dsimp only
      rw [rd_at 0 (by rw [hf.size]; omega), ok_bind]
      have := hf.exact (p / 30) j (by omega) h8
      rw [← hw, Nat.div_add_mod] at this
      unfold bit at this
      rw [Nat.testBit] at this
      congr 1
      rw [Bool.eq_iff_iff, decide_eq_true_eq, beq_iff_eq]
      rw [Nat.and_comm] 
      have e : (1 &&& at' 0 flag (p / 30) >>> j != 0) = true ↔ ¬ (1 &&& at' 0 flag (p / 30) >>> j = 0) := by simp
      rw [e] at this
      exact not_iff_not.1 this

/-- strictly increasing residues -/
theorem wh_mono : ∀ i j, i < 8 → j < 8 → i < j → wh i < wh j := lt8' (by decide)

/-- the list built by `prime_list` as natural numbers -/
structure ListInv (bound : Nat → Prop) (L : List Nat) : Prop where
  sorted : L.Pairwise (· < ·)
  mem : ∀ x, x ∈ L ↔ x.Prime ∧ bound x

theorem small_prime {x : Nat} (hp : x.Prime) (hx : x < 6) : x = 2 ∨ x = 3 ∨ x = 5 := by
  interval_cases x <;> first | omega | exact absurd hp (by norm_num)

theorem prime_index {x : Nat} (hp : x.Prime) (hx : 6 ≤ x) : ∃ j, j < 8 ∧ x % 30 = wh j := by
  refine exists_index ((Nat.Prime.coprime_iff_not_dvd hp).2 ?_)
  intro h
  rw [show (30 : Nat) = 2 * (3 * 5) by norm_num] at h
  rcases hp.dvd_mul.1 h with h2 | h2
  · have := Nat.le_of_dvd (by norm_num) h2; omega
  · rcases hp.dvd_mul.1 h2 with h2 | h2
    · have := Nat.le_of_dvd (by norm_num) h2; omega
    · have := Nat.le_of_dvd (by norm_num) h2; omega

theorem push_tot {sz k : Nat} {flag : Array Nat} (hf : Exact sz flag) (hk : k < sz) {L : List Nat} (hL : ListInv (fun x => x < 6 ∨ x < 30 * k) L) :
    Tot (loop (pushStep (30 * k)) 8 (255 - at' 0 flag k, L.map toI32)) fun s => ∃ L' : List Nat, s.2 = L'.map toI32 ∧ ListInv (fun x => x < 6 ∨ x < 30 * (k + 1)) L' := by
  obtain ⟨f, hfe⟩ : ∃ f, f = at' 0 flag k := ⟨_, rfl⟩
  have hf256 : f < 256 := hfe ▸ hf.small k
  have hex : ∀ j, j < 8 → (f.testBit j = false ↔ (30 * k + wh j).Prime) := by
    intro j hj
    have := hf.exact k j hk hj
    unfold bit at this
    rw [← hfe] at this
    rw [← not_iff_not, Bool.not_eq_false]
    exact this
  have hcb : ∀ j, j < 8 → (255 - f).testBit j = !f.testBit j := fun j hj => compl_bit ⟨f, hf256⟩ ⟨j, hj⟩
  rw [← hfe]
  refine Tot.loop (P := fun s => s.1 < 256 ∧ (∀ j, j < 8 → s.1.testBit j = true → f.testBit j = false) ∧
      ∃ L' : List Nat, s.2 = L'.map toI32 ∧ L'.Pairwise (· < ·) ∧
        (∀ x, x ∈ L' ↔ x.Prime ∧ (x < 6 ∨ x < 30 * k ∨ ∃ j, j < 8 ∧ s.1.testBit j = false ∧ x = 30 * k + wh j)) ∧
        ∀ x ∈ L', ∀ j, j < 8 → s.1.testBit j = true → x < 30 * k + wh j) (fun s => pc s.1) ?_ ?_ (pc_le _)
  · rintro ⟨b, res⟩ ⟨hb, h1, L', he, hs, hm, hlt⟩
    unfold pushStep
    dsimp only at *
    by_cases hb0 : b = 0
    · rw [if_pos hb0]
      refine Tot.pure ⟨L', he, hs, ?_⟩
      intro x
      rw [hm x]
      refine and_congr_right fun hp => ?_
      constructor
      · rintro (h | h | ⟨j, hj, -, rfl⟩)
        · exact .inl h
        · exact .inr (by omega)
        · have := wh_lt j hj
          exact .inr (by omega)
      · rintro (h | h)
        · exact .inl h
        · rcases Nat.lt_or_ge x 6 with h6 | h6
          · exact .inl h6
          · rcases Nat.lt_or_ge x (30 * k) with h3 | h3
            · exact .inr (.inl h3)
            · obtain ⟨j, hj, e⟩ := prime_index hp h6
              exact .inr (.inr ⟨j, hj, by rw [hb0]; simp, by omega⟩)
    · rw [if_neg hb0]
      obtain ⟨j, hj, e1, e2, e3, e4, e5, e6⟩ := low_bit hb hb0
      rw [e1, ok_bind, rd_RM j hj, ok_bind, e5]
      have hpj := (hex j hj).1 (h1 j hj e2)
      refine Tot.pure ⟨⟨e4, fun i hi h => h1 i hi ((e3 i hi).1 h).1, L' ++ [30 * k + wh j], by simp [he], ?_, ?_, ?_⟩, pc_low ⟨b, hb⟩ hb0⟩
      · rw [List.pairwise_append]
        refine ⟨hs, List.pairwise_singleton _ _, ?_⟩
        intro x hx y hy
        rw [List.mem_singleton] at hy
        rw [hy]
        exact hlt x hx j hj e2
      · intro x
        rw [List.mem_append, List.mem_singleton, hm x]
        constructor
        · rintro (⟨hp, h⟩ | rfl)
          · refine ⟨hp, ?_⟩
            rcases h with h | h | ⟨i, hi, hbi, rfl⟩
            · exact .inl h
            · exact .inr (.inl h)
            · refine .inr (.inr ⟨i, hi, ?_, rfl⟩)
              by_contra hc
              have := ((e3 i hi).1 (by simpa using hc)).1
              rw [this] at hbi
              exact absurd hbi (by simp)
          · refine ⟨hpj, .inr (.inr ⟨j, hj, ?_, rfl⟩)⟩
            by_contra hc
            exact ((e3 j hj).1 (by simpa using hc)).2 rfl
        · rintro ⟨hp, h⟩
          rcases h with h | h | ⟨i, hi, hbi, rfl⟩
          · exact .inl ⟨hp, .inl h⟩
          · exact .inl ⟨hp, .inr (.inl h)⟩
          · by_cases hij : i = j
            · right; rw [hij]
            · refine .inl ⟨hp, .inr (.inr ⟨i, hi, ?_, rfl⟩)⟩
              by_contra hc
              have := (e3 i hi).2 ⟨by simpa using hc, hij⟩
              rw [this] at hbi
              exact absurd hbi (by simp)
      · intro x hx i hi hbi
        have hb' := (e3 i hi).1 hbi
        rw [List.mem_append, List.mem_singleton] at hx
        rcases hx with hx | rfl
        · exact hlt x hx i hi hb'.1
        · have := e6 i hi hb'.1
          have := wh_mono j i hj hi (by have := hb'.2; omega)
          omega
  · refine ⟨by dsimp only; omega, ?_, L, rfl, hL.sorted, ?_, ?_⟩
    · intro j hj h
      dsimp only at h
      rw [hcb j hj] at h
      simpa using h
    · intro x
      rw [hL.mem x]
      refine and_congr_right fun hp => ?_
      constructor
      · rintro (h | h)
        · exact .inl h
        · exact .inr (.inl h)
      · rintro (h | h | ⟨j, hj, hb, rfl⟩)
        · exact .inl h
        · exact .inr h
        · exfalso
          dsimp only at hb
          rw [hcb j hj, (hex j hj).2 hp] at hb
          exact absurd hb (by simp)
    · intro x hx j hj hb
      dsimp only at hb
      rw [hcb j hj] at hb
      have hpj := (hex j hj).1 (by simpa using hb)
      have hw := wh_lt j hj
      rcases ((hL.mem x).1 hx) with ⟨hp, h | h⟩
      · by_contra hc
        have hk0 : k = 0 := by omega
        rw [hk0, Nat.mul_zero, Nat.zero_add] at hpj hc
        have := lt8 (P := fun j => wh j = 1 ∨ 6 < wh j) (by decide) j hj
        rcases this with h1 | h1
        · rw [h1] at hpj
          exact absurd hpj (by norm_num)
        · omega
      · omega

theorem toI32_mod {x : Nat} (h : x < 2 ^ 32) : toI32 x % 2 ^ 32 = x := by
  unfold toI32
  rw [Nat.mod_eq_of_lt h]
  split <;> omega

theorem drop_tail (m : Nat) (L : List Nat) (hs : L.Pairwise (· < ·)) (hb : ∀ x ∈ L, x < 2 ^ 32) :
    (L.map toI32).rdropWhile (fun x => decide ((m : Int) < x % 2 ^ 32)) = (L.filter fun x => decide (x ≤ m)).map toI32 := by
  induction L using List.reverseRecOn with
  | nil => rfl
  | append_singleton L x ih =>
    rw [List.pairwise_append] at hs
    have hx := hb x (by simp)
    rw [List.map_append, List.map_singleton, List.rdropWhile_concat, toI32_mod hx]
    by_cases h : m < x
    · rw [if_pos (by simpa using h), ih hs.1 (fun y hy => hb y (by simp [hy])), List.filter_append]
      simp [h]
    · rw [if_neg (by simpa using h)]
      rw [List.filter_eq_self.2]
      · simp
      · intro y hy
        rw [decide_eq_true_eq]
        rw [List.mem_append, List.mem_singleton] at hy
        rcases hy with hy | rfl
        · have := hs.2.2 y hy x (by simp)
          omega
        · omega

theorem primeList_eq {N maxVal : Nat} {flag : Array Nat} (hN : N < 2 ^ 31) (hm : maxVal ≤ N) (hf : Exact (siz N) flag) :
    primeList N flag maxVal = .ok (((List.range (maxVal + 1)).filter fun x => decide x.Prime).map Int.ofNat) := by
  rw [← tot_eq]
  unfold primeList
  have hsz : siz N = N / 30 + 1 := rfl
  refine Tot.bind (P := fun s => ∃ (i : Nat) (L : List Nat), s.2.2 = L.map toI32 ∧ ListInv (fun x => x < 6 ∨ x < 30 * i) L ∧ i ≤ siz N ∧ (i = siz N ∨ maxVal ≤ 30 * i)) ?_ ?_
  · refine Tot.loop (P := fun s => s.1 ≤ siz N ∧ s.2.1 = 30 * s.1 ∧ ∃ L : List Nat, s.2.2 = L.map toI32 ∧ ListInv (fun x => x < 6 ∨ x < 30 * s.1) L) (fun s => siz N - s.1) ?_ ?_ (Nat.sub_le _ _)
    · rintro ⟨i, o, res⟩ ⟨hi, ho, L, he, hL⟩
      dsimp only at hi ho he hL
      unfold listStep
      dsimp only
      by_cases hc : i < siz N ∧ o < maxVal
      · rw [if_pos hc, rd_at 0 (by rw [hf.size]; exact hc.1), ok_bind, he, ho]
        refine Tot.bind (push_tot hf hc.1 hL) ?_
        rintro ⟨b, res'⟩ ⟨L', he', hL'⟩
        dsimp only at he' ⊢
        rw [Nat.mod_eq_of_lt (by omega)]
        exact Tot.pure ⟨⟨hc.1, by dsimp only; omega, L', he', hL'⟩, by dsimp only; omega⟩
      · rw [if_neg hc]
        exact Tot.pure ⟨i, L, he, hL, hi, by omega⟩
    · refine ⟨Nat.zero_le _, rfl, [2, 3, 5], by decide, by decide, ?_⟩
      intro x
      simp only [List.mem_cons, List.not_mem_nil, or_false]
      constructor
      · rintro (rfl | rfl | rfl) <;> exact ⟨by norm_num, .inl (by norm_num)⟩
      · rintro ⟨hp, h | h⟩
        · exact small_prime hp h
        · omega
  · rintro ⟨a, b, res⟩ ⟨i, L, he, hL, hi, hstop⟩
    dsimp only at he ⊢
    refine Tot.pure ?_
    have hbound : ∀ x ∈ L, x < 2 ^ 31 + 30 := by
      intro x hx
      rcases ((hL.mem x).1 hx).2 with h | h
      · omega
      · omega
    rw [he, drop_tail maxVal L hL.sorted (fun x hx => by have := hbound x hx; omega)]
    have key : L.filter (fun x => decide (x ≤ maxVal)) = (List.range (maxVal + 1)).filter fun x => decide x.Prime := by
      refine List.Pairwise.eq_of_mem_iff (r := (· < ·)) (hL.sorted.filter _) (List.pairwise_lt_range.filter _) ?_
      intro x
      rw [List.mem_filter, List.mem_filter, List.mem_range, decide_eq_true_eq, decide_eq_true_eq, hL.mem x]
      constructor
      · rintro ⟨⟨hp, -⟩, h⟩
        exact ⟨by omega, hp⟩
      · rintro ⟨h, hp⟩
        refine ⟨⟨hp, ?_⟩, by omega⟩
        rcases Nat.lt_or_ge x 6 with h6 | h6
        · exact .inl h6
        · right
          obtain ⟨j, hj, e⟩ := prime_index hp h6
          have hw := wh_lt j hj
          omega
    rw [key]
    refine List.map_congr_left ?_
    intro x hx
    rw [List.mem_filter, List.mem_range] at hx
    exact toI32_of_lt (by omega)

/-! ### `Sieve` -/

theorem ent_rd {N j n : Nat} {pf : Array Nat} (hN : N + 1 < 2 ^ 29) (hf : PExact N pf) (hn : n ≤ N) (h8 : j < 8) (hw : n % 30 = wh j) :
    rd pf (n / 30 * 8 + j) = .ok (ent pf (n / 30) j) ∧ 30 * (n / 30) + wh j = n ∧ 8 * (n / 30) ≤ baseMax N := by
  have e : 30 * (n / 30) + wh j = n := by omega
  have hr : 8 * (n / 30) ≤ baseMax N := row_le hN (j := wh j) (by omega)
  refine ⟨?_, e, hr⟩
  rw [rd_at 0 (by rw [hf.size]; omega)]
  unfold ent
  rw [mul_comm]

theorem isPrime_eq {N : Nat} {pf : Array Nat} (hN : N + 1 < 2 ^ 29) (hf : PExact N pf) {p : Nat} (hp : p ≤ N) :
    isPrime pf p = .ok (decide p.Prime) := by
  unfold isPrime
  by_cases h : p = 2 ∨ p = 3 ∨ p = 5
  · rw [if_pos h]
    have : p.Prime := by rcases h with rfl | rfl | rfl <;> norm_num
    simp [this]
  · rw [if_neg h]
    cases hj : residueIndex (p % 30) with
    | none =>
      have hc := residueIndex_none hj
      have : ¬ p.Prime := by
        intro hpp
        rcases Nat.lt_or_ge p 6 with h6 | h6
        · exact h (small_prime hpp h6)
        · obtain ⟨j, hj, e⟩ := prime_index hpp h6
          exact hc (cop_of_index hj e)
      simp [this]
    | some j =>
      obtain ⟨h8, hw⟩ := residueIndex_some hj
      obtain ⟨h1, h2, h3⟩ := ent_rd hN hf hp h8 hw
      dsimp only
      rw [h1, ok_bind]
      congr 1
      rw [Bool.eq_iff_iff, decide_eq_true_eq, beq_iff_eq]
      by_cases hp1 : p = 1
      · subst hp1
        have hj0 : j = 0 := wh_inj j 0 h8 (by norm_num) (by rw [← hw]; rfl)
        rw [hj0, show 1 / 30 = 0 from rfl, hf.one]
        simp [Nat.not_prime_one]
      · have := hf.zero (p / 30) j h8 (by omega) (by omega)
        rw [h2] at this
        exact this

theorem primeFactor_tot {N : Nat} {pf : Array Nat} (hN : N + 1 < 2 ^ 29) (hf : PExact N pf) {n : Nat} (h1 : 1 < n) (hn : n ≤ N) :
    Tot (primeFactor pf n) fun p => p.Prime ∧ p ∣ n := by
  unfold primeFactor
  by_cases a : n % 30 % 2 = 0
  · rw [if_pos a]
    exact Tot.pure ⟨by norm_num, by omega⟩
  rw [if_neg a]
  by_cases b : n % 30 % 3 = 0
  · rw [if_pos b]
    exact Tot.pure ⟨by norm_num, by omega⟩
  rw [if_neg b]
  by_cases c : n % 30 % 5 = 0
  · rw [if_pos c]
    exact Tot.pure ⟨by norm_num, by omega⟩
  rw [if_neg c]
  cases hj : residueIndex (n % 30) with
  | none =>
    exfalso
    refine residueIndex_none hj ?_
    have hb : n % 30 < 30 := Nat.mod_lt _ (by norm_num)
    rw [cop_mod]
    generalize n % 30 = r at a b c hb
    have : ∀ r : Fin 30, r.1 % 2 ≠ 0 → r.1 % 3 ≠ 0 → r.1 % 5 ≠ 0 → Nat.Coprime r 30 := by decide
    exact this ⟨r, hb⟩ a b c
  | some j =>
    obtain ⟨h8, hw⟩ := residueIndex_some hj
    obtain ⟨e1, e2, e3⟩ := ent_rd hN hf hn h8 hw
    dsimp only
    rw [e1, ok_bind]
    refine Tot.pure ?_
    by_cases h0 : ent pf (n / 30) j = 0
    · rw [if_neg (by simpa using h0)]
      have := (hf.zero (n / 30) j h8 (by omega) (by omega)).1 h0
      rw [e2] at this
      exact ⟨this, dvd_rfl⟩
    · rw [if_pos h0]
      have := hf.sound (n / 30) j e3 h8 (by omega) h0
      rw [e2] at this
      exact ⟨this.1, this.2.1⟩

/-- a factorisation with the primes in any order -/
structure PFact (n : Nat) (l : List (Nat × Nat)) : Prop where
  nodup : (l.map Prod.fst).Nodup
  prime : ∀ x ∈ l, x.1.Prime ∧ 0 < x.2
  prod : (l.map fun x => x.1 ^ x.2).prod = n

theorem divide_tot {p m : Nat} (hp : 2 ≤ p) (hm : 0 < m) (hd : p ∣ m) : Tot (loop (divideStep p) m (m / p, 1)) fun s =>
    s.1 * p ^ s.2 = m ∧ ¬ p ∣ s.1 ∧ 0 < s.2 := by
  refine Tot.loop (P := fun s : Nat × Nat => s.1 * p ^ s.2 = m ∧ 0 < s.2) (fun s => s.1) ?_ ⟨by simp [Nat.div_mul_cancel hd], by simp⟩ (Nat.div_le_self _ _)
  rintro ⟨a, c⟩ ⟨h, hc⟩
  dsimp only at h hc
  unfold divideStep
  dsimp only
  have ha : 0 < a := Nat.pos_of_ne_zero (by rintro rfl; simp at h; omega)
  by_cases hda : a % p = 0
  · rw [if_pos hda]
    refine Tot.pure ⟨⟨?_, by simp⟩, Nat.div_lt_self ha hp⟩
    dsimp only
    rw [pow_succ, ← h]
    have := Nat.div_mul_cancel (Nat.dvd_of_mod_eq_zero hda)
    calc a / p * (p ^ c * p) = a / p * p * p ^ c := by ring
      _ = a * p ^ c := by rw [this]
  · rw [if_neg hda]
    exact Tot.pure ⟨h, fun hd => hda (Nat.mod_eq_zero_of_dvd hd), hc⟩

theorem factorize_tot {N : Nat} {pf : Array Nat} (hN : N + 1 < 2 ^ 29) (hf : PExact N pf) {n : Nat} (h1 : 1 ≤ n) (hn : n ≤ N) :
    Tot (factorize N pf n) (PFact n) := by
  unfold factorize
  rw [decide_eq_true ⟨h1, hn⟩, check_true, ok_bind]
  refine Tot.bind (P := fun s => PFact n s.2) ?_ fun s h => Tot.pure h
  refine Tot.loop (P := fun s => 0 < s.1 ∧ s.1 ≤ N ∧ s.1 * (s.2.map fun x => x.1 ^ x.2).prod = n ∧ (s.2.map Prod.fst).Nodup ∧
      ∀ x ∈ s.2, x.1.Prime ∧ 0 < x.2 ∧ ¬ x.1 ∣ s.1) (fun s => s.1) ?_ ⟨h1, hn, by simp, by simp, by simp⟩ le_rfl
  rintro ⟨m, l⟩ ⟨h0, hm, hprod, hnd, hl⟩
  dsimp only at h0 hm hprod hnd hl
  unfold factorizeStep
  dsimp only
  by_cases hc : m > 1
  · rw [if_pos hc]
    refine Tot.bind (primeFactor_tot hN hf hc hm) ?_
    rintro p ⟨hp, hd⟩
    rw [if_neg hp.ne_zero]
    refine Tot.bind (divide_tot hp.two_le h0 hd) ?_
    rintro ⟨a, c⟩ ⟨ha, hnd', hc0⟩
    dsimp only at ha hnd' hc0 ⊢
    have hapos : 0 < a := Nat.pos_of_ne_zero (by rintro rfl; simp at ha; omega)
    have ham : a < m := by
      rw [← ha]
      have := Nat.one_lt_pow hc0.ne' hp.one_lt
      nlinarith
    have hadvd : a ∣ m := ⟨p ^ c, ha.symm⟩
    refine Tot.pure ⟨⟨hapos, by dsimp only; omega, ?_, ?_, ?_⟩, ham⟩
    · dsimp only
      rw [List.map_append, List.prod_append, ← hprod, ← ha]
      simp
      ring
    · dsimp only
      rw [List.map_append, List.nodup_append]
      refine ⟨hnd, by simp, ?_⟩
      intro x hx y hy
      simp only [List.map_cons, List.map_nil, List.mem_singleton] at hy
      rw [hy]
      rintro rfl
      obtain ⟨z, hz, rfl⟩ := List.mem_map.1 hx
      exact (hl z hz).2.2 hd
    · intro x hx
      dsimp only at hx ⊢
      rw [List.mem_append, List.mem_singleton] at hx
      rcases hx with hx | rfl
      · obtain ⟨x1, x2, x3⟩ := hl x hx
        exact ⟨x1, x2, fun h => x3 (h.trans hadvd)⟩
      · exact ⟨hp, hc0, hnd'⟩
  · rw [if_neg hc]
    have : m = 1 := by omega
    refine Tot.pure ⟨hnd, fun x hx => ⟨(hl x hx).1, (hl x hx).2.1⟩, ?_⟩
    rw [this, one_mul] at hprod
    exact hprod

open NumberUtil (castA ext castA_size castA_push)

theorem divisorStep_tot {p c i B : Nat} {D : List Nat} (hi : i < D.length) (E : List Nat) (hB : ∀ j, j < c → D[i] * p ^ (j + 1) ≤ B) (hb : B < 2 ^ 31) :
    Tot (divisorStep p c i (castA (D ++ E))) fun r => r = castA (D ++ (E ++ ext p c D[i])) := by
  unfold divisorStep
  refine Tot.bind (Tot.rd (by rw [castA_size]; simp; omega) (Q := fun d => d = ((D[i] : Nat) : Int)) ?_) ?_
  · simp [castA, hi]
  · rintro _ rfl
    refine Tot.bind (Tot.forUp (P := fun j (s : Int × Array Int) => s = (((D[i] * p ^ j : Nat) : Int), castA (D ++ (E ++ ext p j D[i])))) (Nat.zero_le _) ?_ ?_) ?_
    · simp [ext]
    · rintro j s - hj rfl
      unfold powersStep
      have e : (((D[i] * p ^ j : Nat) : Int) * p) = ((D[i] * p ^ (j + 1) : Nat) : Int) := by push_cast; ring
      have hle := hB j hj
      dsimp only
      rw [e, i32_ok ⟨by omega, by omega⟩, ok_bind]
      refine Tot.pure (Prod.ext rfl ?_)
      show (castA _).push _ = _
      rw [castA_push]
      simp [ext, List.range_succ]
    · rintro s rfl
      exact Tot.pure rfl

theorem divisorBlock_tot {B : Nat} (p c : Nat) (D : List Nat) (hB : ∀ d ∈ D, ∀ j, j < c → d * p ^ (j + 1) ≤ B) (hb : B < 2 ^ 31) :
    Tot (forUp 0 (castA D).size (castA D) (divisorStep p c)) fun r => r = castA (D ++ D.flatMap (ext p c)) := by
  refine (Tot.forUp (P := fun i r => r = castA (D ++ (D.take i).flatMap (ext p c))) (Nat.zero_le _) (by simp) ?_).mono ?_
  · rintro i r - hi rfl
    rw [castA_size] at hi
    refine (divisorStep_tot hi _ (hB _ (List.getElem_mem hi)) hb).mono ?_
    rintro r rfl
    congr 2
    rw [List.take_add_one, List.flatMap_append]
    simp [hi]
  · rintro r rfl
    rw [castA_size, List.take_length]

theorem divisors_tot {N : Nat} {pf : Array Nat} (hN : N + 1 < 2 ^ 29) (hf : PExact N pf) {n : Nat} (h1 : 1 ≤ n) (hn : n ≤ N) :
    Tot (divisors N pf n) fun r => ∃ D : List Nat, r = castA D ∧ D.Nodup ∧ ∀ x, x ∈ D ↔ x ∣ n := by
  unfold divisors
  rw [decide_eq_true ⟨h1, hn⟩, check_true, ok_bind]
  refine Tot.bind (factorize_tot hN hf h1 hn) ?_
  intro l hl
  refine (Tot.forEach (P := fun pre (r : Array Int) => ∃ D : List Nat, r = castA D ∧ D.Nodup ∧ ∀ x, x ∈ D ↔ x ∣ (pre.map fun x => x.1 ^ x.2).prod) ?_ ?_).mono ?_
  · exact ⟨[1], rfl, by simp, by simp⟩
  · rintro pre x post r hs ⟨D, rfl, hnd, hD⟩
    have hprod := hl.prod
    rw [hs, List.map_append, List.prod_append, List.map_cons, List.prod_cons] at hprod
    obtain ⟨m, hm⟩ : ∃ m, m = (pre.map fun x => x.1 ^ x.2).prod := ⟨_, rfl⟩
    rw [← hm] at hD hprod
    have hmpos : 0 < m := Nat.pos_of_ne_zero (by rintro rfl; simp at hprod; omega)
    have hx := hl.prime x (by rw [hs]; simp)
    have hcop : Nat.Coprime m x.1 := by
      rw [hm]
      refine Nat.Coprime.symm ((Nat.Prime.coprime_iff_not_dvd hx.1).2 ?_)
      intro hd
      obtain ⟨y, hy, hyd⟩ := (Prime.dvd_prod_iff hx.1.prime).1 hd
      obtain ⟨z, hz, rfl⟩ := List.mem_map.1 hy
      have hzp := hl.prime z (by rw [hs]; simp [hz])
      have := (Nat.prime_dvd_prime_iff_eq hx.1 hzp.1).1 (hx.1.dvd_of_dvd_pow hyd)
      have hnod := hl.nodup
      rw [hs, List.map_append, List.nodup_append] at hnod
      exact hnod.2.2 z.1 (List.mem_map_of_mem hz) x.1 (by simp) this.symm
    have hle : m * x.1 ^ x.2 ≤ N := by
      have : m * x.1 ^ x.2 ∣ n := ⟨_, by rw [← hprod, mul_assoc]⟩
      exact (Nat.le_of_dvd h1 this).trans hn
    refine (divisorBlock_tot (B := N) x.1 x.2 D ?_ (by omega)).mono ?_
    · intro d hd j hj
      have hdm := Nat.le_of_dvd hmpos ((hD d).1 hd)
      have hpw : x.1 ^ (j + 1) ≤ x.1 ^ x.2 := Nat.pow_le_pow_right hx.1.pos (by omega)
      exact (Nat.mul_le_mul hdm hpw).trans hle
    · rintro r rfl
      have := NumberUtil.divisors_extend (c := x.2) hmpos hx.1 hcop hnd hD
      refine ⟨_, rfl, this.1, ?_⟩
      rw [List.map_append, List.prod_append, ← hm]
      simpa using this.2
  · rintro r ⟨D, rfl, h2, h3⟩
    rw [hl.prod] at h3
    exact ⟨D, rfl, h2, h3⟩

end WheelSieve
