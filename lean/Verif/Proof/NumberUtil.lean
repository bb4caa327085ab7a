import Verif.Proof.Factorize
import Verif.Proof.ModArith
import Mathlib.Data.Nat.Totient
import Mathlib.NumberTheory.ArithmeticFunction.Carmichael
import Mathlib.Data.Nat.GCD.BigOperators

/-! # Proofs about `divisors`, `totient`, `carmichael` and the tables -/

namespace NumberUtil
open Cxx

theorem forEach_map {σ α β} (g : α → β) (l : List α) (s : σ) (f : σ → β → M σ) : forEach (l.map g) s f = forEach l s fun s x => f s (g x) := by
  induction l generalizing s with
  | nil => rfl
  | cons x l ih =>
    show (f s (g x) >>= fun s => forEach (l.map g) s f) = (f s (g x) >>= fun s => forEach l s fun s x => f s (g x))
    simp only [ih]

/-- Product of the prime powers of a list. -/
def prodOf (l : List (Nat × Nat)) : Nat := (l.map fun x => x.1 ^ x.2).prod

theorem prodOf_append (l : List (Nat × Nat)) (x : Nat × Nat) : prodOf (l ++ [x]) = prodOf l * x.1 ^ x.2 := by simp [prodOf]

theorem Fact.coprime {n : Nat} {l pre post : List (Nat × Nat)} {x : Nat × Nat} (h : Fact n l) (hs : l = pre ++ x :: post) : Nat.Coprime (prodOf pre) x.1 := by
  have h1 := h.sorted
  rw [hs, List.pairwise_append] at h1
  unfold prodOf
  rw [Nat.coprime_list_prod_left_iff]
  intro y hy
  rw [List.mem_map] at hy
  obtain ⟨z, hz, rfl⟩ := hy
  refine Nat.Coprime.pow_left _ ?_
  have h2 := h1.2.2 z hz x (by simp)
  refine (Nat.coprime_primes (h.prime z (by rw [hs]; simp [hz])).1 (h.prime x (by rw [hs]; simp)).1).2 (by omega)

theorem Fact.pre_dvd {n : Nat} {l pre post : List (Nat × Nat)} {x : Nat × Nat} (h : Fact n l) (hs : l = pre ++ x :: post) : prodOf pre * x.1 ^ x.2 ∣ n := by
  rw [← h.prod, hs]
  simp only [List.map_append, List.map_cons, List.prod_append, List.prod_cons, prodOf]
  rw [← mul_assoc]
  exact dvd_mul_right _ _

theorem Fact.pos {n : Nat} {l : List (Nat × Nat)} (h : Fact n l) : 0 < n := by
  rw [← h.prod]
  refine List.prod_pos fun y hy => ?_
  rw [List.mem_map] at hy
  obtain ⟨z, hz, rfl⟩ := hy
  exact Nat.pow_pos (h.prime z hz).1.pos

/-! ### divisors -/

/-- The divisors appended for `d`. -/
def ext (p c d : Nat) : List Nat := (List.range c).map fun j => d * p ^ (j + 1)

def castA (D : List Nat) : Array Int := (D.map fun (x : Nat) => (x : Int)).toArray

theorem castA_push (D : List Nat) (x : Nat) : (castA D).push (x : Int) = castA (D ++ [x]) := by simp [castA]

theorem castA_size (D : List Nat) : (castA D).size = D.length := by simp [castA]

theorem divisorStep_tot {p c i : Nat} {D : List Nat} (hi : i < D.length) (E : List Nat) :
    Tot (divisorStep (p : Int) c i (castA (D ++ E))) fun r => r = castA (D ++ (E ++ ext p c D[i])) := by
  unfold divisorStep
  refine Tot.bind (Tot.rd (by rw [castA_size]; simp; omega) (Q := fun d => d = ((D[i] : Nat) : Int)) ?_) ?_
  · simp [castA, hi]
  · rintro _ rfl
    refine Tot.bind (Tot.forUp (P := fun j (s : Int × Array Int) => s = (((D[i] * p ^ j : Nat) : Int), castA (D ++ (E ++ ext p j D[i])))) (Nat.zero_le _) ?_ ?_) ?_
    · simp [ext]
    · rintro j s - hj rfl
      unfold pushStep
      refine Tot.pure (Prod.ext ?_ ?_)
      · show ((D[i] * p ^ j : Nat) : Int) * p = _
        push_cast; ring
      · show (castA _).push (((D[i] * p ^ j : Nat) : Int) * p) = _
        rw [show (((D[i] * p ^ j : Nat) : Int) * p) = ((D[i] * p ^ (j + 1) : Nat) : Int) by push_cast; ring, castA_push]
        simp [ext, List.range_succ]
    · rintro s rfl
      exact Tot.pure rfl

theorem divisorBlock_tot (p c : Nat) (D : List Nat) : Tot (forUp 0 (castA D).size (castA D) (divisorStep (p : Int) c)) fun r =>
    r = castA (D ++ D.flatMap (ext p c)) := by
  refine (Tot.forUp (P := fun i r => r = castA (D ++ (D.take i).flatMap (ext p c))) (Nat.zero_le _) (by simp) ?_).mono ?_
  · rintro i r - hi rfl
    rw [castA_size] at hi
    refine (divisorStep_tot hi _).mono ?_
    rintro r rfl
    congr 2
    rw [List.take_add_one, List.flatMap_append]
    simp [hi]
  · rintro r rfl
    rw [castA_size, List.take_length]

theorem unique_pow {p d d' a b : Nat} (hp : p.Prime) (h1 : ¬ p ∣ d) (h2 : ¬ p ∣ d') (e : d * p ^ a = d' * p ^ b) : a = b ∧ d = d' := by
  have key : ∀ {d d' a b : Nat}, ¬ p ∣ d → d * p ^ a = d' * p ^ b → b ≤ a := by
    intro d d' a b h e
    by_contra hc
    obtain ⟨k, rfl⟩ : ∃ k, b = a + (k + 1) := ⟨b - a - 1, by omega⟩
    have : d = d' * p ^ (k + 1) := by
      refine Nat.eq_of_mul_eq_mul_right (Nat.pow_pos hp.pos (n := a)) ?_
      rw [e, pow_add]; ring
    exact h ⟨d' * p ^ k, by rw [this, pow_succ]; ring⟩
  have hab : a = b := le_antisymm (key h2 e.symm) (key h1 e)
  subst hab
  exact ⟨rfl, Nat.eq_of_mul_eq_mul_right (Nat.pow_pos hp.pos) e⟩

/-- One prime more. -/
theorem divisors_extend {m p c : Nat} {D : List Nat} (hm : 0 < m) (hp : p.Prime) (hcop : Nat.Coprime m p) (hn : D.Nodup) (hD : ∀ x, x ∈ D ↔ x ∣ m) :
    (D ++ D.flatMap (ext p c)).Nodup ∧ ∀ x, x ∈ D ++ D.flatMap (ext p c) ↔ x ∣ m * p ^ c := by
  have hnot : ∀ d ∈ D, ¬ p ∣ d := fun d hd hc => by
    have := Nat.Coprime.coprime_dvd_left ((hc.trans ((hD d).1 hd))) hcop
    rw [Nat.coprime_self] at this
    exact hp.one_lt.ne' this
  constructor
  · rw [List.nodup_append]
    refine ⟨hn, ?_, ?_⟩
    · rw [List.nodup_flatMap]
      constructor
      · intro d hd
        unfold ext
        refine List.Nodup.map_on ?_ List.nodup_range
        intro a _ b _ e
        have := (unique_pow hp (hnot d hd) (hnot d hd) e).1
        omega
      · refine List.Pairwise.imp_of_mem ?_ hn
        intro a b ha hb hab x hx hy
        unfold ext at hx hy
        rw [List.mem_map] at hx hy
        obtain ⟨i, -, rfl⟩ := hx
        obtain ⟨j, -, e⟩ := hy
        exact hab (unique_pow hp (hnot a ha) (hnot b hb) e.symm).2
    · rintro a ha b hb rfl
      rw [List.mem_flatMap] at hb
      obtain ⟨d, hd, hb⟩ := hb
      unfold ext at hb
      rw [List.mem_map] at hb
      obtain ⟨j, -, rfl⟩ := hb
      exact hnot _ ha ⟨d * p ^ j, by rw [pow_succ]; ring⟩
  · intro x
    rw [Nat.dvd_mul]
    constructor
    · intro h
      rcases List.mem_append.1 h with h | h
      · exact ⟨x, 1, (hD x).1 h, one_dvd _, by ring⟩
      · rw [List.mem_flatMap] at h
        obtain ⟨d, hd, h⟩ := h
        unfold ext at h
        rw [List.mem_map] at h
        obtain ⟨j, hj, rfl⟩ := h
        rw [List.mem_range] at hj
        exact ⟨d, p ^ (j + 1), (hD d).1 hd, Nat.pow_dvd_pow p (by omega), rfl⟩
    · rintro ⟨d, e, h1, h2, rfl⟩
      obtain ⟨j, hj, rfl⟩ := (Nat.dvd_prime_pow hp).1 h2
      rw [List.mem_append]
      rcases j with _ | j
      · left; simpa using (hD d).2 h1
      · right
        rw [List.mem_flatMap]
        refine ⟨d, (hD d).2 h1, ?_⟩
        unfold ext
        rw [List.mem_map]
        exact ⟨j, List.mem_range.2 (by omega), rfl⟩

theorem divisors_tot {n : Nat} {l : List (Nat × Nat)} (h : Fact n l) : Tot (divisors (castL l)) fun r => ∃ D : List Nat, r = castA D ∧ D.Nodup ∧ ∀ x, x ∈ D ↔ x ∣ n := by
  unfold divisors castL
  rw [forEach_map]
  refine (Tot.forEach (P := fun pre (r : Array Int) => ∃ D : List Nat, r = castA D ∧ D.Nodup ∧ ∀ x, x ∈ D ↔ x ∣ prodOf pre) ?_ ?_).mono ?_
  · exact ⟨[1], rfl, by simp, by simp [prodOf]⟩
  · rintro pre x post r hs ⟨D, rfl, h1, h2⟩
    refine (divisorBlock_tot x.1 x.2 D).mono ?_
    rintro r rfl
    have hpos : 0 < prodOf pre := Nat.pos_of_ne_zero (fun hc => by
      have := h.pre_dvd hs
      rw [hc] at this
      simp at this
      have := h.pos; omega)
    have := divisors_extend (c := x.2) hpos (h.prime x (by rw [hs]; simp)).1 (h.coprime hs) h1 h2
    exact ⟨_, rfl, this.1, by rw [prodOf_append]; exact this.2⟩
  · rintro r ⟨D, rfl, h1, h2⟩
    refine ⟨D, rfl, h1, ?_⟩
    rw [show prodOf l = n from h.prod] at h2
    exact h2

/-! ### totient, carmichael -/

theorem mulT_ok {maxT : Nat} {x y : Int} (h : (x * y).natAbs ≤ maxT) : mulT maxT x y = .ok (x * y) := if_pos h

theorem phiPow_tot {maxT p c : Nat} (hp : p.Prime) (hc : 0 < c) (h1 : p ^ (2 * (c - 1)) ≤ maxT) (h2 : p ^ c ≤ maxT) :
    Tot (phiPow maxT p c) fun t => t = ((Nat.totient (p ^ c) : Nat) : Int) := by
  unfold phiPow
  have hp1 := hp.one_lt
  refine Tot.bind (Powi.powi_tot (fun x i => x = ((p ^ i : Nat) : Int)) (by simp) (by simp) _ ?_) ?_
  · rintro x y i j hij rfl rfl
    rw [mulT_ok]
    · exact Tot.pure (by push_cast; ring)
    · rw [← Nat.cast_mul, Int.natAbs_natCast, ← pow_add]
      exact (Nat.pow_le_pow_right (by omega) hij).trans h1
  · rintro q rfl
    have e : (((p : Int) - 1) * ((p ^ (c - 1) : Nat) : Int)) = ((Nat.totient (p ^ c) : Nat) : Int) := by
      rw [Nat.totient_prime_pow hp hc, ← Nat.cast_pred hp.pos]
      push_cast; ring
    rw [mulT_ok, e]
    · exact Tot.pure rfl
    · rw [e, Int.natAbs_natCast]
      exact (Nat.totient_le _).trans h2

/-- The unused squares of `powi` fit. -/
def NoOver (maxT : Nat) (l : List (Nat × Nat)) : Prop := ∀ x ∈ l, x.1 ^ (2 * (x.2 - 1)) ≤ maxT

theorem totient_tot {maxT n : Nat} {l : List (Nat × Nat)} (h : Fact n l) (ho : NoOver maxT l) (hn : n ≤ maxT) :
    Tot (totient maxT (castL l)) fun r => r = ((Nat.totient n : Nat) : Int) := by
  unfold totient castL
  rw [forEach_map]
  refine (Tot.forEach (P := fun pre (r : Int) => r = ((Nat.totient (prodOf pre) : Nat) : Int)) (by simp [prodOf]) ?_).mono ?_
  · rintro pre x post r hs rfl
    have hx : x ∈ l := by rw [hs]; simp
    have hd := h.pre_dvd hs
    have hle := (Nat.le_of_dvd h.pos hd).trans hn
    refine Tot.bind (phiPow_tot (h.prime x hx).1 (h.prime x hx).2 (ho x hx) ?_) ?_
    · exact (Nat.le_of_dvd h.pos ((dvd_mul_left _ _).trans hd)).trans hn
    · rintro t rfl
      have e : ((Nat.totient (prodOf pre) : Nat) : Int) * ((Nat.totient (x.1 ^ x.2) : Nat) : Int) = ((Nat.totient (prodOf (pre ++ [x])) : Nat) : Int) := by
        rw [prodOf_append, Nat.totient_mul (Nat.Coprime.pow_right _ (h.coprime hs))]
        push_cast; ring
      rw [mulT_ok, e]
      · exact Tot.pure rfl
      · rw [e, Int.natAbs_natCast, prodOf_append]
        exact (Nat.totient_le _).trans hle
  · rintro r rfl
    rw [show prodOf l = n from h.prod]

theorem carmichael_tot {maxT n : Nat} {l : List (Nat × Nat)} (h : Fact n l) (ho : NoOver maxT l) (hn : n ≤ maxT) :
    Tot (carmichael maxT (castL l)) fun r => r = ((ArithmeticFunction.carmichael n : Nat) : Int) := by
  unfold carmichael castL
  rw [forEach_map]
  refine (Tot.forEach (P := fun pre (r : Int) => r = ((ArithmeticFunction.carmichael (prodOf pre) : Nat) : Int)) ?_ ?_).mono ?_
  · have := ArithmeticFunction.carmichael_dvd_totient 1
    simp at this
    simp [prodOf, this]
  · rintro pre x post r hs rfl
    have hx : x ∈ l := by rw [hs]; simp
    have hd := h.pre_dvd hs
    obtain ⟨hp, hc⟩ := h.prime x hx
    refine Tot.bind (phiPow_tot hp hc (ho x hx) ?_) ?_
    · exact (Nat.le_of_dvd h.pos ((dvd_mul_left _ _).trans hd)).trans hn
    · rintro t rfl
      have e : (if (x.1 : Int) = 2 ∧ x.2 ≥ 3 then ((Nat.totient (x.1 ^ x.2) : Nat) : Int).tdiv 2 else ((Nat.totient (x.1 ^ x.2) : Nat) : Int)) =
          ((ArithmeticFunction.carmichael (x.1 ^ x.2) : Nat) : Int) := by
        by_cases c2 : x.1 = 2
        · by_cases c3 : 3 ≤ x.2
          · rw [if_pos ⟨by omega, c3⟩, c2, ← ArithmeticFunction.two_mul_carmichael_two_pow_of_three_le_eq_totient c3]
            push_cast
            exact Int.mul_tdiv_cancel_left _ (by norm_num)
          · rw [if_neg (by omega), c2, ArithmeticFunction.carmichael_two_pow_of_le_two_eq_totient (by omega)]
        · rw [if_neg (by omega), ArithmeticFunction.carmichael_pow_of_prime_ne_two _ hp c2]
      refine Tot.pure ?_
      show ((Int.lcm _ (if (x.1 : Int) = 2 ∧ x.2 ≥ 3 then _ else _) : Nat) : Int) = _
      rw [e, Int.lcm, Int.natAbs_natCast, Int.natAbs_natCast, prodOf_append,
        ArithmeticFunction.carmichael_mul (Nat.Coprime.pow_right _ (h.coprime hs))]
  · rintro r rfl
    rw [show prodOf l = n from h.prod]

end NumberUtil
