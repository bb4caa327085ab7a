import Verif.Proof.Transform
import Mathlib.RingTheory.PowerSeries.Basic

/-! # Proofs about `subset_convolution` -/

namespace FPSNaive
open Cxx Finset Kronecker
variable {T : Type} [Ring T]

theorem ensure_of_le {f : Array T} {m : Nat} (h : m ≤ f.size) : ensure f m = f := if_neg (by omega)

theorem zipInto_tot {op : T → T → T} {f g : Array T} {m : Nat} {u v : Nat → T} (hf : RepA Eq f m u) (hg : RepA Eq g m v) :
    Tot (zipInto op f g) fun r => RepA Eq r m fun i => op (u i) (v i) := by
  unfold zipInto
  rw [ensure_of_le (by rw [hf.1, hg.1]), hg.1]
  refine (Tot.forUp (P := fun i (x : Array T) => RepA Eq x m fun j => if j < i then op (u j) (v j) else u j) (Nat.zero_le _) (hf.congr fun j _ => by simp) ?_).mono ?_
  · rintro i x - hi hx
    rw [rd_some (hx.get hi), ok_bind, rd_some (hg.get hi), ok_bind, if_neg (by omega)]
    refine (hx.wr hi rfl).mono fun x' hx' => hx'.congr fun j _ => ?_
    by_cases e : j = i
    · subst e; simp
    · rw [if_neg e]
      by_cases c : j < i
      · rw [if_pos c, if_pos (by omega)]
      · rw [if_neg c, if_neg (by omega)]
  · intro x' hx'
    exact hx'.congr fun j hj => by rw [if_pos hj]

/-- One term of the product. -/
def term (u v : Nat → T) (b x i : Nat) : T := if i ≤ x ∧ x - i < b then u i * v (x - i) else 0

theorem mulN_tot {f g : Array T} {a b n : Nat} {u v : Nat → T} (ha : 0 < a) (hb : 0 < b) (hf : RepA Eq f a u) (hg : RepA Eq g b v) :
    Tot (mulN f g n) fun r => RepA Eq r (min n (a + b - 1)) fun x => ∑ i ∈ range a, term u v b x i := by
  unfold mulN
  rw [if_neg (by rw [hf.1, hg.1]; omega), hf.1, hg.1]
  obtain ⟨N, hN⟩ : ∃ N, N = min n (a + b - 1) := ⟨_, rfl⟩
  rw [← hN]
  refine (Tot.forUp (P := fun i (h : Array T) => RepA Eq h N fun x => ∑ i' ∈ range i, term u v b x i') (Nat.zero_le _) ⟨by simp, fun x hx => ⟨0, by simp [hx], by simp⟩⟩ ?_)
  rintro i h - hi hh
  refine (Tot.forUp (P := fun j (h : Array T) => RepA Eq h N fun x => (∑ i' ∈ range i, term u v b x i') + if i ≤ x ∧ x - i < j then u i * v (x - i) else 0) (Nat.zero_le _)
    (hh.congr fun x _ => by simp) ?_).mono ?_
  · rintro j h - hj hh
    unfold mulCell
    have hx : i + j < N := by omega
    rw [rd_some (hf.get hi), ok_bind, rd_some (hg.get (show j < b by omega)), ok_bind, rd_some (hh.get hx), ok_bind]
    refine (hh.wr hx rfl).mono fun h' hh' => hh'.congr fun x hxN => ?_
    by_cases e : x = i + j
    · subst e
      rw [if_pos rfl, if_neg (by omega), if_pos (by omega), add_zero, show i + j - i = j by omega]
    · rw [if_neg e]
      congr 1
      exact if_congr (by omega) rfl rfl
  · intro h hh
    refine hh.congr fun x hx => ?_
    rw [sum_range_succ]
    congr 1
    exact if_congr (by omega) rfl rfl

end FPSNaive

namespace SubsetConvolution
open Cxx Finset Kronecker
variable {T : Type} [Ring T]

/-- A polynomial of `m` coefficients represents a power series modulo `x^m`. -/
def repP (m : Nat) (c : Array T) (t : PowerSeries T) : Prop := RepA Eq c m fun i => PowerSeries.coeff i t

theorem opsP (m : Nat) : OpsOk (repP (T := T) m) FPSNaive.add FPSNaive.sub :=
  ⟨fun c d u v h1 h2 => (FPSNaive.zipInto_tot h1 h2).mono fun z hz => hz.congr fun i _ => by simp,
   fun c d u v h1 h2 => (FPSNaive.zipInto_tot h1 h2).mono fun z hz => hz.congr fun i _ => by simp⟩

theorem mulP {m : Nat} (hm : 0 < m) {c d : Array T} {u v : PowerSeries T} (hc : repP m c u) (hd : repP m d v) : Tot (FPSNaive.mulN c d c.size) fun z => repP m z (u * v) := by
  rw [hc.1]
  refine (FPSNaive.mulN_tot (n := m) hm hm hc hd).mono fun z hz => ?_
  rw [show min m (m + m - 1) = m by omega] at hz
  refine RepA.congr hz fun x hx => ?_
  rw [PowerSeries.coeff_mul, Finset.Nat.sum_antidiagonal_eq_sum_range_succ (fun i j => PowerSeries.coeff i u * PowerSeries.coeff j v)]
  rw [← sum_subset (s₁ := range x.succ) (s₂ := range m)]
  · refine sum_congr rfl fun i hi => ?_
    rw [mem_range] at hi
    unfold FPSNaive.term
    rw [if_pos (by omega)]
  · intro i hi
    rw [mem_range] at hi ⊢
    omega
  · intro i _ hi
    rw [mem_range] at hi
    unfold FPSNaive.term
    rw [if_neg (by omega)]

/-! ### Popcount -/

theorem popcount_eq {k x : Nat} (hx : x < 2 ^ k) : popcount x = ((range k).filter fun i => x.testBit i = true).card := by
  have h1 : popcount x = ((range x).filter fun i => x.testBit i = true).card := by
    unfold popcount
    rw [← List.toFinset_card_of_nodup ((List.nodup_range).filter _)]
    congr 1
    ext i
    simp
  rw [h1]
  congr 1
  ext i
  simp only [mem_filter, mem_range]
  constructor
  · exact fun h => ⟨testBit_lt hx h.2, h.2⟩
  · refine fun h => ⟨?_, h.2⟩
    have h2 : 2 ^ i ≤ x := Nat.ge_two_pow_of_testBit h.2
    exact lt_of_lt_of_le (Nat.lt_two_pow_self) h2

theorem popcount_le {k x : Nat} (hx : x < 2 ^ k) : popcount x ≤ k := by
  rw [popcount_eq hx]
  exact (card_filter_le _ _).trans (by simp)

theorem popcount_or_and {k i j : Nat} (hi : i < 2 ^ k) (hj : j < 2 ^ k) : popcount (i ||| j) + popcount (i &&& j) = popcount i + popcount j := by
  rw [popcount_eq (Nat.or_lt_two_pow hi hj), popcount_eq (lt_of_le_of_lt Nat.and_le_left hi), popcount_eq hi, popcount_eq hj]
  simp only [Nat.testBit_lor, Nat.testBit_land, Bool.or_eq_true, Bool.and_eq_true]
  rw [filter_or, filter_and, card_union_add_card_inter]

theorem popcount_zero_iff {k x : Nat} (hx : x < 2 ^ k) : popcount x = 0 ↔ x = 0 := by
  rw [popcount_eq hx, card_eq_zero]
  constructor
  · intro h
    refine Nat.eq_of_testBit_eq fun d => ?_
    rw [Nat.zero_testBit]
    by_contra c
    simp only [Bool.not_eq_false] at c
    have : d ∈ (range k).filter fun i => x.testBit i = true := by simp [testBit_lt hx c, c]
    rw [h] at this
    simp at this
  · rintro rfl
    simp

/-- Sets whose sizes add up to the size of the union are disjoint. -/
theorem disjoint_iff {k i j : Nat} (hi : i < 2 ^ k) (hj : j < 2 ^ k) : popcount i + popcount j = popcount (i ||| j) ↔ i &&& j = 0 := by
  rw [← popcount_zero_iff (lt_of_le_of_lt Nat.and_le_left hi), ← popcount_or_and hi hj]
  omega

/-! ### The program -/

/-- The ranked vector. -/
noncomputable def rk (f : Nat → T) (S : Nat) : PowerSeries T := PowerSeries.monomial (popcount S) (f S)

theorem ranked_tot {k : Nat} {a : Array T} (ha : a.size = 2 ^ k) : Tot (ranked a) fun r => RepA (repP (k + 1)) r (2 ^ k) (rk (at' 0 a)) := by
  unfold ranked
  have h0 : 0 < 2 ^ k := Nat.pow_pos (by omega)
  rw [ha, Nat.log2_two_pow, decide_eq_true (Or.inr rfl), check_true, ok_bind, if_neg (by omega)]
  refine (Tot.forUp (P := fun i (fs : Array (Array T)) => RepA (repP (k + 1)) fs (2 ^ k) fun S => if S < i then rk (at' 0 a) S else 0) (Nat.zero_le _) ?_ ?_).mono ?_
  · refine ⟨by simp, fun i hi => ⟨Array.replicate (k + 1) 0, by simp [hi], by simp, fun e he => ⟨0, by simp [he], by simp⟩⟩⟩
  · rintro i fs - hi hfs
    unfold rankStep
    rw [rd_at 0 (by omega), ok_bind]
    refine Tot.bind (hfs.rd hi) fun f hf => ?_
    rw [if_neg (by omega)] at hf
    have hp := popcount_le hi
    rw [FPSNaive.ensure_of_le (by rw [hf.1]; omega)]
    refine Tot.bind (RepA.wr hf (show popcount i < k + 1 by omega) (rfl : at' 0 a i = at' 0 a i)) fun f' hf' => ?_
    refine (hfs.wr (v := rk (at' 0 a) i) hi ?_).mono fun x hx => hx.congr fun S _ => ?_
    · refine hf'.congr fun e he => ?_
      unfold rk
      rw [PowerSeries.coeff_monomial]
      by_cases c : e = popcount i
      · rw [if_pos c, if_pos c]
      · rw [if_neg c, if_neg c]
        simp
    · by_cases e : S = i
      · subst e; simp
      · rw [if_neg e]
        exact if_congr (by omega) rfl rfl
  · intro fs h
    exact h.congr fun S hS => by rw [if_pos hS]

theorem rankedZeta_tot {k : Nat} {a : Array T} (ha : a.size = 2 ^ k) : Tot (rankedZeta a) fun r => RepA (repP (k + 1)) r (2 ^ k) (lin (A1 (1 : Int)) 2 k (rk (at' 0 a))) := by
  unfold rankedZeta
  exact Tot.bind (ranked_tot ha) fun r hr => subsetZeta_tot (opsP _) hr

theorem deranked_tot {k : Nat} {r : Array (Array T)} {t : Nat → PowerSeries T} (hr : RepA (repP (k + 1)) r (2 ^ k) t) :
    Tot (deranked r) fun a => RepA Eq a (2 ^ k) fun S => PowerSeries.coeff (popcount S) (t S) := by
  unfold deranked
  rw [hr.1, Nat.log2_two_pow, decide_eq_true (Or.inr rfl), check_true, ok_bind]
  refine (Tot.forUp (P := fun i (a : Array T) => RepA Eq a i fun S => PowerSeries.coeff (popcount S) (t S)) (Nat.zero_le _) ⟨by simp, by omega⟩ ?_)
  rintro i a - hi ha
  unfold derankStep
  refine Tot.bind (hr.rd hi) fun f hf => Tot.pure ⟨by simp [ha.1], fun S hS => ?_⟩
  rw [Array.getElem?_push, ha.1]
  by_cases e : S = i
  · subst e
    refine ⟨_, by simp, RepA.at' hf ?_⟩
    have := popcount_le hi
    omega
  · rw [if_neg e]
    exact ha.2 S (by omega)

theorem subsetConvolution_tot {k : Nat} {a b : Array T} (ha : a.size = 2 ^ k) (hb : b.size = 2 ^ k) :
    Tot (subsetConvolution a b) fun r => RepA Eq r (2 ^ k) fun S => ∑ i ∈ range (2 ^ k), ∑ j ∈ range (2 ^ k), if i ||| j = S ∧ i &&& j = 0 then at' 0 a i * at' 0 b j else 0 := by
  unfold subsetConvolution
  refine Tot.bind (rankedZeta_tot ha) fun ra hra => Tot.bind (rankedZeta_tot hb) fun rb hrb => ?_
  rw [ha]
  refine Tot.bind (Tot.forUp (P := fun i (r : Array (Array T)) => RepA (repP (k + 1)) r (2 ^ k) fun S =>
    if S < i then lin (A1 (1 : Int)) 2 k (convOf (range (2 ^ k)) (· ||| ·) (rk (at' 0 a)) (rk (at' 0 b))) S else lin (A1 (1 : Int)) 2 k (rk (at' 0 a)) S) (Nat.zero_le _)
    (hra.congr fun S _ => by simp) ?_) fun r hr => ?_
  · rintro i r - hi hr
    unfold mulStep
    refine Tot.bind (hr.rd hi) fun f hf => Tot.bind (hrb.rd hi) fun g hg => ?_
    rw [if_neg (by omega)] at hf
    refine Tot.bind (mulP (by omega) hf hg) fun h hh => ?_
    rw [lin_or k _ _ hi] at hh
    refine (hr.wr hi hh).mono fun x hx => hx.congr fun S _ => ?_
    by_cases e : S = i
    · subst e; simp
    · rw [if_neg e]
      exact if_congr (by omega) rfl rfl
  · unfold derankedMobius
    have hr' : RepA (repP (k + 1)) r (2 ^ k) (lin (A1 (1 : Int)) 2 k (convOf (range (2 ^ k)) (· ||| ·) (rk (at' 0 a)) (rk (at' 0 b)))) := hr.congr fun S hS => by rw [if_pos hS]
    refine Tot.bind (subsetMobius_tot (opsP _) hr') fun r2 hr2 => ?_
    refine (deranked_tot hr2).mono fun x hx => hx.congr fun S hS => ?_
    rw [lin_A1_inv _ hS]
    unfold convOf
    rw [map_sum]
    refine sum_congr rfl fun i hi => ?_
    rw [map_sum]
    refine sum_congr rfl fun j hj => ?_
    by_cases c : i ||| j = S
    · rw [if_pos c]
      unfold rk
      rw [PowerSeries.monomial_mul_monomial, PowerSeries.coeff_monomial, ← c]
      refine if_congr ?_ rfl rfl
      rw [← disjoint_iff (mem_range.1 hi) (mem_range.1 hj)]
      constructor
      · exact fun h => ⟨rfl, h.symm⟩
      · exact fun h => h.2.symm
    · rw [if_neg c, if_neg (fun h => c h.1), map_zero]

end SubsetConvolution
