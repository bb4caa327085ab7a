import Mathlib.Algebra.BigOperators.Group.Finset.Basic
import Mathlib.Algebra.BigOperators.Intervals
import Mathlib.Algebra.BigOperators.Ring.Finset
import Mathlib.Data.Finset.Card
import Mathlib.Algebra.Order.BigOperators.Group.Finset
import Mathlib.Tactic.Ring
import Mathlib.Tactic.Linarith
import Verif.Model.SumCount
import Verif.Spec.SumCount

/-!
# Numbers of pairs with a given sum
-/

namespace SumCount
open Cxx Spec Finset

theorem ar_ok {w : Nat} {x r : Int} (h : ar w x = .ok r) : r = x := by
  unfold ar at h
  split at h
  · exact (Except.ok.inj h).symm
  · simp at h

theorem ar_eq {w : Nat} {x : Int} (h1 : -2 ^ (w - 1) ≤ x) (h2 : x < 2 ^ (w - 1)) : ar w x = .ok x := if_pos ⟨h1, h2⟩

theorem count_eq_sum (a1 a2 b1 b2 : Int) (P : Int → Prop) [DecidablePred P] :
    count a1 a2 b1 b2 P = ∑ a ∈ Icc a1 a2, ((Icc b1 b2).filter fun b => P (a + b)).card := by
  unfold count
  rw [Finset.card_filter, Finset.sum_product]
  refine Finset.sum_congr rfl fun a _ => ?_
  rw [Finset.card_filter]

theorem count_eq (a1 a2 b1 b2 s : Int) : (count a1 a2 b1 b2 (· = s) : Int) = max 0 (min a2 (s - b1) - max a1 (s - b2) + 1) := by
  have h : count a1 a2 b1 b2 (· = s) = (Icc (max a1 (s - b2)) (min a2 (s - b1))).card := by
    unfold count
    refine Finset.card_bij (fun q _ => q.1) ?_ ?_ ?_
    · rintro ⟨a, b⟩ h
      simp only [mem_filter, mem_product, mem_Icc] at h ⊢
      omega
    · rintro ⟨a, b⟩ h ⟨a', b'⟩ h' e
      simp only [mem_filter, mem_product, mem_Icc] at h h' e
      ext <;> dsimp only <;> omega
    · intro a ha
      simp only [mem_Icc] at ha
      refine ⟨(a, s - a), ?_, rfl⟩
      simp only [mem_filter, mem_product, mem_Icc]
      omega
  rw [h, Int.card_Icc]
  omega

theorem count_split (a1 a2 b1 b2 : Int) (P : Int → Prop) [DecidablePred P] :
    (count a1 a2 b1 b2 (fun s => ¬ P s) : Int) = max 0 (a2 - a1 + 1) * max 0 (b2 - b1 + 1) - count a1 a2 b1 b2 P := by
  have h := Finset.card_filter_add_card_filter_not (s := Icc a1 a2 ×ˢ Icc b1 b2) (fun q => P (q.1 + q.2))
  rw [Finset.card_product, Int.card_Icc, Int.card_Icc] at h
  have h' : ((count a1 a2 b1 b2 P + count a1 a2 b1 b2 (fun s => ¬ P s) : Nat) : Int) = ((a2 + 1 - a1).toNat * (b2 + 1 - b1).toNat : Nat) := by
    exact_mod_cast h
  push_cast at h'
  rw [show max 0 (a2 - a1 + 1) = ((a2 + 1 - a1).toNat : Int) by omega, show max 0 (b2 - b1 + 1) = ((b2 + 1 - b1).toNat : Int) by omega]
  linarith

/-- The inner sum. -/
theorem row_card (a b1 b2 s : Int) : (((Icc b1 b2).filter fun b => a + b ≤ s).card : Int) = max 0 (min (b2 - b1) (s - b1 - a) + 1) := by
  have : ((Icc b1 b2).filter fun b => a + b ≤ s) = Icc b1 (min b2 (s - a)) := by
    ext b
    simp only [mem_filter, mem_Icc]
    omega
  rw [this, Int.card_Icc]
  omega

/-- The closed form, doubled. -/
theorem closed (rb rs : Int) (hb : 0 ≤ rb) (hs : 0 ≤ rs) (n : Nat) {t fr tt : Int} (ht : t = max 0 (min (n : Int) (rs - rb) + 1))
    (hfr : fr = rs - min (n : Int) rs + 1) (hto : tt = rs - t + 2) :
    2 * ∑ i ∈ range (n + 1), max 0 (min rb (rs - i) + 1) = 2 * (t * (rb + 1)) + (tt - fr) * (fr + tt - 1) := by
  induction n generalizing t fr tt with
  | zero =>
    rw [Finset.sum_range_one]
    have e2 : fr = rs + 1 := by push_cast at hfr; omega
    rcases Int.lt_or_le rs rb with h | h
    · have e1 : t = 0 := by push_cast at ht; omega
      have e3 : max 0 (min rb (rs - ((0 : Nat) : Int)) + 1) = rs + 1 := by push_cast; omega
      rw [e3, hto, e2, e1]; ring
    · have e1 : t = 1 := by push_cast at ht; omega
      have e3 : max 0 (min rb (rs - ((0 : Nat) : Int)) + 1) = rb + 1 := by push_cast; omega
      rw [e3, hto, e2, e1]; ring
  | succ n ih =>
    rw [Finset.sum_range_succ, mul_add, ih rfl rfl rfl]
    push_cast at ht hfr ⊢
    rcases Int.lt_or_le (rs - rb) (n + 1) with h | h
    · rcases Int.lt_or_le rs (n + 1) with h' | h'
      · have e1 : t = max 0 (min (n : Int) (rs - rb) + 1) := by omega
        have e2 : fr = rs - min (n : Int) rs + 1 := by omega
        have e3 : max 0 (min rb (rs - ((n : Int) + 1)) + 1) = 0 := by omega
        rw [e3, hto, ← e1, ← e2]; ring
      · have e1 : max 0 (min (n : Int) (rs - rb) + 1) = t := by omega
        have e2 : rs - min (n : Int) rs + 1 = rs - n + 1 := by omega
        have e3 : max 0 (min rb (rs - ((n : Int) + 1)) + 1) = rs - n := by omega
        have e4 : fr = rs - n := by omega
        rw [e1, e2, e3, hto, e4]; ring
    · have e1 : max 0 (min (n : Int) (rs - rb) + 1) = n + 1 := by omega
      have e2 : rs - min (n : Int) rs + 1 = rs - n + 1 := by omega
      have e3 : max 0 (min rb (rs - ((n : Int) + 1)) + 1) = rb + 1 := by omega
      have e4 : fr = rs - n := by omega
      have e5 : t = n + 2 := by omega
      rw [e1, e2, e3, hto, e4, e5]; ring

theorem sum_Icc_shift (a1 : Int) (n : Nat) (f : Int → Int) : ∑ a ∈ Icc a1 (a1 + n), f a = ∑ i ∈ range (n + 1), f (a1 + i) := by
  symm
  refine Finset.sum_bij (fun i _ => a1 + (i : Int)) ?_ ?_ ?_ ?_
  · intro i hi
    simp only [mem_range, mem_Icc] at hi ⊢
    omega
  · intro i _ j _ e
    omega
  · intro a ha
    simp only [mem_Icc] at ha
    exact ⟨(a - a1).toNat, by simp only [mem_range]; omega, by omega⟩
  · intro i _; rfl

/-- The value of the formula. -/
theorem leq_value (a1 a2 b1 b2 s : Int) {ra rb rs t fr tt : Int} (era : ra = a2 - a1) (erb : rb = b2 - b1) (ers : rs = s - (a1 + b1))
    (h : ¬ (ra < 0 ∨ rb < 0 ∨ rs < 0)) (ht : t = max 0 (min ra (rs - rb) + 1)) (hfr : fr = rs - min ra rs + 1) (hto : tt = rs - t + 2) :
    (count a1 a2 b1 b2 (· ≤ s) : Int) = t * (rb + 1) + ((tt - fr) * (fr + tt - 1)).tdiv 2 := by
  obtain ⟨n, rfl⟩ : ∃ n : Nat, ra = n := ⟨ra.toNat, by omega⟩
  have e : a2 = a1 + n := by omega
  have hc := closed rb rs (by omega) (by omega) n ht hfr hto
  have hsum : (count a1 a2 b1 b2 (· ≤ s) : Int) = ∑ i ∈ range (n + 1), max 0 (min rb (rs - i) + 1) := by
    rw [count_eq_sum, Nat.cast_sum, e, sum_Icc_shift]
    refine Finset.sum_congr rfl fun i _ => ?_
    rw [row_card]
    omega
  rw [← hsum] at hc
  have : (tt - fr) * (fr + tt - 1) = 2 * ((count a1 a2 b1 b2 (· ≤ s) : Int) - t * (rb + 1)) := by linarith
  rw [this, Int.mul_tdiv_cancel_left _ (by omega)]
  omega

theorem leq_zero (a1 a2 b1 b2 s : Int) (h : a2 - a1 < 0 ∨ b2 - b1 < 0 ∨ s - (a1 + b1) < 0) : count a1 a2 b1 b2 (· ≤ s) = 0 := by
  unfold count
  rw [Finset.card_eq_zero, Finset.filter_eq_empty_iff]
  rintro ⟨a, b⟩ hq
  simp only [mem_product, mem_Icc] at hq
  dsimp only
  omega

theorem bind_ok {α β} {m : M α} {f : α → M β} {r : β} (h : (m >>= f) = .ok r) : ∃ x, m = .ok x ∧ f x = .ok r := by
  cases m with
  | error e => simp [err_bind] at h
  | ok x => exact ⟨x, rfl, h⟩

theorem sumCount_ok {tw rw : Nat} {a1 a2 b1 b2 s r : Int} (h : sumCount tw rw a1 a2 b1 b2 s = .ok r) : r = count a1 a2 b1 b2 (· = s) := by
  unfold sumCount at h
  obtain ⟨u, hu, h⟩ := bind_ok h
  obtain ⟨v, hv, h⟩ := bind_ok h
  obtain ⟨d, hd, h⟩ := bind_ok h
  obtain ⟨d', hd', h⟩ := bind_ok h
  have := Except.ok.inj h
  rw [count_eq, ← this, ar_ok hd', ar_ok hd, ar_ok hu, ar_ok hv]

theorem leq_ok {tw rw : Nat} {a1 a2 b1 b2 s r : Int} (h : leq tw rw a1 a2 b1 b2 s = .ok r) : r = count a1 a2 b1 b2 (· ≤ s) := by
  unfold leq at h
  obtain ⟨ra, h1, h⟩ := bind_ok h
  obtain ⟨rb, h2, h⟩ := bind_ok h
  obtain ⟨m, h3, h⟩ := bind_ok h
  obtain ⟨rs, h4, h⟩ := bind_ok h
  have e1 := ar_ok h1
  have e2 := ar_ok h2
  have e4 := ar_ok h4
  rw [ar_ok h3] at e4
  split at h
  · rename_i hc
    rw [leq_zero a1 a2 b1 b2 s (by omega)]
    exact (Except.ok.inj h).symm
  · rename_i hc
    obtain ⟨d, g1, h⟩ := bind_ok h
    obtain ⟨t, g2, h⟩ := bind_ok h
    dsimp only at h
    obtain ⟨f, g3, h⟩ := bind_ok h
    obtain ⟨fr, g4, h⟩ := bind_ok h
    obtain ⟨o, g5, h⟩ := bind_ok h
    obtain ⟨tt, g6, h⟩ := bind_ok h
    obtain ⟨b, g7, h⟩ := bind_ok h
    obtain ⟨p, g8, h⟩ := bind_ok h
    obtain ⟨x, g9, h⟩ := bind_ok h
    obtain ⟨y, g10, h⟩ := bind_ok h
    obtain ⟨y', g11, h⟩ := bind_ok h
    obtain ⟨z, g12, h⟩ := bind_ok h
    have f2 := ar_ok g2
    have f4 := ar_ok g4
    have f6 := ar_ok g6
    rw [ar_ok g1] at f2
    rw [ar_ok g3] at f4
    rw [ar_ok g5] at f6
    rw [leq_value a1 a2 b1 b2 s e1 e2 e4 hc (t := max 0 t) (by rw [f2]) f4 f6, ar_ok h, ar_ok g8, ar_ok g12, ar_ok g11, ar_ok g10,
      ar_ok g9, ar_ok g7]

theorem all_ok {tw rw : Nat} {a1 a2 b1 b2 r : Int} (h : all tw rw a1 a2 b1 b2 = .ok r) : r = max 0 (a2 - a1 + 1) * max 0 (b2 - b1 + 1) := by
  unfold all at h
  obtain ⟨u, h1, h⟩ := bind_ok h
  obtain ⟨u', h2, h⟩ := bind_ok h
  obtain ⟨v, h3, h⟩ := bind_ok h
  obtain ⟨v', h4, h⟩ := bind_ok h
  rw [ar_ok h, ar_ok h2, ar_ok h1, ar_ok h4, ar_ok h3]

theorem count_congr (a1 a2 b1 b2 : Int) {P Q : Int → Prop} [DecidablePred P] [DecidablePred Q] (h : ∀ s, P s ↔ Q s) :
    count a1 a2 b1 b2 P = count a1 a2 b1 b2 Q := by
  unfold count
  congr 1
  ext q
  simp only [mem_filter, h]

theorem lt_ok {tw : Nat} {a1 a2 b1 b2 s r : Int} (h : lt tw a1 a2 b1 b2 s = .ok r) : r = count a1 a2 b1 b2 (· < s) := by
  unfold lt at h
  obtain ⟨x, h1, h⟩ := bind_ok h
  rw [leq_ok h, ar_ok h1, count_congr a1 a2 b1 b2 (Q := (· < s)) (fun x => by omega)]

theorem geq_ok {tw rw : Nat} {a1 a2 b1 b2 s r : Int} (h : geq tw rw a1 a2 b1 b2 s = .ok r) : r = count a1 a2 b1 b2 (s ≤ ·) := by
  unfold geq at h
  obtain ⟨x, h1, h⟩ := bind_ok h
  obtain ⟨c, h2, h⟩ := bind_ok h
  rw [ar_ok h, all_ok h1, lt_ok h2, ← count_split, count_congr a1 a2 b1 b2 (Q := (s ≤ ·)) (fun x => by omega)]

theorem gt_ok {tw rw : Nat} {a1 a2 b1 b2 s r : Int} (h : gt tw rw a1 a2 b1 b2 s = .ok r) : r = count a1 a2 b1 b2 (s < ·) := by
  unfold gt at h
  obtain ⟨x, h1, h⟩ := bind_ok h
  obtain ⟨c, h2, h⟩ := bind_ok h
  rw [ar_ok h, all_ok h1, leq_ok h2, ← count_split, count_congr a1 a2 b1 b2 (Q := (s < ·)) (fun x => by omega)]

end SumCount
