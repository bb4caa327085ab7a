import Verif.Model.Dirichlet
import Mathlib.NumberTheory.Divisors
import Mathlib.Algebra.BigOperators.Group.Finset.Piecewise

namespace Dirichlet
open Cxx

variable {T : Type} [CommSemiring T]

/-- The part of the sum with first factor below `i`, or equal to `i` and second factor below `j`. -/
def part (w : Nat → Nat → T) (i j k : Nat) : T :=
  ∑ p ∈ k.divisorsAntidiagonal, if p.1 < i ∨ p.1 = i ∧ p.2 < j then w p.1 p.2 else 0

theorem part_step (w : Nat → Nat → T) {i j k : Nat} (hi : 1 ≤ i) (hj : 1 ≤ j) :
    part w i (j + 1) k = part w i j k + if i * j = k then w i j else 0 := by
  have h1 : (if i * j = k then w i j else 0) = ∑ p ∈ k.divisorsAntidiagonal, if p = (i, j) then w i j else 0 := by
    rw [Finset.sum_ite_eq']
    have hm : ((i, j) ∈ k.divisorsAntidiagonal) ↔ i * j = k := by
      rw [Nat.mem_divisorsAntidiagonal]
      constructor
      · exact fun h => h.1
      · intro h
        refine ⟨h, ?_⟩
        rw [← h]
        exact Nat.mul_ne_zero (by omega) (by omega)
    by_cases h : i * j = k
    · rw [if_pos h, if_pos (hm.mpr h)]
    · rw [if_neg h, if_neg (fun hc => h (hm.mp hc))]
  rw [h1]
  unfold part
  rw [← Finset.sum_add_distrib]
  refine Finset.sum_congr rfl fun p _ => ?_
  obtain ⟨x, y⟩ := p
  by_cases e : (x, y) = (i, j)
  · cases e
    simp
  · rw [if_neg e, add_zero]
    have : ¬ (x = i ∧ y = j) := fun h => e (by rw [h.1, h.2])
    have hiff : (x < i ∨ x = i ∧ y < j + 1) ↔ (x < i ∨ x = i ∧ y < j) := by omega
    dsimp only
    simp only [hiff]

theorem part_next (w : Nat → Nat → T) {n m i jm k : Nat} (hm : ∀ x y, m ≤ y → y < n → w x y = 0) (hj : jm = Nat.min ((n + i - 1) / i) m)
    (hi : 1 ≤ i) (hk : k < n) : part w i (max 1 jm) k = part w (i + 1) 1 k := by
  unfold part
  refine Finset.sum_congr rfl fun p hp => ?_
  obtain ⟨x, y⟩ := p
  obtain ⟨hxy, hk0⟩ := Nat.mem_divisorsAntidiagonal.mp hp
  dsimp only at hxy ⊢
  have hy : 1 ≤ y := by
    rcases Nat.eq_zero_or_pos y with rfl | h
    · simp at hxy; omega
    · exact h
  by_cases e : x = i
  · subst e
    rw [if_pos (by omega : x < x + 1 ∨ x = x + 1 ∧ y < 1)]
    by_cases hlt : y < jm
    · rw [if_pos (.inr ⟨rfl, by omega⟩)]
    · rw [if_neg (by omega)]
      have h2 : (n + x - 1) / x ≤ y ∨ m ≤ y := by
        have h3 : min ((n + x - 1) / x) m ≤ y := by
          have h4 : Nat.min ((n + x - 1) / x) m = min ((n + x - 1) / x) m := rfl
          omega
        exact min_le_iff.mp h3
      rcases h2 with h2 | h2
      · exfalso
        have h3 : n + x - 1 < x * (y + 1) := by
          have := Nat.lt_mul_div_succ (n + x - 1) (by omega : 0 < x)
          exact lt_of_lt_of_le this (Nat.mul_le_mul_left x (by omega))
        rw [Nat.mul_add, Nat.mul_one, hxy] at h3
        omega
      · refine (hm x y h2 ?_).symm
        have : y ≤ x * y := Nat.le_mul_of_pos_left y (by omega)
        omega
  · have : (x < i ∨ x = i ∧ y < max 1 jm) ↔ (x < i + 1 ∨ x = i + 1 ∧ y < 1) := by omega
    simp only [this]

theorem part_start (w : Nat → Nat → T) (k : Nat) : part w 1 1 k = 0 := by
  unfold part
  refine Finset.sum_eq_zero fun p hp => ?_
  obtain ⟨x, y⟩ := p
  obtain ⟨hxy, hk0⟩ := Nat.mem_divisorsAntidiagonal.mp hp
  dsimp only at hxy ⊢
  refine if_neg ?_
  rintro (h | ⟨rfl, h⟩)
  · have : x = 0 := by omega
    subst this; simp at hxy; omega
  · have : y = 0 := by omega
    subst this; simp at hxy; omega

theorem part_end (w : Nat → Nat → T) {n m i k : Nat} (hm : ∀ x y, m ≤ x → x < n → w x y = 0) (hi : i = max 1 (Nat.min m n)) (hk : k < n) :
    part w i 1 k = ∑ p ∈ k.divisorsAntidiagonal, w p.1 p.2 := by
  unfold part
  refine Finset.sum_congr rfl fun p hp => ?_
  obtain ⟨x, y⟩ := p
  obtain ⟨hxy, hk0⟩ := Nat.mem_divisorsAntidiagonal.mp hp
  dsimp only at hxy ⊢
  have hy : 1 ≤ y := by
    rcases Nat.eq_zero_or_pos y with rfl | h
    · simp at hxy; omega
    · exact h
  have hx : 1 ≤ x := by
    rcases Nat.eq_zero_or_pos x with rfl | h
    · simp at hxy; omega
    · exact h
  have hxn : x < n := by
    have : x ≤ x * y := Nat.le_mul_of_pos_right x (by omega)
    omega
  by_cases h : x < m
  · have : Nat.min m n = min m n := rfl
    rw [if_pos (.inl (by omega))]
  · rw [hm x y (by omega) hxn]
    exact ite_self _

theorem forUp_max {σ : Type} (h : Nat) (s : σ) (f : Nat → σ → M σ) : forUp 1 h s f = forUp 1 (max 1 h) s f := by
  unfold forUp
  congr 1
  omega

/-- The array holds the partial sums. -/
def Rep (n : Nat) (c : Array T) (g : Nat → T) : Prop := c.size = n ∧ ∀ k, k < n → at' 0 c k = g k

theorem jmax_ok {n m i : Nat} (hn : n ≤ 2 ^ 30) (hi : i < n) : jmax n m i = .ok (Nat.min ((n + i - 1) / i) m) := by
  unfold jmax
  rw [i32_ok ⟨by omega, by omega⟩]
  rfl

theorem prod_lt {n m i j : Nat} (hi : 1 ≤ i) (hj : j < max 1 (Nat.min ((n + i - 1) / i) m)) (hj1 : 1 ≤ j) : i * j < n ∧ j < m ∧ j < (n + i - 1) / i := by
  have h : Nat.min ((n + i - 1) / i) m = min ((n + i - 1) / i) m := rfl
  have h1 : j < (n + i - 1) / i := by omega
  refine ⟨?_, by omega, h1⟩
  have h2 : (j + 1) * i ≤ n + i - 1 := (Nat.le_div_iff_mul_le (by omega)).mp h1
  rw [Nat.add_mul, Nat.one_mul, Nat.mul_comm] at h2
  omega

theorem addTerm_tot {a b c : Array T} {n i j : Nat} {w : Nat → Nat → T} (hi : 1 ≤ i) (hj : 1 ≤ j) (hia : i < a.size) (hjb : j < b.size)
    (hij : i * j < n) (hw : w i j = at' 0 a i * at' 0 b j) (h : Rep n c (part w i j)) :
    Tot (addTerm a b i j c) fun c' => Rep n c' (part w i (j + 1)) := by
  unfold addTerm
  have hs : i * j < c.size := by rw [h.1]; exact hij
  rw [rd_at 0 hia, ok_bind, rd_at 0 hjb, ok_bind, rd_at 0 hs, ok_bind]
  refine Tot.wr hs ⟨by simpa using h.1, fun k hk => ?_⟩
  rw [at_set 0 hs, part_step w hi hj]
  by_cases e : i * j = k
  · subst e
    rw [if_pos rfl, if_pos rfl, h.2 _ hk, hw]
  · rw [if_neg e, if_neg e, add_zero, h.2 _ hk]

theorem rep_congr {c : Array T} {n : Nat} {g g' : Nat → T} (h : Rep n c g) (e : ∀ k, k < n → g k = g' k) : Rep n c g' :=
  ⟨h.1, fun k hk => by rw [h.2 k hk, e k hk]⟩

theorem conv_tot (a b : Array T) (n : Nat) (hn : n ≤ 2 ^ 30) :
    Tot (conv a b n) fun c => Rep n c fun k => ∑ p ∈ k.divisorsAntidiagonal, at' 0 a p.1 * at' 0 b p.2 := by
  unfold conv
  rw [forUp_max]
  have hma : Nat.min a.size n = min a.size n := rfl
  have hmb : Nat.min b.size n = min b.size n := rfl
  obtain ⟨w, hw⟩ : ∃ w : Nat → Nat → T, w = fun x y => at' 0 a x * at' 0 b y := ⟨_, rfl⟩
  refine (Tot.forUp (lo := 1) (hi := max 1 (Nat.min a.size n)) (P := fun i c => Rep n c (part w i 1)) (by omega) ?_ ?_).mono fun c hc => ?_
  · refine ⟨by simp, fun k hk => ?_⟩
    rw [part_start]
    simp [at', hk]
  · intro i c h1 h2 hc
    unfold row
    rw [jmax_ok hn (by omega), ok_bind, forUp_max]
    refine (Tot.forUp (lo := 1) (hi := max 1 (Nat.min ((n + i - 1) / i) (Nat.min b.size n))) (P := fun j c => Rep n c (part w i j)) (by omega) hc ?_).mono
      fun c hc => rep_congr hc fun k hk => ?_
    · intro j c h3 h4 hc
      obtain ⟨h5, h6, -⟩ := prod_lt h1 h4 h3
      exact addTerm_tot h1 h3 (by omega) (by omega) h5 (by rw [hw]) hc
    · refine part_next w ?_ rfl h1 hk
      intro x y hy hyn
      rw [hw]
      dsimp only
      rw [at_ge 0 (a := b) (by omega), mul_zero]
  · refine rep_congr hc fun k hk => ?_
    rw [part_end w (m := a.size) ?_ rfl hk, hw]
    intro x y hx _
    rw [hw]
    dsimp only
    rw [at_ge 0 (a := a) hx, zero_mul]

/-! ### Coprime factors -/

/-- Rows below `i` of the table of greatest common divisors are filled, row `i` has `j` entries. -/
structure DpOk (n m mb i j : Nat) (dp : Array (Array Nat)) : Prop where
  size : dp.size = m
  low : ∀ r, 1 ≤ r → r < i → r < m → (at' #[] dp r).size = max 1 (Nat.min ((n + r - 1) / r) mb)
  cur : i < m → (at' #[] dp i).size = j
  val : ∀ r c, 1 ≤ r → r ≤ i → r < m → c < (at' #[] dp r).size → at' 0 (at' #[] dp r) c = Nat.gcd r c
  high : ∀ r, i < r → r < m → (at' #[] dp r).size = 0

theorem push_tot {n m mb i j : Nat} {dp : Array (Array Nat)} (h : DpOk n m mb i j dp) (hi : 1 ≤ i) (him : i < m) {g : Nat} (hg : g = Nat.gcd i j) :
    Tot (push dp i g) fun dp' => DpOk n m mb i (j + 1) dp' := by
  unfold push
  have hs : i < dp.size := by rw [h.size]; exact him
  rw [rd_at #[] hs, ok_bind]
  refine Tot.wr hs ⟨by simpa using h.size, fun r h1 h2 h3 => ?_, fun _ => ?_, fun r c h1 h2 h3 h4 => ?_, fun r h1 h2 => ?_⟩
  · rw [at_set #[] hs, if_neg (by omega)]
    exact h.low r h1 h2 h3
  · rw [at_set #[] hs, if_pos rfl, Array.size_push, h.cur him]
  · rw [at_set #[] hs] at h4 ⊢
    by_cases e : i = r
    · subst e
      rw [if_pos rfl] at h4 ⊢
      rw [Array.size_push] at h4
      unfold at'
      rw [Array.getElem?_push]
      by_cases hc : c = (at' #[] dp i).size
      · have hc' : c = j := by rw [hc, h.cur him]
        have : c = (dp[i]?.getD #[]).size := hc
        rw [if_pos this, hg, hc']
        rfl
      · have : ¬ c = (dp[i]?.getD #[]).size := hc
        rw [if_neg this]
        exact h.val i c h1 h2 h3 (by omega)
    · rw [if_neg e] at h4 ⊢
      exact h.val r c h1 h2 h3 h4
  · rw [at_set #[] hs, if_neg (by omega)]
    exact h.high r h1 h2

theorem gcdEntry_tot {n m mb i j : Nat} {dp : Array (Array Nat)} (h : DpOk n m mb i j dp) (hi : 1 ≤ i) (him : i < m) (hj : 1 ≤ j)
    (hjm : j < Nat.min ((n + i - 1) / i) mb) : gcdEntry dp i j = .ok (Nat.gcd i j) := by
  unfold gcdEntry
  split_ifs with hc
  · rw [rd_at #[] (by rw [h.size]; omega), ok_bind]
    have h1 := h.low (i - j) (by omega) (by omega) (by omega)
    have h2 : (n + i - 1) / i ≤ (n + (i - j) - 1) / (i - j) := by
      by_cases hn : n = 0
      · subst hn
        rw [Nat.div_eq_of_lt (by omega)]
        exact Nat.zero_le _
      · have e1 : ∀ d, 1 ≤ d → (n + d - 1) / d = (n - 1) / d + 1 := fun d hd => by
          rw [show n + d - 1 = (n - 1) + d by omega, Nat.add_div_right _ (by omega)]
        rw [e1 i hi, e1 (i - j) (by omega)]
        exact Nat.add_le_add_right (Nat.div_le_div_left (by omega) (by omega)) 1
    have h4 : Nat.min ((n + i - 1) / i) mb = min ((n + i - 1) / i) mb := rfl
    have h5 : Nat.min ((n + (i - j) - 1) / (i - j)) mb = min ((n + (i - j) - 1) / (i - j)) mb := rfl
    have h6 : j < (at' #[] dp (i - j)).size := by omega
    rw [rd_at 0 h6, h.val _ _ (by omega) (by omega) (by omega) h6, Nat.gcd_comm, Nat.gcd_sub_self_right (by omega), Nat.gcd_comm]
  · have h6 : j - i < (at' #[] dp i).size := by rw [h.cur him]; omega
    rw [rd_at #[] (by rw [h.size]; omega), ok_bind, rd_at 0 h6, h.val _ _ hi (by omega) him h6, Nat.gcd_sub_self_right (by omega)]

theorem convCoprime_tot (a b : Array T) (n : Nat) (hn : n ≤ 2 ^ 30) :
    Tot (convCoprime a b n) fun c => Rep n c fun k => ∑ p ∈ k.divisorsAntidiagonal, if Nat.Coprime p.1 p.2 then at' 0 a p.1 * at' 0 b p.2 else 0 := by
  unfold convCoprime
  rw [forUp_max]
  have hma : Nat.min a.size n = min a.size n := rfl
  have hmb : Nat.min b.size n = min b.size n := rfl
  obtain ⟨w, hw⟩ : ∃ w : Nat → Nat → T, w = fun x y => if Nat.Coprime x y then at' 0 a x * at' 0 b y else 0 := ⟨_, rfl⟩
  refine Tot.bind (Tot.forUp (lo := 1) (hi := max 1 (Nat.min a.size n)) (P := fun i s => DpOk n (Nat.min a.size n) (Nat.min b.size n) i 0 s.1 ∧ Rep n s.2 (part w i 1))
    (by omega) ?_ ?_) ?_
  · refine ⟨⟨by simp, fun r h1 h2 => by omega, fun h => ?_, fun r c h1 h2 h3 h4 => ?_, fun r h1 h2 => ?_⟩, by simp, fun k hk => ?_⟩
    · simp [at', h]
    · simp [at', h3] at h4
    · simp [at', h2]
    · rw [part_start]
      simp [at', hk]
  · rintro i ⟨dp, c⟩ h1 h2 ⟨hd, hc⟩
    dsimp only at hd hc
    unfold rowCoprime
    rw [jmax_ok hn (by omega), ok_bind]
    refine Tot.bind (push_tot hd h1 (by omega) (Nat.gcd_zero_right i).symm) fun dp' hd' => ?_
    rw [forUp_max]
    dsimp only
    refine (Tot.forUp (lo := 1) (hi := max 1 (Nat.min ((n + i - 1) / i) (Nat.min b.size n)))
      (P := fun j s => DpOk n (Nat.min a.size n) (Nat.min b.size n) i j s.1 ∧ Rep n s.2 (part w i j)) (by omega) ⟨hd', hc⟩ ?_).mono ?_
    · rintro j ⟨dp, c⟩ h3 h4 ⟨hd, hc⟩
      dsimp only at hd hc
      obtain ⟨h5, h6, h7⟩ := prod_lt h1 h4 h3
      unfold inner
      dsimp only
      rw [gcdEntry_tot hd h1 (by omega) h3 (by omega), ok_bind]
      refine Tot.bind (push_tot hd h1 (by omega) rfl) fun dp2 hd2 => ?_
      refine Tot.bind (P := fun c' => Rep n c' (part w i (j + 1))) ?_ fun c' hc' => Tot.pure ⟨hd2, hc'⟩
      unfold addIf
      split_ifs with hg
      · exact addTerm_tot h1 h3 (by omega) (by omega) h5 (by rw [hw]; exact if_pos hg) hc
      · refine Tot.pure (rep_congr hc fun k hk => ?_)
        rw [part_step w h1 h3]
        have : w i j = 0 := by rw [hw]; exact if_neg hg
        rw [this, ite_self, add_zero]
    · rintro ⟨dp, c⟩ ⟨hd, hc⟩
      dsimp only at hd hc ⊢
      refine ⟨⟨hd.size, fun r h3 h4 h5 => ?_, fun h => ?_, fun r c h3 h4 h5 h6 => ?_, fun r h3 h4 => hd.high r (by omega) h4⟩,
        rep_congr hc fun k hk => ?_⟩
      · by_cases e : r = i
        · subst e; exact hd.cur h5
        · exact hd.low r h3 (by omega) h5
      · exact hd.high (i + 1) (by omega) h
      · by_cases e : r = i + 1
        · subst e
          rw [hd.high (i + 1) (by omega) h5] at h6
          omega
        · exact hd.val r c h3 (by omega) h5 h6
      · refine part_next w ?_ rfl h1 hk
        intro x y hy hyn
        rw [hw]
        dsimp only
        rw [at_ge 0 (a := b) (by omega), mul_zero, ite_self]
  · rintro ⟨dp, c⟩ ⟨-, hc⟩
    refine Tot.pure (rep_congr hc fun k hk => ?_)
    rw [part_end w (m := a.size) ?_ rfl hk, hw]
    intro x y hx _
    rw [hw]
    dsimp only
    rw [at_ge 0 (a := a) hx, zero_mul, ite_self]

end Dirichlet
