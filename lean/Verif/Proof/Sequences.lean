import Verif.Model.Sequences
import Verif.Proof.ModTables
import Verif.Proof.Tables
import Verif.Proof.SequencesEulerian
import Mathlib.Combinatorics.Derangements.Finite
import Mathlib.Data.Nat.Choose.Lucas
import Mathlib.Data.ZMod.Basic
import Mathlib.Algebra.Field.ZMod
import Mathlib.Data.Nat.Prime.Factorial

namespace Sequences
open Cxx

section
variable {F : Type} [Field F] [DecidableEq F]

theorem get_at {α : Type} (d : α) {a : Array α} {i : Nat} (h : i < a.size) : a[i]? = some (at' d a i) := by
  simp [at', h]

theorem resize_size (a : Array F) (k : Nat) : (resize a k).size = k := by simp [resize]; omega

theorem resize_at {a : Array F} {k i : Nat} (h : i < k) (h' : i < a.size) : at' 0 (resize a k) i = at' 0 a i := by
  unfold at' resize
  rw [Array.getElem?_extract, Nat.zero_add, if_pos (by simp; omega), Array.getElem?_append_left h']

theorem at_push {α : Type} (d : α) (a : Array α) (x : α) (i : Nat) : at' d (a.push x) i = if i = a.size then x else at' d a i := by
  unfold at'
  rw [Array.getElem?_push]
  split <;> rfl

/-! ### Derangements -/

theorem montmort_tot (n : Nat) : Tot (montmort n : M (Array F)) fun r => r.size = n + 1 ∧ ∀ i, i ≤ n → at' 0 r i = (numDerangements i : F) := by
  have base : ∀ i, i < 2 → at' 0 (#[1, 0] : Array F) i = (numDerangements i : F) := by
    intro i hi
    have : i = 0 ∨ i = 1 := by omega
    rcases this with rfl | rfl <;> simp [at', numDerangements]
  unfold montmort
  rcases Nat.lt_or_ge n 1 with h | h
  · have : n = 0 := by omega
    subst this
    refine Tot.bind (P := fun a : Array F => a = #[1, 0]) ⟨_, rfl, rfl⟩ ?_
    rintro _ rfl
    refine Tot.pure ⟨resize_size _ _, fun i hi => ?_⟩
    rw [resize_at (by omega) (by simp; omega)]
    exact base i (by omega)
  · refine (Tot.forUp (lo := 2) (hi := n + 1) (P := fun k (a : Array F) => a.size = k ∧ ∀ i, i < k → at' 0 a i = (numDerangements i : F)) (by omega) ⟨rfl, base⟩ ?_).bind ?_
    · rintro j a h1 h2 ⟨h3, h4⟩
      unfold montStep
      rw [rd_at 0 (by omega), ok_bind, rd_at 0 (by omega), ok_bind]
      refine Tot.pure ⟨by simp [h3], fun i hi => ?_⟩
      rw [at_push]
      by_cases he : i = a.size
      · rw [if_pos he, h4 _ (by omega), h4 _ (by omega)]
        obtain ⟨k, rfl⟩ : ∃ k, j = k + 2 := ⟨j - 2, by omega⟩
        rw [he, h3, numDerangements_add_two]
        push_cast
        ring
      · rw [if_neg he]
        exact h4 i (by omega)
    · rintro a ⟨h1, h2⟩
      refine Tot.pure ⟨resize_size _ _, fun i hi => ?_⟩
      rw [resize_at (by omega) (by omega)]
      exact h2 i (by omega)

/-! ### Powers -/

theorem powers_tot (n k : Nat) (hk : k < 2 ^ 63) : Tot (powers n k : M (Array F)) fun r => r.size = n + 1 ∧ ∀ i, i ≤ n → at' 0 r i = (i : F) ^ k := by
  unfold powers
  refine (LinearSieve.make_tot n).bind fun s hs => ?_
  rw [wr_eq (by simp), ok_bind]
  refine (Tot.forUp (lo := 1) (hi := n + 1) (P := fun j (a : Array F) => a.size = n + 1 ∧ ∀ i, i < j → at' 0 a i = (i : F) ^ k) (by omega) ⟨by simp, ?_⟩ ?_).mono
    fun r hr => ⟨hr.1, fun i hi => hr.2 i (by omega)⟩
  · intro i hi
    have : i = 0 := by omega
    subst this
    rw [at_set _ (by simp), if_pos rfl]
    by_cases h : k = 0
    · rw [if_pos h, h]; simp
    · rw [if_neg h]; simp [h]
  · rintro j a h1 h2 ⟨h3, h4⟩
    have fin : ∀ x : F, x = (j : F) ^ k → Tot (wr a j x) fun r => r.size = n + 1 ∧ ∀ i, i < j + 1 → at' 0 r i = (i : F) ^ k := by
      intro x hx
      rw [wr_eq (by omega)]
      refine Tot.pure ⟨by simp [h3], fun i hi => ?_⟩
      rw [at_set _ (by omega)]
      by_cases h : j = i
      · rw [if_pos h, hx, h]
      · rw [if_neg h]; exact h4 i (by omega)
    unfold powersStep
    by_cases e1 : j = 1
    · rw [if_pos e1]
      exact fin 1 (by rw [e1]; simp)
    · rw [if_neg e1, rd_at 0 (by rw [hs.size]; omega), ok_bind, hs.mpf j (by omega) (by omega)]
      by_cases e2 : j.minFac = j
      · rw [if_pos e2]
        unfold powU64
        rw [decide_eq_true hk, check_true, ok_bind, pure_eq, ok_bind]
        exact fin _ rfl
      · rw [if_neg e2]
        have hd := Nat.minFac_dvd j
        have hle := Nat.minFac_le (n := j) (by omega)
        have h2' := (Nat.minFac_prime e1).two_le
        have hlt : j / j.minFac < j := Nat.div_lt_self (by omega) h2'
        rw [rd_at 0 (by omega), ok_bind, rd_at 0 (by omega), ok_bind]
        refine fin _ ?_
        rw [h4 _ (by omega), h4 _ hlt, ← mul_pow, ← Nat.cast_mul, Nat.mul_div_cancel' hd]

theorem powers_neg (n k : Nat) (hn : 2 ≤ n) (hk : 2 ^ 63 ≤ k) : (powers n k : M (Array F)) = .error .assertion := by
  unfold powers
  obtain ⟨s, e, hs⟩ := LinearSieve.make_tot n
  rw [e, ok_bind, wr_eq (by simp), ok_bind]
  unfold forUp
  obtain ⟨m, rfl⟩ : ∃ m, n = m + 2 := ⟨n - 2, by omega⟩
  rw [show m + 2 + 1 - 1 = m + 1 + 1 by omega]
  unfold forN
  have e1 : powersStep s.mpf k 1 ((Array.replicate (m + 2 + 1) (0 : F)).setIfInBounds 0 (if k = 0 then 1 else 0)) = .ok (((Array.replicate (m + 2 + 1) (0 : F)).setIfInBounds 0 (if k = 0 then 1 else 0)).setIfInBounds 1 1) := by
    unfold powersStep
    rw [if_pos rfl, wr_eq (by simp)]
  rw [e1, ok_bind]
  unfold forN
  have e2 : ∀ a : Array F, powersStep s.mpf k (1 + 1) a = .error .assertion := by
    intro a
    unfold powersStep
    rw [if_neg (by omega), rd_at 0 (by rw [hs.size]; omega), ok_bind, hs.mpf 2 (by omega) (by omega), if_pos (by decide)]
    unfold powU64
    rw [decide_eq_false (by omega)]
    rfl
  rw [e2]
  rfl

/-! ### The table of Eulerian numbers -/

theorem row_tot {n i : Nat} (hi : 1 ≤ i) (hin : i ≤ n) {dp : Array (Array F)} (hs : dp.size = n + 1)
    (hd : ∀ j, j < i → (at' #[] dp j).size = j ∧ ∀ k, k < j → at' 0 (at' #[] dp j) k = (eulerianNumber j k : F)) :
    Tot (rowStep i dp) fun r => r.size = n + 1 ∧ ∀ j, j < i + 1 → (at' #[] r j).size = j ∧ ∀ k, k < j → at' 0 (at' #[] r j) k = (eulerianNumber j k : F) := by
  unfold rowStep
  rw [wr_eq (by simp; omega), ok_bind, wr_eq (by simp; omega), ok_bind, rd_at #[] (by omega), ok_bind]
  obtain ⟨p1, p2⟩ := hd (i - 1) (by omega)
  generalize at' #[] dp (i - 1) = prev at p1 p2
  have hone : eulerianNumber i (i - 1) = 1 := by
    have := eulerian_symm i 0 (by omega)
    rw [eulerian_left, show i - 1 - 0 = i - 1 by omega] at this
    exact this
  have base : ∀ k, k < i → k = 0 ∨ k = i - 1 → at' 0 (((Array.replicate i (0 : F)).setIfInBounds (i - 1) 1).setIfInBounds 0 1) k = (eulerianNumber i k : F) := by
    intro k hk h
    rw [at_set _ (by simp; omega)]
    by_cases h0 : 0 = k
    · rw [if_pos h0, ← h0, eulerian_left]; simp
    · rw [if_neg h0, at_set _ (by simp; omega), if_pos (by omega)]
      have : k = i - 1 := by omega
      rw [this, hone]; simp
  have key : Tot (forUp 1 (i - 1) (((Array.replicate i (0 : F)).setIfInBounds (i - 1) 1).setIfInBounds 0 1) (tableStep i prev)) fun r => r.size = i ∧ ∀ k, k < i → at' 0 r k = (eulerianNumber i k : F) := by
    rcases Nat.lt_or_ge (i - 1) 1 with c | c
    · refine ⟨_, show forUp 1 (i - 1) _ _ = .ok _ by rw [show i - 1 = 0 by omega]; rfl, by simp, fun k hk => base k hk (by omega)⟩
    · refine (Tot.forUp (lo := 1) (hi := i - 1) (P := fun j (a : Array F) => a.size = i ∧ ∀ k, k < i → k < j ∨ k = i - 1 → at' 0 a k = (eulerianNumber i k : F)) c ⟨by simp, ?_⟩ ?_).mono ?_
      · intro k hk h
        exact base k hk (by omega)
      · rintro j a h1 h2 ⟨h3, h4⟩
        unfold tableStep
        rw [rd_at 0 (by omega), ok_bind, rd_at 0 (by omega), ok_bind, wr_eq (by omega)]
        refine Tot.pure ⟨by simp [h3], fun k hk h => ?_⟩
        rw [at_set _ (by omega)]
        by_cases he : j = k
        · rw [if_pos he, p2 _ (by omega), p2 _ (by omega)]
          obtain ⟨m, rfl⟩ : ∃ m, i = m + 1 := ⟨i - 1, by omega⟩
          rw [← he, eulerian_rec, if_neg (by omega), show m + 1 - 1 = m by omega]
          push_cast
          ring
        · rw [if_neg he]
          exact h4 k hk (by omega)
      · rintro r ⟨h1, h2⟩
        exact ⟨h1, fun k hk => h2 k hk (by omega)⟩
  refine key.bind ?_
  rintro row ⟨r1, r2⟩
  rw [wr_eq (by omega)]
  refine Tot.pure ⟨by simp [hs], fun j hj => ?_⟩
  rw [at_set _ (by omega)]
  by_cases he : i = j
  · rw [if_pos he, ← he]
    exact ⟨r1, r2⟩
  · rw [if_neg he]
    exact hd j (by omega)

theorem table_tot {n : Nat} (hn : 1 ≤ n) : Tot (eulerianTable n : M (Array (Array F))) fun r => r.size = n + 1 ∧
    ∀ j, j ≤ n → (at' #[] r j).size = j ∧ ∀ k, k < j → at' 0 (at' #[] r j) k = (eulerianNumber j k : F) := by
  unfold eulerianTable
  rw [if_neg (by omega)]
  refine (Tot.forUp (lo := 1) (hi := n + 1) (P := fun i (dp : Array (Array F)) => dp.size = n + 1 ∧ ∀ j, j < i → (at' #[] dp j).size = j ∧ ∀ k, k < j → at' 0 (at' #[] dp j) k = (eulerianNumber j k : F))
    (by omega) ⟨by simp, ?_⟩ ?_).mono fun r hr => ⟨hr.1, fun j hj => hr.2 j (by omega)⟩
  · intro j hj
    have : j = 0 := by omega
    subst this
    simp [at']
  · rintro i dp h1 h2 ⟨h3, h4⟩
    exact row_tot h1 (by omega) h3 h4

/-! ### One row of Eulerian numbers -/

theorem conv_size (f g : Array F) : (conv f g).size = f.size + g.size - 1 := by simp [conv]

theorem conv_at {f g : Array F} {k : Nat} (h : k < f.size + g.size - 1) : at' 0 (conv f g) k = ∑ i ∈ Finset.range (k + 1), at' 0 g i * at' 0 f (k - i) := by
  have : at' 0 (conv f g) k = ((List.range (k + 1)).map fun i => at' 0 g i * at' 0 f (k - i)).sum := by
    conv_lhs => unfold at' conv
    rw [Array.getElem?_ofFn, dif_pos h]
    rfl
  rw [this]
  simp only [Finset.sum, Finset.range_val]
  rfl

theorem sign_tot {n h : Nat} {t : Factorial.Tab F} (ht : Factorial.Inv t) (hsz : n + 1 < t.fac.size) :
    Tot (forUp 0 h (t, Array.replicate h (0 : F)) (signStep n)) fun s => s.2.size = h ∧ Factorial.Inv s.1 ∧ s.1.fac.size = t.fac.size ∧ ∀ i, i < h → at' 0 s.2 i = (-1) ^ i * ((n + 1).choose i : F) := by
  refine (Tot.forUp (lo := 0) (hi := h) (P := fun j (s : Factorial.Tab F × Array F) => s.2.size = h ∧ Factorial.Inv s.1 ∧ s.1.fac.size = t.fac.size ∧ ∀ i, i < j → at' 0 s.2 i = (-1) ^ i * ((n + 1).choose i : F))
    (by omega) ⟨by simp, ht, rfl, fun i hi => by omega⟩ ?_)
  rintro j ⟨t', g⟩ - h2 ⟨h3, h4, h5, h6⟩
  dsimp only at h3 h4 h5 h6
  unfold signStep
  have hns : Factorial.newSize t'.fac.size (n + 1) = t'.fac.size := by
    unfold Factorial.newSize
    rw [if_pos (by omega)]
  have := Factorial.step_tot h4 (op := .binom ((n + 1 : Nat) : Int) j) (fun _ => by
    simp only [Factorial.Op.arg, Int.toNat_natCast, hns]
    exact Factorial.inv_ne h4 (by have := h4.pos; omega))
  refine Tot.bind this ?_
  rintro ⟨t2, b⟩ ⟨q1, q2, q3⟩
  simp only [Factorial.Op.arg, Int.toNat_natCast, hns, or_self, Factorial.Ans] at q1 q2 q3
  rw [if_pos (by omega)] at q3
  dsimp only
  rw [wr_eq (by omega), ok_bind]
  refine Tot.pure ⟨by simp [h3], q1, by rw [q2, h5], fun i hi => ?_⟩
  dsimp only
  rw [at_set _ (by omega)]
  by_cases he : j = i
  · rw [if_pos he, ← he]
    by_cases ho : j % 2 = 1
    · rw [if_pos ho, q3, Odd.neg_one_pow (Nat.odd_iff.2 ho)]; ring
    · rw [if_neg ho, q3, Even.neg_one_pow (Nat.even_iff.2 (by omega))]; ring
  · rw [if_neg he]; exact h6 i (by omega)

theorem eulerian_tot {n : Nat} (hn : n < 2 ^ 63) {t : Factorial.Tab F} (ht : Factorial.Inv t) (hF : ((Factorial.newSize t.fac.size (n + 1) - 1).factorial : F) ≠ 0) :
    Tot (eulerian t n) fun r => r.2.size = n ∧ ∀ k, k < n → at' 0 r.2 k = (eulerianNumber n k : F) := by
  unfold eulerian
  by_cases h0 : n = 0
  · rw [if_pos h0]
    exact Tot.pure ⟨by simp [h0], fun k hk => by omega⟩
  rw [if_neg h0]
  refine (Factorial.ensure_tot ht hF).bind ?_
  rintro t1 ⟨i1, -, i2⟩
  dsimp only
  obtain ⟨h, hh⟩ : ∃ h, h = (n + 1) / 2 := ⟨_, rfl⟩
  rw [← hh]
  refine (powers_tot h n hn).bind ?_
  rintro f ⟨f1, f2⟩
  have g1 : (f.extract 1 f.size).size = h := by simp; omega
  have g2 : ∀ i, i < h → at' 0 (f.extract 1 f.size) i = ((i + 1 : Nat) : F) ^ n := by
    intro i hi
    rw [← f2 (i + 1) (by omega)]
    unfold at'
    rw [Array.getElem?_extract, if_pos (by simp; omega), Nat.add_comm 1 i]
  generalize f.extract 1 f.size = f' at g1 g2
  refine (sign_tot i1 (by omega)).bind ?_
  rintro ⟨t2, g⟩ ⟨s1, -, -, s2⟩
  dsimp only at s1 s2 ⊢
  have c1 : (resize (conv f' g) n).size = n := resize_size _ _
  have c2 : ∀ k, k < h → at' 0 (resize (conv f' g) n) k = (eulerianNumber n k : F) := by
    intro k hk
    rw [resize_at (by omega) (by rw [conv_size]; omega), conv_at (by omega)]
    have := congrArg (Int.cast : Int → F) (eulerian_formula n k)
    rw [Int.cast_natCast] at this
    rw [this, Int.cast_sum]
    refine Finset.sum_congr rfl fun i hi => ?_
    rw [Finset.mem_range] at hi
    rw [s2 i (by omega), g2 (k - i) (by omega)]
    push_cast [Nat.cast_sub (show i ≤ k by omega)]
    congr 2
    ring
  generalize resize (conv f' g) n = res at c1 c2
  refine (Tot.forUp (lo := h) (hi := n) (P := fun j (a : Array F) => a.size = n ∧ ∀ k, k < j → at' 0 a k = (eulerianNumber n k : F)) (by omega) ⟨c1, c2⟩ ?_).bind ?_
  · rintro j a h1 h2 ⟨h3, h4⟩
    unfold mirrorStep
    rw [rd_at 0 (by omega), ok_bind, wr_eq (by omega)]
    refine Tot.pure ⟨by simp [h3], fun k hk => ?_⟩
    rw [at_set _ (by omega)]
    by_cases he : j = k
    · rw [if_pos he, ← he, h4 _ (by omega), eulerian_symm n j (by omega)]
    · rw [if_neg he]; exact h4 k (by omega)
  · rintro a ⟨h1, h2⟩
    exact Tot.pure ⟨h1, h2⟩

end

/-! ### Lucas -/

theorem binomSmall_tot {p : Nat} [hp : Fact p.Prime] {t : Factorial.Tab (ZMod p)} (ht : Factorial.Inv t) (hsz : t.fac.size = 1 ∨ t.fac.size = p) (n r : Int) :
    Tot (binomSmall p t n r) fun o => (Factorial.Inv o.1 ∧ o.1.fac.size = p) ∧ o.2 = if 0 ≤ r ∧ r ≤ n then (n.toNat.choose r.toNat : ZMod p) else 0 := by
  have h2 := hp.out.two_le
  unfold binomSmall
  have hns : Factorial.newSize t.fac.size (p - 1) = p := by
    unfold Factorial.newSize
    split_ifs <;> omega
  have hfp : ((p - 1).factorial : ZMod p) ≠ 0 := by
    rw [Ne, ZMod.natCast_eq_zero_iff, hp.out.dvd_factorial]
    omega
  refine (Factorial.ensure_tot ht (by rw [hns]; exact hfp)).bind ?_
  rintro t1 ⟨i1, i2, i3⟩
  rw [hns] at i2
  by_cases hc : r < 0 ∨ n < r
  · rw [if_pos hc]
    refine Tot.pure ⟨⟨i1, i2⟩, ?_⟩
    rw [if_neg (by omega)]
  rw [if_neg hc]
  obtain ⟨r0, hr0⟩ : ∃ r0, r0 = (min r (n - r)).toNat := ⟨_, rfl⟩
  have hch : n.toNat.choose r0 = n.toNat.choose r.toNat := by
    rcases le_total r (n - r) with h | h
    · rw [hr0, min_eq_left h]
    · rw [hr0, min_eq_right h, ← Nat.choose_symm (show r.toNat ≤ n.toNat by omega)]
      congr 1
      omega
  rw [← hr0]
  refine (Tot.loop (P := fun s : Luc (ZMod p) => Factorial.Inv s.t ∧ s.t.fac.size = p ∧ s.res * (s.n.choose s.r : ZMod p) = (n.toNat.choose r0 : ZMod p))
    (Q := fun s => Factorial.Inv s.t ∧ s.t.fac.size = p ∧ s.res = (n.toNat.choose r0 : ZMod p)) (μ := fun s => s.r) ?_ (s := ⟨t1, n.toNat, r0, 1⟩) ⟨i1, i2, by simp⟩ ?_).bind ?_
  · rintro ⟨t', m, k, res⟩ ⟨q1, q2, q3⟩
    dsimp only at q1 q2 q3
    unfold lucasStep
    dsimp only
    by_cases hk : k = 0
    · rw [if_pos hk]
      refine Tot.pure ⟨q1, q2, ?_⟩
      rw [hk] at q3
      simpa using q3
    rw [if_neg hk]
    have hl : (m.choose k : ZMod p) = ((m % p).choose (k % p) : ZMod p) * ((m / p).choose (k / p) : ZMod p) := by
      have := (ZMod.natCast_eq_natCast_iff _ _ p).2 (Choose.choose_modEq_choose_mod_mul_choose_div_nat (n := m) (k := k) (p := p))
      rw [this, Nat.cast_mul]
    by_cases hlt : m % p < k % p
    · rw [if_pos hlt]
      refine Tot.pure ⟨⟨q1, q2, ?_⟩, by dsimp only; omega⟩
      dsimp only
      rw [← q3, hl, Nat.choose_eq_zero_of_lt hlt]
      simp
    · rw [if_neg hlt]
      have hm := Nat.mod_lt m (show 0 < p by omega)
      have hns : Factorial.newSize t'.fac.size (m % p) = t'.fac.size := by
        unfold Factorial.newSize
        rw [if_pos (by omega)]
      have := Factorial.step_tot q1 (op := .binom ((m % p : Nat) : Int) ((k % p : Nat) : Int)) (fun _ => by
        simp only [Factorial.Op.arg, Int.toNat_natCast, hns]
        exact Factorial.inv_ne q1 (by omega))
      refine Tot.bind this ?_
      rintro ⟨t2, b⟩ ⟨w1, w2, w3⟩
      simp only [Factorial.Op.arg, Int.toNat_natCast, hns, or_self, Factorial.Ans] at w1 w2 w3
      rw [if_pos (by omega)] at w3
      refine Tot.pure ⟨⟨w1, by rw [w2, q2], ?_⟩, ?_⟩
      · dsimp only
        rw [← q3, hl, w3]
        ring
      · dsimp only
        exact Nat.div_lt_self (by omega) h2
  · dsimp only; omega
  · rintro s ⟨h1, h2, h3⟩
    refine Tot.pure ⟨⟨h1, h2⟩, ?_⟩
    rw [if_pos (by omega), h3, hch]

end Sequences
