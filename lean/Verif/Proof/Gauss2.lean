import Verif.Proof.Gauss
import Mathlib.Data.Nat.Nth

/-! # Proofs for `GaussianElimination`: the reduced system and its solutions -/

namespace Gauss
open Cxx

variable {F : Type} [Field F]

/-- The system is reduced: pivot columns `p k` (`k < R`) are unit columns, the other columns are `q t` (`t < L`), rows from `R` on vanish. -/
structure Rref (n m R L : Nat) (p q : Nat → Nat) (e : Nat → Nat → F) : Prop where
  le : R ≤ n
  plt : ∀ k < R, p k < m
  qlt : ∀ t < L, q t < m
  pinj : ∀ k < R, ∀ k' < R, p k = p k' → k = k'
  qinj : ∀ t < L, ∀ t' < L, q t = q t' → t = t'
  disj : ∀ k < R, ∀ t < L, p k ≠ q t
  cover : ∀ j < m, (∃ k < R, j = p k) ∨ ∃ t < L, j = q t
  one : ∀ k < R, e k (p k) = 1
  zero : ∀ k < R, ∀ r < R, r ≠ k → e r (p k) = 0
  rest : ∀ r, R ≤ r → r < n → ∀ c ≤ m, e r c = 0

/-- The entries of the particular solution and of the basis. -/
structure Param (m R L : Nat) (p q : Nat → Nat) (e : Nat → Nat → F) (x0 : Nat → F) (B : Nat → Nat → F) : Prop where
  xp : ∀ k < R, x0 (p k) = e k m
  xq : ∀ t < L, x0 (q t) = 0
  bp : ∀ t < L, ∀ k < R, B t (p k) = e k (q t)
  bq : ∀ t < L, ∀ t' < L, B t (q t') = if t = t' then -1 else 0

variable {n m R L : Nat} {p q : Nat → Nat} {e : Nat → Nat → F}

theorem Rref.sum (h : Rref n m R L p q e) (g : Nat → F) : ∑ j ∈ Finset.range m, g j = ∑ k ∈ Finset.range R, g (p k) + ∑ t ∈ Finset.range L, g (q t) := by
  have hu : Finset.range m = (Finset.range R).image p ∪ (Finset.range L).image q := by
    ext j
    simp only [Finset.mem_range, Finset.mem_union, Finset.mem_image]
    constructor
    · intro hj
      rcases h.cover j hj with ⟨k, h1, h2⟩ | ⟨t, h1, h2⟩
      · exact Or.inl ⟨k, h1, h2.symm⟩
      · exact Or.inr ⟨t, h1, h2.symm⟩
    · rintro (⟨k, h1, h2⟩ | ⟨t, h1, h2⟩)
      · rw [← h2]; exact h.plt k h1
      · rw [← h2]; exact h.qlt t h1
  have hd : Disjoint ((Finset.range R).image p) ((Finset.range L).image q) := by
    rw [Finset.disjoint_left]
    intro j h1 h2
    simp only [Finset.mem_range, Finset.mem_image] at h1 h2
    obtain ⟨k, k1, k2⟩ := h1
    obtain ⟨t, t1, t2⟩ := h2
    exact h.disj k k1 t t1 (k2.trans t2.symm)
  rw [hu, Finset.sum_union hd, Finset.sum_image, Finset.sum_image]
  · intro a ha b hb hab
    simp only [Finset.coe_range, Set.mem_Iio] at ha hb
    exact h.qinj a ha b hb hab
  · intro a ha b hb hab
    simp only [Finset.coe_range, Set.mem_Iio] at ha hb
    exact h.pinj a ha b hb hab

theorem Rref.row (h : Rref n m R L p q e) (y : Nat → F) {r : Nat} (hr : r < R) :
    ∑ j ∈ Finset.range m, e r j * y j = y (p r) + ∑ t ∈ Finset.range L, e r (q t) * y (q t) := by
  rw [h.sum (fun j => e r j * y j)]
  congr 1
  rw [Finset.sum_eq_single r]
  · rw [h.one r hr, one_mul]
  · intro k hk hne
    rw [h.zero k (Finset.mem_range.1 hk) r hr (Ne.symm hne), zero_mul]
  · intro hn
    exact absurd (Finset.mem_range.2 hr) hn

theorem Rref.sol_iff (h : Rref n m R L p q e) (y : Nat → F) :
    Sol n m e y ↔ ∀ r < R, y (p r) + ∑ t ∈ Finset.range L, e r (q t) * y (q t) = e r m := by
  constructor
  · intro hs r hr
    rw [← h.row y hr]
    exact hs r (by have := h.le; omega)
  · intro hs r hr
    by_cases hR : r < R
    · rw [h.row y hR]
      exact hs r hR
    · rw [h.rest r (by omega) hr m (le_refl _)]
      refine Finset.sum_eq_zero fun c hc => ?_
      rw [h.rest r (by omega) hr c (Nat.le_of_lt (Finset.mem_range.1 hc)), zero_mul]

theorem Param.sum_q {x0 : Nat → F} {B : Nat → Nat → F} (hb : Param m R L p q e x0 B) (c : Nat → F) {t : Nat} (ht : t < L) :
    ∑ s ∈ Finset.range L, c s * B s (q t) = - c t := by
  rw [Finset.sum_eq_single t]
  · rw [hb.bq t ht t ht, if_pos rfl, mul_neg, mul_one]
  · intro s hs hne
    rw [hb.bq s (Finset.mem_range.1 hs) t ht, if_neg hne, mul_zero]
  · intro hn
    exact absurd (Finset.mem_range.2 ht) hn

theorem Rref.param (h : Rref n m R L p q e) {x0 : Nat → F} {B : Nat → Nat → F} (hb : Param m R L p q e x0 B) (y : Nat → F) :
    Sol n m e y ↔ ∃ c : Nat → F, ∀ j < m, y j = x0 j + ∑ t ∈ Finset.range L, c t * B t j := by
  rw [h.sol_iff]
  constructor
  · intro hs
    refine ⟨fun t => - y (q t), fun j hj => ?_⟩
    rcases h.cover j hj with ⟨k, hk, rfl⟩ | ⟨t, ht, rfl⟩
    · rw [hb.xp k hk, ← hs k hk, add_assoc, ← Finset.sum_add_distrib]
      rw [Finset.sum_eq_zero, add_zero]
      intro t ht
      rw [hb.bp t (Finset.mem_range.1 ht) k hk]
      ring
    · rw [hb.xq t ht, hb.sum_q _ ht]
      ring
  · rintro ⟨c, hc⟩ r hr
    rw [hc _ (h.plt r hr), hb.xp r hr, add_assoc, ← Finset.sum_add_distrib, Finset.sum_eq_zero, add_zero]
    intro t ht
    have ht' := Finset.mem_range.1 ht
    rw [hb.bp t ht' r hr, hc _ (h.qlt t ht'), hb.xq t ht', hb.sum_q _ ht']
    ring

theorem Rref.indep (h : Rref n m R L p q e) {x0 : Nat → F} {B : Nat → Nat → F} (hb : Param m R L p q e x0 B) (c : Nat → F)
    (hc : ∀ j < m, ∑ t ∈ Finset.range L, c t * B t j = 0) : ∀ t < L, c t = 0 := by
  intro t ht
  have := hc _ (h.qlt t ht)
  rw [hb.sum_q c ht] at this
  exact neg_eq_zero.1 this

end Gauss
