import Verif.Model.SegmentTree
import Verif.Proof.Bits
import Mathlib.Algebra.BigOperators.Group.List.Basic
import Mathlib.Algebra.Group.Basic
import Mathlib.Tactic.Ring

/-!
# Heap-shaped trees over a monoid

Helper lemmas shared by the segment trees: `P D l r = D l * D (l+1) * … * D (r-1)`.
-/

namespace SegTree
open Cxx

variable {T : Type} [Monoid T]

/-- Ordered product of `D` over the index interval `[l, r)`. -/
def P (D : Nat → T) (l r : Nat) : T := ((List.range' l (r - l)).map D).prod

theorem P_empty (D : Nat → T) {l r : Nat} (h : r ≤ l) : P D l r = 1 := by
  simp [P, Nat.sub_eq_zero_of_le h]

theorem P_left (D : Nat → T) {l r : Nat} (h : l < r) : P D l r = D l * P D (l + 1) r := by
  unfold P
  rw [show r - l = (r - (l + 1)) + 1 by omega, List.range'_succ, List.map_cons, List.prod_cons]

theorem P_append (D : Nat → T) {l m r : Nat} (h1 : l ≤ m) (h2 : m ≤ r) : P D l r = P D l m * P D m r := by
  unfold P
  rw [← List.prod_append, ← List.map_append]
  congr 2
  have := List.range'_append (s := l) (m := m - l) (n := r - m) (step := 1)
  rw [show l + 1 * (m - l) = m by omega, show m - l + (r - m) = r - l by omega] at this
  exact this.symm

theorem P_one (D : Nat → T) (l : Nat) : P D l (l + 1) = D l := by simp [P]

theorem P_right (D : Nat → T) {l r : Nat} (h : l ≤ r) : P D l (r + 1) = P D l r * D r := by
  rw [P_append D h (Nat.le_succ r), P_one]

theorem P_congr {D D' : Nat → T} {l r : Nat} (h : ∀ i, l ≤ i → i < r → D i = D' i) : P D l r = P D' l r := by
  unfold P
  congr 1
  apply List.map_congr_left
  intro i hi
  rw [List.mem_range'_1] at hi
  exact h i hi.1 (by omega)

theorem P_shift (D : Nat → T) (m l r : Nat) : P D (l + m) (r + m) = P (fun i => D (m + i)) l r := by
  unfold P
  rw [show r + m - (l + m) = r - l by omega]
  congr 1
  rw [Nat.add_comm l m, ← List.map_add_range', List.map_map]
  rfl

theorem P_one_of {D : Nat → T} {l r : Nat} (h : ∀ i, l ≤ i → i < r → D i = 1) : P D l r = 1 := by
  rw [P_congr (D' := fun _ => 1) h]
  unfold P
  exact List.prod_eq_one (by simp)

/-- Every inner node holds the product of its children. -/
def Inv (m : Nat) (D : Nat → T) : Prop := ∀ k, 1 ≤ k → k < m → D k = D (2 * k) * D (2 * k + 1)

theorem P_double {m : Nat} {D : Nat → T} (h : Inv m D) {l r : Nat} (hl : 1 ≤ l) (hlr : l ≤ r) (hr : r ≤ m) :
    P D (2 * l) (2 * r) = P D l r := by
  obtain ⟨k, rfl⟩ := Nat.exists_eq_add_of_le hlr
  clear hlr
  induction k with
  | zero => simp [P]
  | succ k ih =>
    rw [show l + (k + 1) = (l + k) + 1 by omega, P_right D (by omega : l ≤ l + k), ← ih (by omega),
      show 2 * (l + k + 1) = (2 * (l + k) + 1) + 1 by omega, P_right D (by omega : 2 * l ≤ 2 * (l + k) + 1),
      P_right D (by omega : 2 * l ≤ 2 * (l + k)), mul_assoc, h (l + k) (by omega) (by omega)]

/-- A node is the product of the nodes `h` levels below it. -/
theorem node_eq {m : Nat} {D : Nat → T} (hD : Inv m D) (h : Nat) {k : Nat} (hk : 1 ≤ k) (hm : (k + 1) * 2 ^ h ≤ 2 * m) :
    D k = P D (k * 2 ^ h) ((k + 1) * 2 ^ h) := by
  induction h with
  | zero => simp [P_one]
  | succ h ih =>
    have e : (k + 1) * 2 ^ (h + 1) = 2 * ((k + 1) * 2 ^ h) := by ring
    have e2 : k * 2 ^ (h + 1) = 2 * (k * 2 ^ h) := by ring
    rw [e] at hm
    rw [ih (by omega), e, e2, P_double hD]
    · have := Nat.pos_of_ne_zero (pow_ne_zero h (two_ne_zero (α := Nat))); exact Nat.mul_pos hk this
    · exact Nat.mul_le_mul_right _ (Nat.le_succ k)
    · omega

theorem ceilPow2_tot' (n : Nat) : Tot (SegmentTree.ceilPow2 n) fun m => n ≤ m ∧ (∃ j, m = 2 ^ j) ∧ (m = 1 ∨ m < 2 * n) := by
  unfold SegmentTree.ceilPow2
  refine Tot.loop (P := fun m : Nat => (∃ j, m = 2 ^ j) ∧ (m = 1 ∨ m < 2 * n)) (fun m => n - m) ?_ ⟨⟨0, rfl⟩, Or.inl rfl⟩ (by omega)
  rintro m ⟨⟨j, rfl⟩, hb⟩
  unfold SegmentTree.ceilStep
  have : 0 < 2 ^ j := Nat.pos_of_ne_zero (pow_ne_zero j two_ne_zero)
  split
  · exact Tot.pure ⟨⟨⟨j + 1, by ring⟩, Or.inr (by omega)⟩, by omega⟩
  · exact Tot.pure ⟨by omega, ⟨j, rfl⟩, hb⟩

theorem ceilPow2_tot (n : Nat) : Tot (SegmentTree.ceilPow2 n) fun m => n ≤ m ∧ ∃ j, m = 2 ^ j :=
  (ceilPow2_tot' n).mono fun _ h => ⟨h.1, h.2.1⟩

/-! ### The query loop -/

theorem prodStep_tot {m : Nat} {data : Array T} (hs : data.size = 2 * m) {D : Nat → T} (hD : Inv m D) (G : Nat → Prop)
    (hG : ∀ k, k < 2 * m → G k → at' 1 data k = D k) {l0 r0 : Nat} (hl : 1 ≤ l0) (hlr : l0 ≤ r0) (hr : r0 ≤ 2 * m)
    (hGl : ∀ t l, l0 ≤ l * 2 ^ t → l * 2 ^ t < l0 + 2 ^ t → l % 2 = 1 → (l + 1) * 2 ^ t ≤ r0 → G l)
    (hGr : ∀ t r, r * 2 ^ t ≤ r0 → r0 < (r + 1) * 2 ^ t → r % 2 = 1 → l0 ≤ (r - 1) * 2 ^ t → G (r - 1))
    {fuel : Nat} (hf : r0 ≤ fuel) :
    Tot (loop (SegmentTree.prodStep (· * ·) data) fuel (l0, r0, 1, 1)) fun s => s.2.2.1 * s.2.2.2 = P D l0 r0 := by
  refine Tot.loop (P := fun s : Nat × Nat × T × T => 1 ≤ s.1 ∧ s.1 ≤ s.2.1 ∧ s.2.1 ≤ 2 * m ∧
    s.2.2.1 * P D s.1 s.2.1 * s.2.2.2 = P D l0 r0 ∧ ∃ t, l0 ≤ s.1 * 2 ^ t ∧ s.1 * 2 ^ t < l0 + 2 ^ t ∧
      s.2.1 * 2 ^ t ≤ r0 ∧ r0 < (s.2.1 + 1) * 2 ^ t)
    (fun s => s.2.1) ?_ ⟨hl, hlr, hr, by simp, 0, by simp⟩ hf
  rintro ⟨l, r, a, b⟩ ⟨h1, h2, h3, h4, t, ht1, ht2, ht3, ht4⟩
  dsimp only at h1 h2 h3 h4 ht1 ht2 ht3 ht4
  unfold SegmentTree.prodStep
  dsimp only
  split
  case isFalse hlt =>
    have : l = r := by omega
    subst this
    refine Tot.pure ?_
    simpa [P_empty] using h4
  case isTrue hlt =>
    have hpos : 0 < 2 ^ t := Nat.pos_of_ne_zero (pow_ne_zero t two_ne_zero)
    have hle : (l + 1) * 2 ^ t ≤ r * 2 ^ t := Nat.mul_le_mul_right _ hlt
    -- left part
    have L : Tot (SegmentTree.takeL (· * ·) data l a)
        (fun q : Nat × T => q.1 = l + l % 2 ∧ q.2 * P D q.1 r = a * P D l r) := by
      unfold SegmentTree.takeL
      split
      next ho =>
        rw [rd_at 1 (by omega), ok_bind, hG l (by omega) (hGl t l ht1 ht2 ho (by omega))]
        exact Tot.pure ⟨by omega, by rw [P_left D hlt, mul_assoc]⟩
      next ho => exact Tot.pure ⟨by omega, rfl⟩
    refine Tot.bind L ?_
    rintro ⟨l', a'⟩ ⟨e1, e2⟩
    dsimp only at e1 e2 ⊢
    have hl' : l' ≤ r := by omega
    have R : Tot (SegmentTree.takeR (· * ·) data r b)
        (fun q : Nat × T => q.1 = r - r % 2 ∧ P D l' q.1 * q.2 = P D l' r * b) := by
      unfold SegmentTree.takeR
      split
      next ho =>
        rw [rd_at 1 (by omega), ok_bind, hG (r - 1) (by omega) (hGr t r ht3 ht4 ho ?_)]
        · refine Tot.pure ⟨by omega, ?_⟩
          dsimp only
          conv_rhs => rw [show r = (r - 1) + 1 by omega, P_right D (by omega : l' ≤ r - 1), mul_assoc]
        · exact ht1.trans (Nat.mul_le_mul_right _ (by omega))
      next ho => exact Tot.pure ⟨by omega, rfl⟩
    refine Tot.bind R ?_
    rintro ⟨r', b'⟩ ⟨e3, e4⟩
    dsimp only at e3 e4 ⊢
    have hle' : l' ≤ r' := by omega
    refine Tot.pure ⟨⟨by dsimp only; omega, by dsimp only; omega, by dsimp only; omega, ?_, t + 1, ?_, ?_, ?_, ?_⟩, by dsimp only; omega⟩
    · dsimp only
      rw [← h4, ← e2, mul_assoc, mul_assoc, ← e4, ← P_double hD (by omega) (by omega) (by omega),
        show 2 * (l' / 2) = l' by omega, show 2 * (r' / 2) = r' by omega]
    · dsimp only
      have : l' / 2 * 2 ^ (t + 1) = l' * 2 ^ t := by
        conv_rhs => rw [show l' = 2 * (l' / 2) by omega]
        ring
      rw [this]
      exact ht1.trans (Nat.mul_le_mul_right _ (by omega))
    · dsimp only
      have : l' / 2 * 2 ^ (t + 1) = l' * 2 ^ t := by
        conv_rhs => rw [show l' = 2 * (l' / 2) by omega]
        ring
      rw [this]
      have : l' * 2 ^ t ≤ (l + 1) * 2 ^ t := Nat.mul_le_mul_right _ (by omega)
      have e : (l + 1) * 2 ^ t = l * 2 ^ t + 2 ^ t := by ring
      have e' : 2 ^ (t + 1) = 2 ^ t + 2 ^ t := by ring
      omega
    · dsimp only
      have : r' / 2 * 2 ^ (t + 1) = r' * 2 ^ t := by
        conv_rhs => rw [show r' = 2 * (r' / 2) by omega]
        ring
      rw [this]
      exact (Nat.mul_le_mul_right _ (by omega)).trans ht3
    · dsimp only
      have : (r' / 2 + 1) * 2 ^ (t + 1) = (r' + 2) * 2 ^ t := by
        conv_rhs => rw [show r' = 2 * (r' / 2) by omega]
        ring
      rw [this]
      exact ht4.trans_le (Nat.mul_le_mul_right _ (by omega))

end SegTree
