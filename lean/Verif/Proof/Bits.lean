import Verif.Model.Bits
import Mathlib.Data.Int.Bitwise
import Mathlib.Tactic.Ring
import Mathlib.Order.Interval.Finset.Nat

namespace Bits

theorem land_odd (m : Nat) : (2 * m + 1) &&& (2 * m) = 2 * m := by
  apply Nat.eq_of_testBit_eq
  intro i
  rw [Nat.testBit_and]
  cases i with
  | zero => simp [Nat.testBit_zero]
  | succ i => rw [Nat.testBit_succ, Nat.testBit_succ]; simp [Nat.mul_add_div]

theorem land_even {m : Nat} (hm : 0 < m) : (2 * m) &&& (2 * m - 1) = 2 * (m &&& (m - 1)) := by
  apply Nat.eq_of_testBit_eq
  intro i
  rw [Nat.testBit_and]
  cases i with
  | zero => simp [Nat.testBit_zero]
  | succ i =>
    rw [Nat.testBit_succ, Nat.testBit_succ, Nat.testBit_succ]
    rw [show (2 * m - 1) / 2 = m - 1 by omega, show 2 * m / 2 = m by omega,
      show 2 * (m &&& (m - 1)) / 2 = (m &&& (m - 1)) by omega, Nat.testBit_and]

@[simp] theorem lowbit_zero : lowbit 0 = 0 := rfl
theorem lowbit_odd (m : Nat) : lowbit (2 * m + 1) = 1 := by
  unfold lowbit; rw [show 2 * m + 1 - 1 = 2 * m by omega, land_odd]; omega
theorem lowbit_even (m : Nat) : lowbit (2 * m) = 2 * lowbit m := by
  unfold lowbit
  rcases Nat.eq_zero_or_pos m with rfl | hm
  · rfl
  · rw [land_even hm]; omega

theorem lowbit_le (i : Nat) : lowbit i ≤ i := by unfold lowbit; omega

theorem lowbit_pos {i : Nat} : 0 < i → 0 < lowbit i := by
  induction i using Nat.strong_induction_on with
  | _ i ih =>
    intro hi
    rcases Nat.even_or_odd' i with ⟨m, rfl | rfl⟩
    · rw [lowbit_even]; have := ih m (by omega) (by omega); omega
    · rw [lowbit_odd]; omega

/-- `lowbit` is the C++ expression `i & -i` on unbounded two's complement integers. -/
theorem lowbit_eq_land (i : Nat) : (lowbit i : Int) = Int.land (i : Int) (-(i : Int)) := by
  cases i with
  | zero => rfl
  | succ k =>
    have h : Int.land ((k + 1 : Nat) : Int) (-((k + 1 : Nat) : Int)) = ((Nat.ldiff (k + 1) k : Nat) : Int) := rfl
    rw [h]
    congr 1
    have key : ∀ k, lowbit (k + 1) = Nat.ldiff (k + 1) k := by
      intro k
      induction k using Nat.strong_induction_on with
      | _ k ih =>
        rcases Nat.even_or_odd' k with ⟨m, rfl | rfl⟩
        · rw [lowbit_odd]
          apply Nat.eq_of_testBit_eq
          intro i
          rw [Nat.testBit_ldiff]
          cases i with
          | zero => simp [Nat.testBit_zero]
          | succ i => rw [Nat.testBit_succ, Nat.testBit_succ, Nat.testBit_succ]; simp [Nat.mul_add_div]
        · rw [show 2 * m + 1 + 1 = 2 * (m + 1) by ring, lowbit_even, ih m (by omega)]
          apply Nat.eq_of_testBit_eq
          intro i
          rw [Nat.testBit_ldiff]
          cases i with
          | zero => simp [Nat.testBit_zero]
          | succ i =>
            rw [Nat.testBit_succ, Nat.testBit_succ, Nat.testBit_succ]
            rw [show 2 * (m + 1) / 2 = m + 1 by omega, show (2 * m + 1) / 2 = m by omega,
              show 2 * (m + 1).ldiff m / 2 = (m + 1).ldiff m by omega, Nat.testBit_ldiff]
    exact key k

/-- Node `j` of a Fenwick tree is responsible for the (1-indexed) position `i`. -/
def Cov (j i : Nat) : Prop := j - lowbit j < i ∧ i ≤ j

theorem cov_self {i : Nat} (hi : 0 < i) : Cov i i := ⟨by have := lowbit_pos hi; have := lowbit_le i; omega, le_rfl⟩

/-- The nodes responsible for `i` are `i` itself and those responsible for `i + (i & -i)`. -/
theorem cov_step {i j : Nat} (hi : 0 < i) : Cov j i ↔ j = i ∨ Cov j (i + lowbit i) := by
  induction i using Nat.strong_induction_on generalizing j with
  | _ i ih =>
    unfold Cov
    rcases Nat.even_or_odd' i with ⟨a, rfl | rfl⟩ <;> rcases Nat.even_or_odd' j with ⟨b, rfl | rfl⟩ <;>
      simp only [lowbit_even, lowbit_odd]
    · have := ih a (by omega) (j := b) (by omega)
      unfold Cov at this
      have hb := lowbit_le b
      constructor
      · intro h
        rcases this.mp ⟨by omega, by omega⟩ with h | h
        · left; omega
        · right; omega
      · rintro (h | h)
        · have := this.mpr (Or.inl (by omega)); omega
        · have := this.mpr (Or.inr ⟨by omega, by omega⟩); omega
    · omega
    · have hb := lowbit_le b
      omega
    · omega

theorem cov_pos {i j : Nat} (h : Cov j i) : 0 < i := by unfold Cov at h; omega

/-- A responsible node other than `i` itself has a unique child responsible for `i`. -/
theorem cov_child {j i : Nat} (h : Cov j i) : i = j ∨ ∃ c, c + lowbit c = j ∧ Cov c i := by
  have : ∀ k i, j - i ≤ k → Cov j i → i = j ∨ ∃ c, c + lowbit c = j ∧ Cov c i := by
    intro k
    induction k with
    | zero => intro i hk h; left; have := h.2; omega
    | succ k ih =>
      intro i hk h
      have hi := cov_pos h
      rcases (cov_step hi).mp h with e | e
      · left; exact e.symm
      · right
        have hlb := lowbit_pos hi
        rcases ih (i + lowbit i) (by omega) e with e' | ⟨c, hc, hc'⟩
        · exact ⟨i, e', cov_self hi⟩
        · exact ⟨c, hc, (cov_step hi).mpr (Or.inr hc')⟩
  exact this _ i le_rfl h

theorem cov_parent {c i : Nat} (h : Cov c i) : Cov (c + lowbit c) i := by
  have : ∀ k i, c - i ≤ k → Cov c i → Cov (c + lowbit c) i := by
    intro k
    induction k with
    | zero =>
      intro i hk h
      have hi := cov_pos h
      have : i = c := by have := h.2; omega
      subst this
      exact (cov_step hi).mpr (Or.inr (cov_self (by omega)))
    | succ k ih =>
      intro i hk h
      have hi := cov_pos h
      have hlb := lowbit_pos hi
      rcases (cov_step hi).mp h with e | e
      · subst e; exact (cov_step hi).mpr (Or.inr (cov_self (by omega)))
      · exact (cov_step hi).mpr (Or.inr (ih _ (by omega) e))
  exact this _ i le_rfl h

theorem cov_chain {c d i : Nat} (h1 : Cov c i) (h2 : Cov d i) (hle : c ≤ d) : Cov d c := by
  have : ∀ k i, c - i ≤ k → Cov c i → Cov d i → Cov d c := by
    intro k
    induction k with
    | zero =>
      intro i hk h1 h2
      have : i = c := by have := h1.2; omega
      subst this; exact h2
    | succ k ih =>
      intro i hk h1 h2
      have hi := cov_pos h1
      have hlb := lowbit_pos hi
      rcases (cov_step hi).mp h1 with e | e
      · subst e; exact h2
      · rcases (cov_step hi).mp h2 with e' | e'
        · subst e'
          have : c = d := by have := h1.2; omega
          subst this; exact cov_self (by omega)
        · exact ih _ (by omega) e e'
  exact this _ i le_rfl h1 h2

theorem cov_child_unique {c d i : Nat} (h1 : Cov c i) (h2 : Cov d i) (e : c + lowbit c = d + lowbit d) : c = d := by
  have hc : 0 < c := by have := cov_pos h1; have := h1.2; omega
  have hd : 0 < d := by have := cov_pos h2; have := h2.2; omega
  rcases Nat.lt_trichotomy c d with h | h | h
  · rcases (cov_step hc).mp (cov_chain h1 h2 h.le) with e' | e'
    · omega
    · have := e'.2; have := lowbit_pos hd; omega
  · exact h
  · rcases (cov_step hd).mp (cov_chain h2 h1 h.le) with e' | e'
    · omega
    · have := e'.2; have := lowbit_pos hc; omega

end Bits
