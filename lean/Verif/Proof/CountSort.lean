import Mathlib.Data.Nat.Count
import Mathlib.Data.Finset.Card
import Mathlib.Order.Interval.Finset.Nat
import Verif.Proof.Triangles

/-! # Ranks in a stable counting sort by a key -/

namespace CountSort

variable (key : Nat → Nat)

/-- Rank of `i` among `0..n-1`: by key, then by number. -/
def rank (n i : Nat) : Nat := Nat.count (fun j => key j < key i) n + Nat.count (fun j => key j = key i) i

theorem count_lt_succ (d n : Nat) : Nat.count (fun i => key i < d + 1) n = Nat.count (fun i => key i < d) n + Nat.count (fun i => key i = d) n := by
  induction n with
  | zero => simp
  | succ n ih =>
    rw [Nat.count_succ, Nat.count_succ, Nat.count_succ, ih]
    split <;> split <;> split <;> omega

theorem count_lt_zero (n : Nat) : Nat.count (fun i => key i < 0) n = 0 := by
  rw [Nat.count_iff_forall_not]
  intro k _
  omega

variable {key} {n : Nat}

theorem count_lt_mono {a b : Nat} (h : a ≤ b) : Nat.count (fun i => key i < a) n ≤ Nat.count (fun i => key i < b) n :=
  Nat.count_mono_left fun _ hk => by omega

theorem rank_eq {i : Nat} (hi : i < n) : rank key n i = Nat.count (fun j => key j < key i ∨ (key j = key i ∧ j < i)) n := by
  unfold rank
  rw [← Triangles.count_restrict _ i n hi.le, Triangles.count_disj]
  intro j h1 h2
  omega

theorem rank_lt_of {i j : Nat} (hi : i < n) (hj : j < n) (h : key i < key j ∨ (key i = key j ∧ i < j)) : rank key n i < rank key n j := by
  rw [rank_eq hi, rank_eq hj, Nat.count_eq_card_filter_range, Nat.count_eq_card_filter_range]
  refine Finset.card_lt_card (Finset.ssubset_iff_subset_ne.2 ⟨fun x hx => ?_, fun he => ?_⟩)
  · simp only [Finset.mem_filter, Finset.mem_range] at hx ⊢
    omega
  · have : i ∈ (Finset.range n).filter fun x => key x < key j ∨ (key x = key j ∧ x < j) := by
      simp only [Finset.mem_filter, Finset.mem_range]; exact ⟨hi, h⟩
    rw [← he] at this
    simp only [Finset.mem_filter, Finset.mem_range] at this
    omega

theorem rank_inj {i j : Nat} (hi : i < n) (hj : j < n) (h : rank key n i = rank key n j) : i = j := by
  by_contra hne
  by_cases h1 : key i < key j ∨ (key i = key j ∧ i < j)
  · have := rank_lt_of hi hj h1; omega
  · have := rank_lt_of (key := key) hj hi (by omega); omega

theorem rank_ge (i : Nat) : Nat.count (fun j => key j < key i) n ≤ rank key n i := Nat.le_add_right _ _

theorem rank_lt_succ {i : Nat} (hi : i < n) : rank key n i < Nat.count (fun j => key j < key i + 1) n := by
  rw [count_lt_succ, rank]
  have := Nat.count_strict_mono (p := fun j => key j = key i) (m := i) (n := n) rfl hi
  omega

theorem rank_lt {i : Nat} (hi : i < n) : rank key n i < n := lt_of_lt_of_le (rank_lt_succ hi) (Nat.count_le _)

/-- Every position of the block of `d` holds a number with key `d`. -/
theorem rank_surj {d q : Nat} (h1 : Nat.count (fun j => key j < d) n ≤ q) (h2 : q < Nat.count (fun j => key j < d + 1) n) : ∃ i, i < n ∧ key i = d ∧ rank key n i = q := by
  have hinj : Set.InjOn (rank key n) (Finset.range n : Set Nat) := fun a ha b hb h => rank_inj (by simpa using ha) (by simpa using hb) h
  have himg : (Finset.range n).image (rank key n) = Finset.range n := by
    refine Finset.eq_of_subset_of_card_le ?_ ?_
    · intro x hx
      rw [Finset.mem_image] at hx
      obtain ⟨i, hi, rfl⟩ := hx
      rw [Finset.mem_range] at hi ⊢
      exact rank_lt hi
    · rw [Finset.card_image_of_injOn hinj]
  have hq : q ∈ Finset.range n := Finset.mem_range.2 (lt_of_lt_of_le h2 (Nat.count_le _))
  rw [← himg, Finset.mem_image] at hq
  obtain ⟨i, hi, hr⟩ := hq
  rw [Finset.mem_range] at hi
  refine ⟨i, hi, ?_, hr⟩
  have h3 := rank_ge (key := key) (n := n) i
  have h4 := rank_lt_succ (key := key) hi
  by_contra hne
  rcases Nat.lt_or_ge (key i) d with h | h
  · have := count_lt_mono (key := key) (n := n) (show key i + 1 ≤ d by omega)
    omega
  · have := count_lt_mono (key := key) (n := n) (show d + 1 ≤ key i by omega)
    omega

end CountSort
