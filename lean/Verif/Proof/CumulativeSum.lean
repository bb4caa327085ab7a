import Verif.Model.Util
import Mathlib.Algebra.BigOperators.Intervals
import Mathlib.Algebra.BigOperators.Group.List.Basic
import Mathlib.Data.Int.ModEq
import Mathlib.Data.Nat.ModEq
import Mathlib.Tactic.Abel
import Mathlib.Tactic.Common

/-! # Lemmas on cumulative sums -/

namespace CumulativeSum
open Cxx
variable {α : Type} [AddCommGroup α]

/-- The state holds the prefix sums of `xs`. -/
def Rep (c : State α) (xs : List α) : Prop :=
  c.n = some xs.length ∧ c.s.size = xs.length + 1 ∧ ∀ i, i ≤ xs.length → c.s[i]? = some (xs.take i).sum

theorem ofVector_tot (a : Array α) : Tot (ofVector 0 (· + ·) a) fun c => Rep c a.toList := by
  rw [ofVector]
  refine Tot.bind (P := fun (s : Array α) => s.size = a.size + 1 ∧ ∀ i, i ≤ a.size → s[i]? = some (a.toList.take i).sum) ?_ ?_
  · refine (Tot.forUp (P := fun k (s : Array α) => s.size = a.size + 1 ∧ ∀ i, i ≤ k → s[i]? = some (a.toList.take i).sum)
      (Nat.zero_le _) ?_ ?_)
    · refine ⟨by simp, ?_⟩
      intro i hi
      have : i = 0 := by omega
      subst this
      simp
    · rintro k s _ hk ⟨h1, h2⟩
      rw [buildStep, rd_eq hk, ok_bind, rd_some (h2 k (Nat.le_refl _)), ok_bind]
      refine Tot.wr (by omega) ⟨by simpa using h1, ?_⟩
      intro i hi
      rw [Array.getElem?_setIfInBounds]
      split
      · rename_i h
        subst h
        rw [if_pos (by omega), List.take_succ, Array.getElem?_toList, Array.getElem?_eq_getElem hk]
        simp [add_comm]
      · exact h2 i (by omega)
  · rintro s ⟨h1, h2⟩
    exact Tot.pure ⟨by simp, by simpa using h1, by simpa using h2⟩

theorem push_tot (c : State α) (xs : List α) (h : Rep c xs) (v : α) :
    Tot (pushBack 0 (· + ·) c v) fun c => Rep c (xs ++ [v]) := by
  obtain ⟨h1, h2, h3⟩ := h
  rw [pushBack]
  rw [if_neg (by omega), h2, Nat.add_sub_cancel, rd_some (h3 _ (Nat.le_refl _)), ok_bind, getN, h1]
  refine Tot.pure ⟨by simp, by simp [h2], ?_⟩
  intro i hi
  dsimp only
  rw [List.length_append, List.length_singleton] at hi
  rw [Array.getElem?_push, h2]
  split
  · rename_i he
    subst he
    rw [List.take_of_length_le (by simp)]
    simp
  · rw [h3 i (by omega), List.take_append_of_le_length (by omega)]

theorem push_empty_tot (v : α) : Tot (pushBack 0 (· + ·) valueInit v) fun c => Rep c [v] := by
  have h : pushBack 0 (· + ·) valueInit v = .ok ⟨some 1, #[0, 0 + v]⟩ := rfl
  refine Tot.of_eq h ⟨rfl, rfl, ?_⟩
  intro i hi
  rcases i with _ | _ | i
  · rfl
  · simp
  · simp at hi

theorem sum_tot (c : State α) (xs : List α) (h : Rep c xs) (l r : Nat) (hl : l ≤ r) (hr : r ≤ xs.length) :
    sum (· - ·) c l r = .ok ((xs.take r).drop l).sum := by
  obtain ⟨h1, h2, h3⟩ := h
  rw [sum, getN, h1, ok_bind, decide_eq_true (show l ≤ r ∧ r ≤ xs.length from ⟨hl, hr⟩), check_true, ok_bind, rd_some (h3 r hr), ok_bind,
    rd_some (h3 l (by omega)), ok_bind]
  show Except.ok _ = _
  congr 1
  have : xs.take r = xs.take l ++ (xs.take r).drop l := by
    conv_lhs => rw [← List.take_append_drop l (xs.take r)]
    rw [List.take_take, Nat.min_eq_left hl]
  have e := congrArg List.sum this
  rw [List.sum_append] at e
  rw [e]
  exact add_sub_cancel_left _ _

end CumulativeSum

namespace CumulativeSum2D
open Cxx
variable {α : Type}

/-- Cell `(x, y)`, if there is one. -/
def get2 (s : Array (Array α)) (x y : Nat) : Option α := s[x]?.bind (·[y]?)

theorem rd2_some {s : Array (Array α)} {x y : Nat} {v : α} (h : get2 s x y = some v) : rd2 s x y = .ok v := by
  rw [get2, Option.bind_eq_some_iff] at h
  obtain ⟨r, h1, h2⟩ := h
  rw [rd2, rd_some h1, ok_bind, rd_some h2]

theorem wr2_tot {s : Array (Array α)} {i j : Nat} {u : α} (h : get2 s i j = some u) (v : α) :
    Tot (wr2 s i j v) fun s' => ∀ x y, get2 s' x y = if x = i ∧ y = j then some v else get2 s x y := by
  rw [get2, Option.bind_eq_some_iff] at h
  obtain ⟨r, h1, h2⟩ := h
  have hj := (Array.getElem?_eq_some_iff.1 h2).1
  have hi := (Array.getElem?_eq_some_iff.1 h1).1
  rw [wr2, rd_some h1, ok_bind, wr_eq hj, ok_bind]
  refine Tot.wr hi ?_
  intro x y
  rw [get2, get2, get?_set _ _ _ _ hi]
  by_cases hx : x = i
  · subst hx
    rw [if_pos rfl, h1]
    simp only [Option.bind_some]
    rw [get?_set _ _ _ _ hj]
    by_cases hy : y = j
    · subst hy; simp
    · rw [if_neg (fun h => hy h.symm), if_neg (fun h => hy h.2)]
  · rw [if_neg (fun h => hx h.symm), if_neg (fun h => hx h.1)]

variable [AddCommGroup α]

/-- Sum of the cells above and to the left. -/
def S (A : Nat → Nat → α) (x y : Nat) : α := ∑ i ∈ Finset.range x, ∑ j ∈ Finset.range y, A i j

theorem S_step (A : Nat → Nat → α) (x y : Nat) : S A (x + 1) (y + 1) = A x y + S A (x + 1) y + S A x (y + 1) - S A x y := by
  simp only [S, Finset.sum_range_succ, Finset.sum_add_distrib]
  abel

theorem S_zero (A : Nat → Nat → α) (x : Nat) : S A x 0 = 0 := by simp [S]
theorem zero_S (A : Nat → Nat → α) (y : Nat) : S A 0 y = 0 := by simp [S]

/-- Cells that are already right. -/
def Part (A : Nat → Nat → α) (n m i j : Nat) (s : Array (Array α)) : Prop :=
  ∀ x ≤ n, ∀ y ≤ m, ∃ v, get2 s x y = some v ∧ (x ≤ i ∨ (x = i + 1 ∧ y ≤ j) ∨ y = 0 → v = S A x y)

theorem cell_tot (a : Array (Array α)) (A : Nat → Nat → α) (n m i j : Nat) (s : Array (Array α)) (hi : i < n) (hj : j < m)
    (ha : get2 a i j = some (A i j)) (h : Part A n m i j s) :
    Tot (cellStep (· + ·) (· - ·) a i j s) (Part A n m i (j + 1)) := by
  obtain ⟨v1, e1, f1⟩ := h (i + 1) (by omega) j (by omega)
  obtain ⟨v2, e2, f2⟩ := h i (by omega) (j + 1) (by omega)
  obtain ⟨v3, e3, f3⟩ := h i (by omega) j (by omega)
  obtain ⟨v4, e4, -⟩ := h (i + 1) (by omega) (j + 1) (by omega)
  rw [f1 (Or.inr (Or.inl ⟨rfl, Nat.le_refl _⟩))] at e1
  rw [f2 (Or.inl (Nat.le_refl _))] at e2
  rw [f3 (Or.inl (Nat.le_refl _))] at e3
  rw [cellStep, rd2_some ha, ok_bind, rd2_some e1, ok_bind, rd2_some e2, ok_bind, rd2_some e3, ok_bind]
  refine (wr2_tot e4 _).mono fun s' hs' => ?_
  intro x hx y hy
  rw [hs' x y]
  split
  · rename_i hxy
    obtain ⟨rfl, rfl⟩ := hxy
    exact ⟨_, rfl, fun _ => (S_step A i j).symm⟩
  · rename_i hxy
    obtain ⟨v, e, f⟩ := h x hx y hy
    refine ⟨v, e, fun hc => f ?_⟩
    omega

theorem ofGrid_tot (a : Array (Array α)) (A : Nat → Nat → α) (m : Nat) (h0 : ∀ r, a[0]? = some r → r.size = m) (hm : a.size = 0 → m = 0)
    (ha : ∀ i < a.size, ∀ j < m, get2 a i j = some (A i j)) :
    Tot (ofGrid 0 (· + ·) (· - ·) a) fun c => c.n = a.size ∧ c.m = m ∧ ∀ x ≤ a.size, ∀ y ≤ m, get2 c.s x y = some (S A x y) := by
  have hmm : width a = m := by
    rw [width]
    split
    · rename_i r hr; exact h0 r hr
    · rename_i hr
      rw [Array.getElem?_eq_none_iff] at hr
      exact (hm (by omega)).symm
  rw [ofGrid, hmm]
  refine Tot.bind (P := Part A a.size m a.size 0) ?_ ?_
  · refine Tot.forUp (P := fun i s => Part A a.size m i 0 s) (Nat.zero_le _) ?_ ?_
    · intro x hx y hy
      refine ⟨0, ?_, ?_⟩
      · rw [get2, Array.getElem?_replicate, if_pos (by omega), Option.bind_some, Array.getElem?_replicate, if_pos (by omega)]
      · intro h
        have : x = 0 ∨ y = 0 := by omega
        rcases this with rfl | rfl
        · rw [zero_S]
        · rw [S_zero]
    · intro i s _ hi h
      refine (Tot.forUp (P := fun j s => Part A a.size m i j s) (Nat.zero_le _) h ?_).mono ?_
      · intro j s _ hj h
        exact cell_tot a A a.size m i j s hi hj (ha i hi j hj) h
      · intro s h x hx y hy
        obtain ⟨v, e, f⟩ := h x hx y hy
        refine ⟨v, e, fun hc => f ?_⟩
        omega
  · intro s h
    refine Tot.pure ⟨rfl, rfl, ?_⟩
    intro x hx y hy
    obtain ⟨v, e, f⟩ := h x hx y hy
    rw [e, f (Or.inl hx)]

theorem S_rect (A : Nat → Nat → α) {u d l r : Nat} (hu : u ≤ d) (hl : l ≤ r) :
    S A d r + S A u l - (S A u r + S A d l) = ∑ i ∈ Finset.Ico u d, ∑ j ∈ Finset.Ico l r, A i j := by
  have h1 : ∀ f : Nat → α, ∑ i ∈ Finset.Ico u d, f i = ∑ i ∈ Finset.range d, f i - ∑ i ∈ Finset.range u, f i :=
    fun f => Finset.sum_Ico_eq_sub f hu
  have h2 : ∀ f : Nat → α, ∑ i ∈ Finset.Ico l r, f i = ∑ i ∈ Finset.range r, f i - ∑ i ∈ Finset.range l, f i :=
    fun f => Finset.sum_Ico_eq_sub f hl
  rw [h1]
  simp only [h2, Finset.sum_sub_distrib, S]
  abel

end CumulativeSum2D

namespace StepSum
open Cxx
variable {α : Type} [AddCommGroup α]

/-- Sum of the entries of class `k` below `m`. -/
def U (A : Nat → α) (step k m : Nat) : α := ∑ j ∈ Finset.range m, if j % step = k then A j else 0

theorem U_succ (A : Nat → α) (step k m : Nat) : U A step k (m + 1) = U A step k m + if m % step = k then A m else 0 := by
  rw [U, U, Finset.sum_range_succ]

/-- No entry of the class in between. -/
theorem U_gap (A : Nat → α) (step k : Nat) {m m' : Nat} (hm : m ≤ m') (h : ∀ j, m ≤ j → j < m' → j % step ≠ k) :
    U A step k m' = U A step k m := by
  induction m', hm using Nat.le_induction with
  | base => rfl
  | succ m' hm ih =>
    rw [U_succ, ih fun j h1 h2 => h j h1 (by omega), if_neg (h m' hm (by omega)), add_zero]

theorem U_prev (A : Nat → α) (step i : Nat) (hs : 0 < step) (hi : step ≤ i) :
    U A step (i % step) (i + 1) = A i + U A step ((i - step) % step) (i - step + 1) := by
  have e : (i - step) % step = i % step := by
    rw [← Nat.mod_eq_sub_mod hi]
  rw [U_succ, if_pos rfl, e, add_comm]
  congr 1
  refine U_gap A step _ (by omega) ?_
  intro j h1 h2 h3
  have hd : i % step = j % step := h3.symm
  have := (Nat.modEq_iff_dvd' (by omega : j ≤ i)).1 (show j ≡ i [MOD step] from h3)
  have := Nat.le_of_dvd (by omega) this
  omega

theorem U_first (A : Nat → α) (step i : Nat) (hi : i < step) : U A step (i % step) (i + 1) = A i := by
  rw [U_succ, if_pos rfl, U_gap A step _ (Nat.zero_le i)]
  · simp [U]
  · intro j _ h h2
    rw [Nat.mod_eq_of_lt hi, Nat.mod_eq_of_lt (by omega)] at h2
    omega

theorem build_tot (a : Array α) (A : Nat → α) (hA : ∀ i < a.size, a[i]? = some (A i)) (step : Nat) (hs : 0 < step) :
    Tot (build (· + ·) a step) fun c => c.step = step ∧ c.s.size = a.size ∧
      ∀ i < a.size, c.s[i]? = some (U A step (i % step) (i + 1)) := by
  rw [build, if_neg (by omega)]
  refine Tot.bind (P := fun (s : Array α) => s.size = a.size ∧ ∀ i < a.size, s[i]? = some (U A step (i % step) (i + 1))) ?_ ?_
  · rw [prefixes]
    split
    · rename_i hle
      refine (Tot.forUp (P := fun k (s : Array α) => s.size = a.size ∧ (∀ i < k, s[i]? = some (U A step (i % step) (i + 1))) ∧
        ∀ i, k ≤ i → i < a.size → s[i]? = some (A i)) hle ⟨rfl, ?_, fun i _ hi => hA i hi⟩ ?_).mono fun s h => ⟨h.1, h.2.1⟩
      · intro i hi
        rw [U_first A step i hi]
        exact hA i (by omega)
      · rintro k s hk1 hk ⟨h1, h2, h3⟩
        rw [buildStep, rd_some (h3 k (Nat.le_refl _) hk), ok_bind, rd_some (h2 (k - step) (by omega)), ok_bind]
        refine Tot.wr (by omega) ⟨by simpa using h1, ?_, ?_⟩
        · intro i hi
          rw [get?_set _ _ _ _ (by omega)]
          split
          · rename_i he
            subst he
            rw [U_prev A step k hs hk1]
          · exact h2 i (by omega)
        · intro i hi hi2
          rw [get?_set _ _ _ _ (by omega), if_neg (by omega)]
          exact h3 i (by omega) hi2
    · rename_i hle
      refine Tot.pure ⟨rfl, fun i hi => ?_⟩
      rw [U_first A step i (by omega)]
      exact hA i hi
  · rintro s ⟨h1, h2⟩
    exact Tot.pure ⟨rfl, h1, h2⟩

/-- The last index of class `k` below `m`. -/
theorem last_index (A : Nat → α) (step k m : Nat) (hs : 0 < step) (hk : k < step) (hm : k < m) :
    (m - 1 - k) / step * step + k < m ∧ ((m - 1 - k) / step * step + k) % step = k ∧
    U A step k ((m - 1 - k) / step * step + k + 1) = U A step k m := by
  have h1 := Nat.div_add_mod (m - 1 - k) step
  have h2 := Nat.mod_lt (m - 1 - k) hs
  rw [Nat.mul_comm] at h1
  obtain ⟨t, ht⟩ : ∃ t, t = (m - 1 - k) / step * step := ⟨_, rfl⟩
  have h3 : (t + k) % step = k := by
    rw [ht, Nat.add_comm, Nat.add_mul_mod_self_right, Nat.mod_eq_of_lt hk]
  rw [← ht] at h1 ⊢
  refine ⟨by omega, h3, ?_⟩
  symm
  refine U_gap A step k (by omega) ?_
  intro j g1 g2 g3
  have := (Nat.modEq_iff_dvd' (by omega : t + k ≤ j)).1 (show t + k ≡ j [MOD step] from h3.trans g3.symm)
  have := Nat.le_of_dvd (by omega) this
  omega

theorem sum_tot (c : State α) (A : Nat → α) (n step : Nat) (hs : 0 < step) (h1 : c.step = step) (h2 : c.s.size = n)
    (h3 : ∀ i < n, c.s[i]? = some (U A step (i % step) (i + 1))) (k l r : Nat) (hk : k < step) (hkn : k < n ∨ r ≤ k ∨ r ≤ l ∨ n ≤ l) :
    sum 0 (· - ·) c k l r = .ok (∑ i ∈ Finset.Ico l (min r n), if i % step = k then A i else 0) := by
  rw [sum, h2]
  by_cases hc : r ≤ k ∨ r ≤ l ∨ l ≥ n
  · rw [if_pos hc]
    show Except.ok _ = _
    congr 1
    symm
    refine Finset.sum_eq_zero fun i hi => ?_
    rw [Finset.mem_Ico] at hi
    rw [if_neg]
    intro he
    have := Nat.mod_le i step
    omega
  · rw [if_neg hc]
    have hkn : k < n := by omega
    rw [if_neg (by omega), h1]
    obtain ⟨g1, g2, g3⟩ := last_index A step k (min n r) hs hk (by omega)
    have e1 := h3 _ (by omega : (min n r - 1 - k) / step * step + k < n)
    rw [g2, g3] at e1
    rw [rd_some e1, ok_bind, subPart, h1, Nat.min_comm r n]
    have key : ∑ i ∈ Finset.Ico l (min n r), (if i % step = k then A i else 0) = U A step k (min n r) - U A step k l := by
      rw [Finset.sum_Ico_eq_sub _ (by omega)]
      rfl
    rw [key]
    by_cases hl : l > k
    · rw [if_pos hl]
      obtain ⟨g1, g2, g3⟩ := last_index A step k l hs hk hl
      have e1 := h3 _ (by omega : (l - 1 - k) / step * step + k < n)
      rw [g2, g3] at e1
      rw [rd_some e1, ok_bind]
      rfl
    · rw [if_neg hl]
      show Except.ok _ = _
      rw [U_gap A step k (Nat.zero_le l)]
      · simp [U]
      · intro j _ hj h
        have := Nat.mod_le j step
        omega

end StepSum
