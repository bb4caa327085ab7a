import Verif.Model.MinPlusConvolution
import Verif.Proof.MaxSquare
import Mathlib.Data.Prod.Lex
import Mathlib.Tactic.Linarith

namespace MinPlus
open Cxx

/-- The sequence is convex. -/
def Convex (a : Array Int) : Prop := ∀ i, i + 2 < a.size → at' 0 a (i + 1) - at' 0 a i ≤ at' 0 a (i + 2) - at' 0 a (i + 1)

/-- All entries are far from the limits of `long long`. -/
def Small (a : Array Int) : Prop := ∀ i, -2 ^ 62 ≤ at' 0 a i ∧ at' 0 a i < 2 ^ 62

variable {a b : Array Int}

theorem Convex.step (h : Convex a) {x y : Nat} (hxy : x ≤ y) (hy : y + 1 < a.size) : at' 0 a (x + 1) - at' 0 a x ≤ at' 0 a (y + 1) - at' 0 a y := by
  induction y, hxy using Nat.le_induction with
  | base => exact le_refl _
  | succ y _ ih =>
    have h1 := ih (by omega)
    have h2 := h y (by omega)
    rw [show y + 1 + 1 = y + 2 from rfl]
    omega

theorem Convex.shift (h : Convex a) {x y d : Nat} (hxy : x ≤ y) (hy : y + d < a.size) : at' 0 a (x + d) - at' 0 a x ≤ at' 0 a (y + d) - at' 0 a y := by
  induction d with
  | zero => simp
  | succ d ih =>
    have h1 := ih (by omega)
    have h2 := h.step (x := x + d) (y := y + d) (by omega) (by omega)
    rw [show x + (d + 1) = x + d + 1 from rfl, show y + (d + 1) = y + d + 1 from rfl]
    omega

theorem convex_ok (hs : Small a) (h : Convex a) : convex a = .ok () := by
  unfold convex
  split_ifs with h2
  · have : Tot (forUp 2 a.size () (convexStep a)) fun _ => True := by
      refine Tot.forUp (lo := 2) (hi := a.size) (P := fun _ _ => True) h2 trivial ?_
      rintro i - hi hi' -
      unfold convexStep
      have s0 := hs (i - 2)
      have s1 := hs (i - 1)
      have s2 := hs i
      have hc := h (i - 2) (by omega)
      rw [show i - 2 + 1 = i - 1 by omega, show i - 2 + 2 = i by omega] at hc
      rw [rd_at 0 (by omega), ok_bind, rd_at 0 (by omega), ok_bind, i64_ok (by omega), ok_bind, rd_at 0 (by omega), ok_bind, ok_bind, i64_ok (by omega), ok_bind,
        decide_eq_true hc, check_true]
      exact tot_ok.mpr trivial
    obtain ⟨u, hu, -⟩ := this
    exact hu
  · rfl

theorem forN_err {f : Nat → Unit → M Unit} {e : Err} : ∀ (m lo : Nat), (∀ i, lo ≤ i → i < lo + m → f i () = .ok () ∨ f i () = .error e) →
    (∃ i, lo ≤ i ∧ i < lo + m ∧ f i () = .error e) → forN f m lo () = .error e := by
  intro m
  induction m with
  | zero => rintro lo - ⟨i, h1, h2, -⟩; omega
  | succ m ih =>
    rintro lo h ⟨i, h1, h2, h3⟩
    unfold forN
    rcases h lo (le_refl _) (by omega) with h4 | h4
    · rw [h4, ok_bind]
      refine ih (lo + 1) (fun j a b => h j (by omega) (by omega)) ⟨i, ?_, by omega, h3⟩
      have : i ≠ lo := by rintro rfl; rw [h3] at h4; cases h4
      omega
    · rw [h4, err_bind]

/-- A sequence that is not convex is rejected. -/
theorem convex_assert (hs : Small a) (h : ¬ Convex a) : convex a = .error .assertion := by
  have hc : ∃ i, i + 2 < a.size ∧ ¬ at' 0 a (i + 1) - at' 0 a i ≤ at' 0 a (i + 2) - at' 0 a (i + 1) := by
    by_contra hc
    push Not at hc
    exact h fun i hi => hc i hi
  obtain ⟨i, h1, h2⟩ := hc
  have key : ∀ i, i + 2 < a.size → convexStep a (i + 2) () = check (decide (at' 0 a (i + 1) - at' 0 a i ≤ at' 0 a (i + 2) - at' 0 a (i + 1))) := by
    intro i hi
    have s0 := hs i
    have s1 := hs (i + 1)
    have s2 := hs (i + 2)
    unfold convexStep
    rw [show i + 2 - 1 = i + 1 by omega, show i + 2 - 2 = i by omega]
    rw [rd_at 0 (by omega), ok_bind, rd_at 0 (by omega), ok_bind, i64_ok (by omega), ok_bind, rd_at 0 (by omega), ok_bind, ok_bind, i64_ok (by omega), ok_bind]
  unfold convex
  rw [if_pos (by omega)]
  refine forN_err _ _ ?_ ⟨i + 2, by omega, by omega, ?_⟩
  · intro j j1 j2
    obtain ⟨j, rfl⟩ := Nat.exists_eq_add_of_le' j1
    rw [key j (by omega)]
    cases decide (at' 0 a (j + 1) - at' 0 a j ≤ at' 0 a (j + 2) - at' 0 a (j + 1))
    · exact .inr rfl
    · exact .inl rfl
  · rw [key i h1, decide_eq_false h2]
    rfl

theorem plus_ok (ha : Small a) (hb : Small b) {i j : Nat} (hi : i < a.size) (hj : j < b.size) : plus a b i j = .ok (at' 0 a i + at' 0 b j) := by
  unfold plus
  have s1 := ha i
  have s2 := hb j
  rw [rd_at 0 hi, ok_bind, rd_at 0 hj, ok_bind, i64_ok (by omega)]

/-- `x` is the least `a[i] + b[j]` with `i + j = k`. -/
def Least (a b : Array Int) (k : Nat) (x : Int) : Prop :=
  (∃ i j, i < a.size ∧ j < b.size ∧ i + j = k ∧ x = at' 0 a i + at' 0 b j) ∧ ∀ i j, i < a.size → j < b.size → i + j = k → x ≤ at' 0 a i + at' 0 b j

/-- Neither neighbour is better. -/
def Local (a b : Array Int) (i j : Nat) : Prop :=
  (∀ i', i = i' + 1 → j + 1 < b.size → at' 0 a i - at' 0 a i' ≤ at' 0 b (j + 1) - at' 0 b j) ∧
  (∀ j', j = j' + 1 → i + 1 < a.size → at' 0 b j - at' 0 b j' ≤ at' 0 a (i + 1) - at' 0 a i)

theorem local_half (ha : Convex a) (hb : Convex b) {i j d : Nat} (hi : i + d < a.size) (hj : j + d < b.size)
    (h : ∀ i', i + d = i' + 1 → j + 1 < b.size → at' 0 a (i + d) - at' 0 a i' ≤ at' 0 b (j + 1) - at' 0 b j) :
    ∀ e, e ≤ d → at' 0 a (i + d) - at' 0 a (i + d - e) ≤ at' 0 b (j + e) - at' 0 b j := by
  intro e
  induction e with
  | zero => intro _; simp
  | succ e ih =>
    intro he
    have h1 := ih (by omega)
    have h2 := h (i + d - 1) (by omega) (by omega)
    have h3 := ha.step (x := i + d - (e + 1)) (y := i + d - 1) (by omega) (by omega)
    have h4 := hb.step (x := j) (y := j + e) (by omega) (by omega)
    rw [show i + d - (e + 1) + 1 = i + d - e by omega, show i + d - 1 + 1 = i + d by omega] at h3
    rw [show j + (e + 1) = j + e + 1 from rfl]
    omega

theorem Local.least (ha : Convex a) (hb : Convex b) {i j : Nat} (hi : i < a.size) (hj : j < b.size) (h : Local a b i j) : Least a b (i + j) (at' 0 a i + at' 0 b j) := by
  refine ⟨⟨i, j, hi, hj, rfl, rfl⟩, ?_⟩
  intro x y hx hy e
  rcases le_total x i with h1 | h1
  · obtain ⟨d, rfl⟩ := Nat.exists_eq_add_of_le h1
    obtain rfl : y = j + d := by omega
    have := local_half ha hb hi hy h.1 d (le_refl _)
    rw [show x + d - d = x by omega] at this
    omega
  · obtain ⟨d, rfl⟩ := Nat.exists_eq_add_of_le h1
    obtain rfl : j = y + d := by omega
    have := local_half hb ha hj hx h.2 d (le_refl _)
    rw [show y + d - d = y by omega] at this
    omega

theorem convexConvex_tot (na : a.size ≠ 0) (nb : b.size ≠ 0) (sa : Small a) (sb : Small b) (ha : Convex a) (hb : Convex b) :
    Tot (convexConvex a b) fun c => c.size = a.size + b.size - 1 ∧ ∀ k, k < a.size + b.size - 1 → Least a b k (at' 0 c k) := by
  unfold convexConvex
  have z : 0 < (Array.replicate (a.size + b.size - 1) (0 : Int)).size := by simp; omega
  rw [decide_eq_true (⟨na, nb⟩ : a.size ≠ 0 ∧ b.size ≠ 0), check_true, ok_bind, convex_ok sa ha, ok_bind, convex_ok sb hb, ok_bind, plus_ok sa sb (by omega) (by omega), ok_bind, wr_eq z, ok_bind]
  refine Tot.bind (Tot.forUp (lo := 0) (hi := a.size + b.size - 2) (P := fun k (st : Nat × Array Int) => st.1 ≤ k ∧ st.1 < a.size ∧ k - st.1 < b.size ∧
    Local a b st.1 (k - st.1) ∧ st.2.size = a.size + b.size - 1 ∧ ∀ t, t ≤ k → Least a b t (at' 0 st.2 t)) (by omega) ?_ ?_) ?_
  · refine ⟨le_refl _, by simp; omega, by simp; omega, ?_, by simp, ?_⟩
    · constructor
      · intro i' h; simp at h
      · intro j' h; simp at h
    · intro t ht
      obtain rfl : t = 0 := by omega
      dsimp only
      rw [at_set 0 z, if_pos rfl]
      refine ⟨⟨0, 0, by omega, by omega, rfl, rfl⟩, ?_⟩
      intro i j _ _ e
      obtain ⟨rfl, rfl⟩ : i = 0 ∧ j = 0 := by omega
      exact le_refl _
  · rintro k ⟨i, c⟩ - hk ⟨h1, h2, h3, h4, h5, h6⟩
    dsimp only at h1 h2 h3 h4 h5 h6
    obtain ⟨j, rfl⟩ := Nat.exists_eq_add_of_le h1
    rw [show i + j - i = j by omega] at h3 h4
    have sk : i + j + 1 < c.size := by omega
    unfold mergeStep
    dsimp only
    rw [show i + j - i = j by omega]
    -- the condition
    obtain ⟨l, hl, l1, l2⟩ : ∃ l, goLeft a b i j = .ok l ∧
        (l = true → i + 1 < a.size ∧ (j + 1 < b.size → at' 0 a (i + 1) + at' 0 b j < at' 0 a i + at' 0 b (j + 1))) ∧
        (l = false → j + 1 < b.size ∧ (i + 1 < a.size → at' 0 a i + at' 0 b (j + 1) ≤ at' 0 a (i + 1) + at' 0 b j)) := by
      unfold goLeft
      split_ifs with c1 c2
      · exact ⟨true, rfl, fun _ => ⟨by omega, fun h => by omega⟩, by simp⟩
      · unfold less
        rw [plus_ok sa sb (by omega) (by omega), ok_bind, plus_ok sa sb (by omega) (by omega), ok_bind]
        refine ⟨_, rfl, ?_, ?_⟩
        · intro h
          exact ⟨by omega, fun _ => by simpa using h⟩
        · intro h
          exact ⟨by omega, fun _ => by simpa using h⟩
      · exact ⟨false, rfl, by simp, fun _ => ⟨by omega, fun h => by omega⟩⟩
    rw [hl, ok_bind]
    have fin : ∀ i' j', i' < a.size → j' < b.size → i' + j' = i + j + 1 → Local a b i' j' →
        ∀ t, t ≤ i + j + 1 → Least a b t (at' 0 (c.setIfInBounds (i + j + 1) (at' 0 a i' + at' 0 b j')) t) := by
      intro i' j' q1 q2 q3 q4 t ht
      rw [at_set 0 sk]
      by_cases e : i + j + 1 = t
      · rw [if_pos e, ← e, ← q3]
        exact q4.least ha hb q1 q2
      · rw [if_neg e]
        exact h6 t (by omega)
    cases l with
    | true =>
      obtain ⟨g1, g2⟩ := l1 rfl
      rw [if_pos rfl, plus_ok sa sb g1 h3, ok_bind, wr_eq sk, ok_bind]
      have lo : Local a b (i + 1) j := by
        constructor
        · rintro i' e hj
          obtain rfl : i' = i := by omega
          have := g2 hj
          omega
        · rintro j' e hi
          have := h4.2 j' e g1
          have := ha.step (x := i) (y := i + 1) (by omega) hi
          omega
      refine Tot.pure ⟨by simp, g1, by simpa [show i + j + 1 - (i + 1) = j by omega] using h3, ?_, by simpa using h5, fin (i + 1) j g1 h3 (by omega) lo⟩
      dsimp only
      rw [show i + j + 1 - (i + 1) = j by omega]
      exact lo
    | false =>
      obtain ⟨g1, g2⟩ := l2 rfl
      rw [if_neg (by simp), plus_ok sa sb h2 g1, ok_bind, wr_eq sk, ok_bind]
      have lo : Local a b i (j + 1) := by
        constructor
        · rintro i' e hj
          have := h4.1 i' e g1
          have := hb.step (x := j) (y := j + 1) (by omega) hj
          omega
        · rintro j' e hi
          obtain rfl : j' = j := by omega
          have := g2 hi
          omega
      refine Tot.pure ⟨by dsimp only; omega, h2, by dsimp only; omega, ?_, by simpa using h5, fin i (j + 1) h2 g1 (by omega) lo⟩
      dsimp only
      rw [show i + j + 1 - i = j + 1 by omega]
      exact lo
  · rintro ⟨i, c⟩ ⟨-, -, -, -, h5, h6⟩
    exact Tot.pure ⟨h5, fun k hk => h6 k (by omega)⟩

/-! ### The convex-arbitrary version -/

/-- The matrix behind the comparison. -/
def mat (a b : Array Int) (k j : Nat) : ℕ ×ₗ (ℤ ×ₗ ℤ) :=
  if k < j then toLex (2, toLex (0, 0))
  else if a.size ≤ k - j then toLex (1, toLex (0, -(j : Int)))
  else toLex (0, toLex (at' 0 a (k - j) + at' 0 b j, -(j : Int)))

theorem compare_ok (sa : Small a) (sb : Small b) {k j1 j2 : Nat} (h12 : j1 < j2) (h2 : j2 < b.size) :
    compare a b k j1 j2 = .ok (decide (mat a b k j1 ≤ mat a b k j2)) := by
  unfold compare mat
  dsimp only
  by_cases c1 : k < j2
  · rw [if_pos (by omega), if_pos c1]
    have : (if k < j1 then toLex (2, toLex (0, 0)) else if a.size ≤ k - j1 then toLex (1, toLex (0, -(j1 : Int))) else
        toLex (0, toLex (at' 0 a (k - j1) + at' 0 b j1, -(j1 : Int))) : ℕ ×ₗ (ℤ ×ₗ ℤ)) ≤ toLex (2, toLex (0, 0)) := by
      split_ifs
      · exact le_refl _
      · simp [Prod.Lex.toLex_le_toLex]
      · simp [Prod.Lex.toLex_le_toLex]
    rw [decide_eq_true this]
    rfl
  · rw [if_neg (by omega), if_neg c1, if_neg (show ¬ k < j1 by omega)]
    by_cases c2 : a.size ≤ k - j1
    · rw [if_pos (by omega), if_pos c2]
      have : ¬ ((toLex (1, toLex (0, -(j1 : Int))) : ℕ ×ₗ (ℤ ×ₗ ℤ)) ≤ if a.size ≤ k - j2 then toLex (1, toLex (0, -(j2 : Int))) else
          toLex (0, toLex (at' 0 a (k - j2) + at' 0 b j2, -(j2 : Int)))) := by
        split_ifs
        · simp [Prod.Lex.toLex_le_toLex]; omega
        · simp [Prod.Lex.toLex_le_toLex]
      rw [decide_eq_false this]
      rfl
    · rw [if_neg (by omega), if_neg c2, if_neg (show ¬ a.size ≤ k - j2 by omega)]
      rw [show ((k : Int) - j1).toNat = k - j1 by omega, show ((k : Int) - j2).toNat = k - j2 by omega]
      rw [plus_ok sa sb (by omega) (by omega), ok_bind, plus_ok sa sb (by omega) (by omega), ok_bind]
      show Except.ok _ = Except.ok _
      congr 1
      rw [decide_eq_decide]
      simp only [Prod.Lex.toLex_le_toLex]
      simp
      omega

/-- What the row minima look like: the last column with the least sum. -/
theorem firstMin_iff {k j : Nat} (na : a.size ≠ 0) (hk : k < a.size + b.size - 1) (h : MonotoneMinima.FirstMin (mat a b) b.size k j) :
    j < b.size ∧ j ≤ k ∧ k - j < a.size ∧ ∀ j', j' < b.size → j' ≤ k → k - j' < a.size →
      at' 0 a (k - j) + at' 0 b j ≤ at' 0 a (k - j') + at' 0 b j' ∧ (j < j' → at' 0 a (k - j) + at' 0 b j < at' 0 a (k - j') + at' 0 b j') := by
  obtain ⟨h1, h2, -⟩ := h
  -- a valid column
  obtain ⟨t, t1, t2, t3⟩ : ∃ t, t < b.size ∧ t ≤ k ∧ k - t < a.size := by
    by_cases c : k < b.size
    · exact ⟨k, c, le_refl _, by omega⟩
    · exact ⟨b.size - 1, by omega, by omega, by omega⟩
  have h3 := h2 t t1
  unfold mat at h3
  rw [if_neg (show ¬ k < t by omega), if_neg (show ¬ a.size ≤ k - t by omega)] at h3
  by_cases c1 : k < j
  · rw [if_pos c1] at h3
    simp [Prod.Lex.toLex_le_toLex] at h3
  rw [if_neg c1] at h3
  by_cases c2 : a.size ≤ k - j
  · rw [if_pos c2] at h3
    simp [Prod.Lex.toLex_le_toLex] at h3
  refine ⟨h1, by omega, by omega, ?_⟩
  intro j' g1 g2 g3
  have h4 := h2 j' g1
  unfold mat at h4
  rw [if_neg (show ¬ k < j' by omega), if_neg (show ¬ a.size ≤ k - j' by omega), if_neg c1, if_neg c2] at h4
  simp only [Prod.Lex.toLex_le_toLex] at h4
  simp at h4
  omega

theorem mat_mono (na : a.size ≠ 0) (ha : Convex a) : ∀ k k' j j', k < k' → k' < a.size + b.size - 1 → MonotoneMinima.FirstMin (mat a b) b.size k j →
    MonotoneMinima.FirstMin (mat a b) b.size k' j' → j ≤ j' := by
  intro k k' j j' hk hk' h h'
  obtain ⟨h1, h2, h3, h4⟩ := firstMin_iff na (by omega) h
  obtain ⟨g1, g2, g3, g4⟩ := firstMin_iff na hk' h'
  by_contra hc
  have e1 := (h4 j' g1 (by omega) (by omega)).1
  have e2 := (g4 j h1 (by omega) (by omega)).2 (by omega)
  have e3 := ha.shift (x := k - j) (y := k' - j) (d := j - j') (by omega) (by omega)
  rw [show k - j + (j - j') = k - j' by omega, show k' - j + (j - j') = k' - j' by omega] at e3
  omega

theorem convexArbitrary_tot (na : a.size ≠ 0) (nb : b.size ≠ 0) (sa : Small a) (sb : Small b) (ha : Convex a) :
    Tot (convexArbitrary a b) fun c => c.size = a.size + b.size - 1 ∧ ∀ k, k < a.size + b.size - 1 → Least a b k (at' 0 c k) := by
  unfold convexArbitrary
  rw [decide_eq_true (⟨na, nb⟩ : a.size ≠ 0 ∧ b.size ≠ 0), check_true, ok_bind, convex_ok sa ha, ok_bind]
  refine Tot.bind (MonotoneMinima.run_tot (A := mat a b) (.inr (by omega)) (fun k j1 j2 _ h1 h2 => compare_ok sa sb h1 h2) (mat_mono na ha)) ?_
  rintro r ⟨r1, r2⟩
  refine (Tot.forUp (lo := 0) (hi := a.size + b.size - 1) (P := fun k (c : Array Int) => c.size = a.size + b.size - 1 ∧ ∀ t, t < k → Least a b t (at' 0 c t))
    (by omega) ⟨by simp, by omega⟩ ?_)
  rintro k c - hk ⟨h1, h2⟩
  obtain ⟨j, hj, hm⟩ := r2 k hk
  obtain ⟨g1, g2, g3, g4⟩ := firstMin_iff na hk hm
  have sk : k < c.size := by omega
  unfold fillStep
  rw [rd_some hj, ok_bind]
  rw [if_neg (by omega), show ((k : Int) - j).toNat = k - j by omega, Int.toNat_natCast, plus_ok sa sb g3 g1, ok_bind, wr_eq sk]
  refine tot_ok.mpr ⟨by simpa using h1, ?_⟩
  intro t ht
  rw [at_set 0 sk]
  by_cases e : k = t
  · rw [if_pos e, ← e]
    refine ⟨⟨k - j, j, g3, g1, by omega, rfl⟩, ?_⟩
    intro x y hx hy hxy
    have := (g4 y hy (by omega) (by omega)).1
    rw [show k - y = x by omega] at this
    exact this
  · rw [if_neg e]
    exact h2 t (by omega)

end MinPlus
