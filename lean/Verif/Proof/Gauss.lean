import Verif.Model.Gauss
import Verif.Proof.GraphBasic
import Mathlib.Algebra.BigOperators.Ring.Finset
import Mathlib.Algebra.BigOperators.Field
import Mathlib.Tactic.Ring
import Mathlib.Tactic.FieldSimp

/-! # Proofs for `GaussianElimination` -/

namespace Gauss
open Cxx

variable {F : Type} [Field F] [DecidableEq F]

/-- The operations of the field. -/
abbrev o (F : Type) [Field F] : Ops F := Ops.field F

theorem ozero : (o F).zero = 0 := rfl

/-- Entry `(r, c)`. -/
def ent (Ab : Array (Array F)) (r c : Nat) : F := at' 0 (at' #[] Ab r) c

/-- `n` rows with `m + 1` entries. -/
def Shape (n m : Nat) (Ab : Array (Array F)) : Prop := Ab.size = n ∧ ∀ r < n, (at' #[] Ab r).size = m + 1

/-- `x` solves the augmented system. -/
def Sol (n m : Nat) (e : Nat → Nat → F) (x : Nat → F) : Prop := ∀ r < n, ∑ c ∈ Finset.range m, e r c * x c = e r m

theorem findNonzero_tot {v : Array F} {len : Nat} (hl : len ≤ v.size) (k col : Nat) (hk : len ≤ col + k) (hc : col ≤ len) :
    Tot (findNonzero (o F) v len k col) fun c => col ≤ c ∧ c ≤ len ∧ (∀ t, col ≤ t → t < c → at' 0 v t = 0) ∧ (c < len → at' 0 v c ≠ 0) := by
  induction k generalizing col with
  | zero =>
    rw [findNonzero]
    exact Tot.pure ⟨le_refl _, hc, fun t h1 h2 => by omega, fun h => by omega⟩
  | succ k ih =>
    rw [findNonzero]
    by_cases h : col < len
    · rw [if_pos h, rd_at 0 (by omega), ok_bind, ozero]
      by_cases hz : at' 0 v col = 0
      · rw [if_pos hz]
        refine (ih (col + 1) (by omega) (by omega)).mono ?_
        rintro c ⟨h1, h2, h3, h4⟩
        refine ⟨by omega, h2, fun t k1 k2 => ?_, h4⟩
        by_cases e : t = col
        · rw [e]; exact hz
        · exact h3 t (by omega) k2
      · rw [if_neg hz]
        exact Tot.pure ⟨le_refl _, hc, fun t h1 h2 => by omega, fun _ => hz⟩
    · rw [if_neg h]
      exact Tot.pure ⟨le_refl _, hc, fun t h1 h2 => by omega, fun h' => by omega⟩

/-- The result of `pivoting`. -/
def Pivot (n m i : Nat) (e : Nat → Nat → F) (p : Nat × Nat) : Prop :=
  (p.2 = n ∧ p.1 = m ∨ i ≤ p.2 ∧ p.2 < n ∧ p.1 < m ∧ e p.2 p.1 ≠ 0) ∧ ∀ r, i ≤ r → r < n → ∀ c < p.1, e r c = 0

theorem pivoting_tot {n m i : Nat} {Ab : Array (Array F)} (hs : Shape n m Ab) (hi : i ≤ n) : Tot (pivoting (o F) Ab m i) (Pivot n m i (ent Ab)) := by
  rw [pivoting, hs.1]
  refine Tot.mono (P := fun (p : Nat × Nat) => (p.2 = n ∧ p.1 = m ∨ i ≤ p.2 ∧ p.2 < n ∧ p.1 < m ∧ ent Ab p.2 p.1 ≠ 0) ∧ ∀ r, i ≤ r → r < n → ∀ c < p.1, ent Ab r c = 0) ?_ (fun p h => h)
  refine Tot.forUp (P := fun k (p : Nat × Nat) => (p.2 = n ∧ p.1 = m ∨ i ≤ p.2 ∧ p.2 < n ∧ p.1 < m ∧ ent Ab p.2 p.1 ≠ 0) ∧ ∀ r, i ≤ r → r < k → ∀ c < p.1, ent Ab r c = 0) hi ?_ ?_
  · exact ⟨Or.inl ⟨rfl, rfl⟩, fun r h1 h2 => by omega⟩
  · rintro row ⟨mse, pv⟩ h1 h2 ⟨h3, h4⟩
    dsimp only at h3 h4
    have hm : mse ≤ m := by rcases h3 with h | h <;> omega
    rw [pivotStep, rd_at #[] (by have := hs.1; omega), ok_bind]
    refine Tot.bind (findNonzero_tot (by have := hs.2 row h2; dsimp only; omega) mse 0 (by omega) (Nat.zero_le _)) ?_
    rintro c ⟨-, k2, k3, k4⟩
    dsimp only at k2 k3 k4 ⊢
    refine Tot.pure ?_
    by_cases hc : c < mse
    · rw [if_pos hc]
      refine ⟨Or.inr ⟨h1, h2, by dsimp only; omega, k4 hc⟩, fun r q1 q2 t ht => ?_⟩
      dsimp only at ht
      by_cases e : r = row
      · rw [e]
        exact k3 t (Nat.zero_le _) ht
      · exact h4 r q1 (by omega) t (by omega)
    · rw [if_neg hc]
      refine ⟨h3, fun r q1 q2 t ht => ?_⟩
      dsimp only at ht
      by_cases e : r = row
      · rw [e]
        exact k3 t (Nat.zero_le _) (by omega)
      · exact h4 r q1 (by omega) t (by omega)

theorem axpy_tot {coef : F} {u v : Array F} {mse m : Nat} (hu : u.size = m + 1) (hv : v.size = m + 1) (hm : mse ≤ m) :
    Tot (axpy (o F) coef u mse m v) fun v' => v'.size = m + 1 ∧ ∀ c, at' 0 v' c = at' 0 v c + if mse ≤ c then coef * at' 0 u c else 0 := by
  rw [axpy]
  refine Tot.mono (P := fun (v' : Array F) => v'.size = m + 1 ∧ ∀ c, at' 0 v' c = at' 0 v c + if mse ≤ c ∧ c < m + 1 then coef * at' 0 u c else 0) ?_ ?_
  · refine Tot.forUp (P := fun k (v' : Array F) => v'.size = m + 1 ∧ ∀ c, at' 0 v' c = at' 0 v c + if mse ≤ c ∧ c < k then coef * at' 0 u c else 0) (by omega) ?_ ?_
    · exact ⟨hv, fun c => by rw [if_neg (by omega), add_zero]⟩
    · rintro col v' h1 h2 ⟨h3, h4⟩
      rw [rd_at 0 (by omega), ok_bind, rd_at 0 (by omega), ok_bind, wr_eq (by omega)]
      refine Tot.pure ⟨by simpa using h3, fun c => ?_⟩
      rw [Graph.at_set' 0 (by omega)]
      by_cases e : c = col
      · subst e
        rw [if_pos rfl, if_pos (by omega), h4, if_neg (by omega)]
        show at' 0 v c + 0 + coef * at' 0 u c = _
        rw [add_zero]
      · rw [if_neg e, h4]
        congr 1
        by_cases h : mse ≤ c ∧ c < col
        · rw [if_pos h, if_pos (by omega)]
        · rw [if_neg h, if_neg (by omega)]
  · rintro v' ⟨h1, h2⟩
    refine ⟨h1, fun c => ?_⟩
    rw [h2]
    congr 1
    by_cases hc : mse ≤ c
    · rw [if_pos hc]
      by_cases hc2 : c < m + 1
      · rw [if_pos ⟨hc, hc2⟩]
      · rw [if_neg (by omega), show at' 0 u c = 0 from at_ge _ (by omega), mul_zero]
    · rw [if_neg hc, if_neg (by omega)]

theorem ent_set {n m : Nat} {Ab : Array (Array F)} (hs : Shape n m Ab) {row : Nat} (hr : row < n) {v : Array F} (hv : v.size = m + 1) :
    Shape n m (Ab.setIfInBounds row v) ∧ ∀ r c, ent (Ab.setIfInBounds row v) r c = if r = row then at' 0 v c else ent Ab r c := by
  have key : ∀ r, at' #[] (Ab.setIfInBounds row v) r = if r = row then v else at' #[] Ab r := fun r => Graph.at_set' #[] (by have := hs.1; omega) v r
  refine ⟨⟨by simpa using hs.1, fun r h => ?_⟩, fun r c => ?_⟩
  · rw [key]
    split
    · exact hv
    · exact hs.2 r h
  · rw [ent, key]
    split
    · rfl
    · rfl

theorem elimStep_tot {n m i mse row : Nat} {Ab : Array (Array F)} (hs : Shape n m Ab) (hi : i < n) (hr : row < n) (hne : row ≠ i) (hm : mse ≤ m)
    (hz : ∀ c < mse, ent Ab i c = 0) (hp : ent Ab i mse ≠ 0) :
    Tot (elimStep (o F) i mse m (1 / ent Ab i mse) row Ab) fun Ab' => Shape n m Ab' ∧ (∀ r c, r ≠ row → ent Ab' r c = ent Ab r c) ∧ ent Ab' row mse = 0 ∧
      ∃ k : F, ∀ c, ent Ab' row c = ent Ab row c + k * ent Ab i c := by
  have h1 := hs.1
  have h2 := hs.2 row hr
  have h3 := hs.2 i hi
  rw [elimStep, rd_at #[] (by omega), ok_bind, rd_at 0 (by omega), ok_bind, ozero]
  by_cases hx : at' 0 (at' #[] Ab row) mse = 0
  · rw [if_pos hx]
    exact Tot.pure ⟨hs, fun r c _ => rfl, hx, 0, fun c => by rw [zero_mul, add_zero]⟩
  · rw [if_neg hx, rd_at #[] (by omega), ok_bind]
    refine Tot.bind (axpy_tot h3 h2 hm) ?_
    rintro v ⟨k1, k2⟩
    rw [wr_eq (by omega)]
    obtain ⟨q1, q2⟩ := ent_set hs hr k1
    have hform : ∀ c, ent (Ab.setIfInBounds row v) row c = ent Ab row c + -(ent Ab row mse * (1 / ent Ab i mse)) * ent Ab i c := by
      intro c
      rw [q2, if_pos rfl, k2]
      show ent Ab row c + _ = _
      congr 1
      by_cases hc : mse ≤ c
      · rw [if_pos hc]
        show (0 - ent Ab row mse * (1 / ent Ab i mse)) * ent Ab i c = _
        rw [zero_sub]
      · rw [if_neg hc, hz c (by omega), mul_zero]
    refine Tot.pure ⟨q1, fun r c h => by rw [q2, if_neg h], ?_, _, hform⟩
    rw [hform]
    field_simp
    ring

/-- The rows in `[lo, hi)` after eliminating column `mse` with row `i`. -/
theorem elim_tot {n m i mse lo hi : Nat} {Ab : Array (Array F)} (hs : Shape n m Ab) (hin : i < n) (hlo : lo ≤ hi) (hhi : hi ≤ n) (hne : ¬ (lo ≤ i ∧ i < hi)) (hm : mse ≤ m)
    (hz : ∀ c < mse, ent Ab i c = 0) (hp : ent Ab i mse ≠ 0) :
    Tot (forUp lo hi Ab (elimStep (o F) i mse m (1 / ent Ab i mse))) fun Ab' => Shape n m Ab' ∧ (∀ r c, ¬ (lo ≤ r ∧ r < hi) → ent Ab' r c = ent Ab r c) ∧
      ∀ r, lo ≤ r → r < hi → ent Ab' r mse = 0 ∧ ∃ k : F, ∀ c, ent Ab' r c = ent Ab r c + k * ent Ab i c := by
  refine Tot.forUp (P := fun j (Ab' : Array (Array F)) => Shape n m Ab' ∧ (∀ r c, ¬ (lo ≤ r ∧ r < j) → ent Ab' r c = ent Ab r c) ∧
      ∀ r, lo ≤ r → r < j → ent Ab' r mse = 0 ∧ ∃ k : F, ∀ c, ent Ab' r c = ent Ab r c + k * ent Ab i c) hlo ?_ ?_
  · exact ⟨hs, fun r c _ => rfl, fun r h1 h2 => by omega⟩
  · rintro j Ab' h1 h2 ⟨h3, h4, h5⟩
    have hrow : ∀ c, ent Ab' i c = ent Ab i c := fun c => h4 i c (by omega)
    have := elimStep_tot (row := j) h3 hin (by omega) (by omega) hm (fun c hc => by rw [hrow]; exact hz c hc) (by rw [hrow]; exact hp)
    rw [hrow] at this
    refine this.mono ?_
    rintro A ⟨k1, k2, k3, k, k4⟩
    refine ⟨k1, fun r c h => ?_, fun r q1 q2 => ?_⟩
    · rw [k2 r c (by omega)]
      exact h4 r c (by omega)
    · by_cases e : r = j
      · subst e
        refine ⟨k3, k, fun c => ?_⟩
        rw [k4, h4 r c (by omega), hrow]
      · obtain ⟨w1, w, w2⟩ := h5 r q1 (by omega)
        exact ⟨by rw [k2 r _ e]; exact w1, w, fun c => by rw [k2 r c e]; exact w2 c⟩

/-- Adding multiples of row `i` to other rows does not change the solutions. -/
theorem sol_elim {n m i : Nat} {e e' : Nat → Nat → F} (hi : i < n) (h0 : ∀ c, e' i c = e i c) (h : ∀ r < n, ∃ k : F, ∀ c, e' r c = e r c + k * e i c) (x : Nat → F) :
    Sol n m e' x ↔ Sol n m e x := by
  have key : ∀ r < n, ∃ k : F, (∑ c ∈ Finset.range m, e' r c * x c = (∑ c ∈ Finset.range m, e r c * x c) + k * ∑ c ∈ Finset.range m, e i c * x c) ∧ e' r m = e r m + k * e i m := by
    intro r hr
    obtain ⟨k, hk⟩ := h r hr
    refine ⟨k, ?_, hk m⟩
    rw [Finset.mul_sum, ← Finset.sum_add_distrib]
    refine Finset.sum_congr rfl fun c _ => ?_
    rw [hk]
    ring
  have hii : (∑ c ∈ Finset.range m, e' i c * x c = e' i m) ↔ (∑ c ∈ Finset.range m, e i c * x c = e i m) := by simp only [h0]
  constructor
  · intro hs r hr
    obtain ⟨k, k1, k2⟩ := key r hr
    have := hs r hr
    rw [k1, k2, hii.1 (hs i hi)] at this
    exact add_right_cancel this
  · intro hs r hr
    obtain ⟨k, k1, k2⟩ := key r hr
    rw [k1, k2, hs r hr, hs i hi]

/-- Exchanging two rows does not change the solutions. -/
theorem sol_swap {n m i j : Nat} {e e' : Nat → Nat → F} (hi : i < n) (hj : j < n) (h : ∀ r c, e' r c = if r = i then e j c else if r = j then e i c else e r c) (x : Nat → F) :
    Sol n m e' x ↔ Sol n m e x := by
  constructor
  · intro hs r hr
    by_cases e1 : r = i
    · have := hs j hj
      by_cases e2 : j = i
      · subst e2 e1
        simpa only [h, if_true] using this
      · subst e1
        simpa only [h, if_neg e2, if_true] using this
    · by_cases e2 : r = j
      · subst e2
        simpa only [h, if_true] using hs i hi
      · simpa only [h, if_neg e1, if_neg e2] using hs r hr
  · intro hs r hr
    by_cases e1 : r = i
    · simpa only [h, if_pos e1] using hs j hj
    · by_cases e2 : r = j
      · simpa only [h, if_neg e1, if_pos e2] using hs i hi
      · simpa only [h, if_neg e1, if_neg e2] using hs r hr

/-- Scaling a row does not change the solutions. -/
theorem sol_scale {n m i : Nat} {k : F} (hk : k ≠ 0) {e e' : Nat → Nat → F} (h : ∀ r c, e' r c = if r = i then e r c * k else e r c) (x : Nat → F) :
    Sol n m e' x ↔ Sol n m e x := by
  refine forall_congr' fun r => imp_congr_right fun _ => ?_
  by_cases hr : r = i
  · simp only [h, if_pos hr]
    have : ∑ c ∈ Finset.range m, e r c * k * x c = (∑ c ∈ Finset.range m, e r c * x c) * k := by
      rw [Finset.sum_mul]
      exact Finset.sum_congr rfl fun c _ => by ring
    rw [this]
    exact mul_left_inj' hk
  · simp only [h, if_neg hr]

/-! ## Forward elimination -/

/-- The first `i` rows are in echelon form with pivots `p`; the others vanish up to the last pivot. -/
structure Ech (n m : Nat) (p : Nat → Nat) (i : Nat) (e : Nat → Nat → F) : Prop where
  lt : ∀ k < i, p k < m
  piv : ∀ k < i, e k (p k) ≠ 0
  zero : ∀ k < i, ∀ c < p k, e k c = 0
  mono : ∀ k k', k < k' → k' < i → p k < p k'
  rest : ∀ r, i ≤ r → r < n → ∀ k < i, ∀ c ≤ p k, e r c = 0

theorem swapRows_tot {n m i j : Nat} {Ab : Array (Array F)} (hs : Shape n m Ab) (hi : i < n) (hj : j < n) :
    Tot (swapRows Ab i j) fun Ab' => Shape n m Ab' ∧ ∀ r c, ent Ab' r c = if r = i then ent Ab j c else if r = j then ent Ab i c else ent Ab r c := by
  have h1 := hs.1
  rw [swapRows, rd_at #[] (by omega), ok_bind, rd_at #[] (by omega), ok_bind, wr_eq (by omega), ok_bind, wr_eq (by rw [Array.size_setIfInBounds]; omega)]
  obtain ⟨q1, q2⟩ := ent_set hs hi (hs.2 j hj)
  obtain ⟨q3, q4⟩ := ent_set q1 hj (hs.2 i hi)
  refine Tot.pure ⟨q3, fun r c => ?_⟩
  rw [q4, q2]
  by_cases e2 : r = j
  · rw [if_pos e2]
    by_cases e1 : r = i
    · rw [if_pos e1]
      subst e1 e2
      rfl
    · rw [if_neg e1, if_pos e2]
      rfl
  · rw [if_neg e2]
    by_cases e1 : r = i
    · rw [if_pos e1, if_pos e1]
      rfl
    · rw [if_neg e1, if_neg e1, if_neg e2]

theorem forward_tot {n m : Nat} {Ab : Array (Array F)} (hs : Shape n m Ab) :
    Tot (loop (forwardBody (o F) m) Ab.size (0, Ab)) fun s => Shape n m s.2 ∧ (∀ x, Sol n m (ent s.2) x ↔ Sol n m (ent Ab) x) ∧
      ∃ R p, R ≤ n ∧ Ech n m p R (ent s.2) ∧ ∀ r, R ≤ r → r < n → ∀ c < m, ent s.2 r c = 0 := by
  refine Tot.loop (P := fun (s : Nat × Array (Array F)) => Shape n m s.2 ∧ s.1 ≤ n ∧ (∀ x, Sol n m (ent s.2) x ↔ Sol n m (ent Ab) x) ∧ ∃ p, Ech n m p s.1 (ent s.2))
    (fun s => n - s.1) ?_ ?_ (by have := hs.1; dsimp only; omega)
  · rintro ⟨i, B⟩ ⟨h1, h2, h3, p, h4⟩
    dsimp only at h1 h2 h3 h4
    rw [forwardBody]
    dsimp only
    rw [h1.1]
    by_cases hi : i < n
    · rw [if_pos hi]
      refine Tot.bind (pivoting_tot h1 h2) ?_
      rintro ⟨mse, pv⟩ ⟨k1, k2⟩
      dsimp only at k1 k2 ⊢
      by_cases hpv : pv = n
      · rw [if_pos hpv]
        have hmse : mse = m := by rcases k1 with h | h <;> omega
        exact Tot.pure ⟨h1, h3, i, p, h2, h4, fun r q1 q2 c hc => k2 r q1 q2 c (by omega)⟩
      · rw [if_neg hpv]
        obtain ⟨k3, k4, k5, k6⟩ : i ≤ pv ∧ pv < n ∧ mse < m ∧ ent B pv mse ≠ 0 := by
          rcases k1 with h | h
          · omega
          · exact h
        rw [reduceAt]
        refine Tot.bind (P := fun A => Shape n m A ∧ (∀ x, Sol n m (ent A) x ↔ Sol n m (ent Ab) x) ∧ Ech n m (Function.update p i mse) (i + 1) (ent A)) ?_ ?_
        · refine Tot.bind (swapRows_tot h1 hi k4) ?_
          rintro C ⟨c1, c2⟩
          dsimp only
          have hpi : ent C i mse ≠ 0 := by rw [c2, if_pos rfl]; exact k6
          have hzero : ∀ r, i ≤ r → r < n → ∀ c < mse, ent C r c = 0 := by
            intro r q1 q2 c hc
            rw [c2]
            split
            · exact k2 pv k3 k4 c hc
            · split
              · exact k2 i (le_refl _) hi c hc
              · exact k2 r q1 q2 c hc
          have hlow : ∀ k < i, ∀ c, ent C k c = ent B k c := fun k hk c => by rw [c2, if_neg (by omega), if_neg (by omega)]
          rw [rd_at #[] (by have := c1.1; omega), ok_bind, rd_at 0 (by have := c1.2 i hi; omega), ok_bind, c1.1]
          refine (elim_tot c1 hi (by omega) (le_refl n) (by omega) (by omega) (hzero i (le_refl _) hi) hpi).mono ?_
          rintro D ⟨d1, d2, d3⟩
          have hDlow : ∀ k ≤ i, ∀ c, ent D k c = ent C k c := fun k hk c => d2 k c (by omega)
          refine ⟨d1, fun x => ?_, ?_⟩
          · rw [sol_elim hi (fun c => hDlow i (le_refl _) c) (fun r hr => ?_) x, sol_swap hi k4 c2 x, h3 x]
            by_cases hr' : i + 1 ≤ r
            · exact (d3 r hr' hr).2
            · exact ⟨0, fun c => by rw [zero_mul, add_zero]; exact hDlow r (by omega) c⟩
          · have hpk : ∀ k < i, p k < mse := by
              intro k hk
              by_contra hc
              exact k6 (h4.rest pv k3 k4 k hk mse (by omega))
            have hupd : ∀ k < i, Function.update p i mse k = p k := fun k hk => Function.update_of_ne (by omega) _ _
            have hupi : Function.update p i mse i = mse := Function.update_self _ _ _
            refine ⟨fun k hk => ?_, fun k hk => ?_, fun k hk c hc => ?_, fun k k' hkk hk' => ?_, fun r q1 q2 k hk c hc => ?_⟩
            · by_cases e : k = i
              · rw [e, hupi]; exact k5
              · rw [hupd k (by omega)]; exact h4.lt k (by omega)
            · by_cases e : k = i
              · rw [e, hupi, hDlow i (le_refl _)]; exact hpi
              · rw [hupd k (by omega), hDlow k (by omega), hlow k (by omega)]; exact h4.piv k (by omega)
            · by_cases e : k = i
              · subst e
                rw [hupi] at hc
                rw [hDlow k (le_refl _)]
                exact hzero k (le_refl _) hi c hc
              · rw [hupd k (by omega)] at hc
                rw [hDlow k (by omega), hlow k (by omega)]
                exact h4.zero k (by omega) c hc
            · by_cases e : k' = i
              · rw [e, hupi, hupd k (by omega)]
                exact hpk k (by omega)
              · rw [hupd k (by omega), hupd k' (by omega)]
                exact h4.mono k k' hkk (by omega)
            · have hle : c ≤ mse := by
                by_cases e : k = i
                · rw [e, hupi] at hc; exact hc
                · rw [hupd k (by omega)] at hc
                  have := hpk k (by omega)
                  omega
              obtain ⟨w1, w, w2⟩ := d3 r q1 q2
              by_cases e : c = mse
              · rw [e]; exact w1
              · rw [w2, hzero r (by omega) q2 c (by omega), hzero i (le_refl _) hi c (by omega), mul_zero, add_zero]
        · rintro A ⟨a1, a2, a3⟩
          exact Tot.pure ⟨⟨a1, by dsimp only; omega, a2, _, a3⟩, by dsimp only; omega⟩
    · rw [if_neg hi]
      have : i = n := by omega
      subst this
      exact Tot.pure ⟨h1, h3, i, p, le_refl _, h4, fun r q1 q2 => by omega⟩
  · exact ⟨hs, Nat.zero_le _, fun x => Iff.rfl, id, ⟨fun k h => by omega, fun k h => by omega, fun k h => by omega, fun k k' h h' => by omega, fun r _ _ k h => by omega⟩⟩

end Gauss
