import Verif.Model.Algorithm
import Verif.Spec.Grid
import Verif.Proof.GraphBasic
import Mathlib.Algebra.Order.Ring.Int
import Mathlib.Tactic.Linarith
import Mathlib.Tactic.Push

/-! # Proofs about `library/algorithm/maximum_rectangle.hpp` -/

namespace MaxRectangle
open Cxx Grid

variable {σ : Type}

/-! ## Histogram -/

/-- The stack (top first); `nx` is where the top segment ends. -/
def Stk (h : Nat → Int) : List (Nat × Int) → Nat → Prop
  | [], nx => nx = 0
  | (l, v) :: rest, nx => l < nx ∧ h (nx - 1) = v ∧ (∀ t, l ≤ t → t < nx → v ≤ h t) ∧ (∀ e ∈ rest, e.2 < v) ∧ Stk h rest l

/-- A reported triple is the minimum of its interval. -/
def Ok (h : Nat → Int) (n : Nat) (x : Nat × Nat × Int) : Prop :=
  x.1 < x.2.1 ∧ x.2.1 ≤ n ∧ (∀ t, x.1 ≤ t → t < x.2.1 → x.2.2 ≤ h t) ∧ ∃ t, x.1 ≤ t ∧ t < x.2.1 ∧ h t = x.2.2

/-- Every interval ending by `e0` is inside a reported triple or will be. -/
def Cov (h : Nat → Int) (rep : List (Nat × Nat × Int)) (st : List (Nat × Int)) (e0 : Nat) : Prop :=
  ∀ s e, s < e → e ≤ e0 → (∃ x ∈ rep, x.1 ≤ s ∧ e ≤ x.2.1 ∧ ∃ t, s ≤ t ∧ t < e ∧ h t ≤ x.2.2) ∨
    ∃ x ∈ st, x.1 ≤ s ∧ ∃ t, s ≤ t ∧ t < e ∧ h t ≤ x.2

/-- Every interval is inside a reported one whose height is at least its minimum. -/
def Covered (h : Nat → Int) (n : Nat) (rep : List (Nat × Nat × Int)) : Prop :=
  ∀ s e, s < e → e ≤ n → ∃ x ∈ rep, x.1 ≤ s ∧ e ≤ x.2.1 ∧ ∃ t, s ≤ t ∧ t < e ∧ h t ≤ x.2.2

theorem Stk.find {h : Nat → Int} {st : List (Nat × Int)} {nx : Nat} (hs : Stk h st nx) {s : Nat} (hlt : s < nx) :
    ∃ x ∈ st, x.1 ≤ s ∧ ∃ t, s ≤ t ∧ t < nx ∧ h t ≤ x.2 := by
  induction st generalizing nx with
  | nil => exact absurd hlt (by simp [Stk] at hs; omega)
  | cons e rest ih =>
    obtain ⟨l, v⟩ := e
    obtain ⟨h1, h2, h3, h4, h5⟩ := hs
    by_cases hl : l ≤ s
    · exact ⟨(l, v), by simp, hl, nx - 1, by omega, by omega, h2.le⟩
    · obtain ⟨x, hx, g1, t, g2, g3, g4⟩ := ih h5 (by omega)
      exact ⟨x, by simp [hx], g1, t, g2, by omega, g4⟩

theorem pop_tot {h : Nat → Int} {n : Nat} {f : σ → Nat → Nat → Int → M σ} {Q : List (Nat × Nat × Int) → σ → Prop}
    (hf : ∀ rep c l r v, Ok h n (l, r, v) → Q rep c → Tot (f c l r v) (Q (rep ++ [(l, r, v)])))
    {r : Nat} (hr : r ≤ n) (hh : Int) {st : List (Nat × Int)} {c : σ} {rep : List (Nat × Nat × Int)}
    (hs : Stk h st r) (hc : Cov h rep st r) (hq : Q rep c) :
    Tot (loop (popStep f r hh) st.length (st, r, c)) fun t => ∃ rep', Q rep' t.2.2 ∧ Cov h rep' t.1 r ∧ Stk h t.1 t.2.1 ∧ t.2.1 ≤ r ∧
      (∀ s, t.2.1 ≤ s → s < r → hh ≤ h s) ∧ ∀ e ∈ t.1, e.2 < hh := by
  refine Tot.loop (P := fun (t : List (Nat × Int) × Nat × σ) => ∃ rep', Q rep' t.2.2 ∧ Cov h rep' t.1 r ∧ Stk h t.1 t.2.1 ∧ t.2.1 ≤ r ∧
      (∀ s, t.2.1 ≤ s → s < r → hh ≤ h s ∧ ∀ e ∈ t.1, e.2 ≤ h s)) (fun t => t.1.length) ?_ ?_ (le_refl _)
  · rintro ⟨st, j, c⟩ ⟨rep', k1, k2, k3, k4, k5⟩
    dsimp only at k1 k2 k3 k4 k5
    rw [popStep]
    cases st with
    | nil => exact Tot.pure ⟨rep', k1, k2, k3, k4, fun s h1 h2 => (k5 s h1 h2).1, by simp⟩
    | cons e rest =>
      obtain ⟨l, v⟩ := e
      dsimp only
      obtain ⟨g1, g2, g3, g4, g5⟩ := k3
      by_cases hv : v < hh
      · rw [if_pos hv]
        refine Tot.pure ⟨rep', k1, k2, ⟨g1, g2, g3, g4, g5⟩, k4, fun s h1 h2 => (k5 s h1 h2).1, fun e he => ?_⟩
        simp only [List.mem_cons] at he
        rcases he with rfl | he
        · exact hv
        · exact lt_trans (g4 e he) hv
      · rw [if_neg hv]
        have hok : Ok h n (l, r, v) := by
          refine ⟨by dsimp only; omega, hr, fun t h1 h2 => ?_, j - 1, by dsimp only; omega, by dsimp only; omega, g2⟩
          dsimp only at h1 h2 ⊢
          by_cases ht : t < j
          · exact g3 t h1 ht
          · exact (k5 t (by omega) h2).2 (l, v) (by simp)
        refine Tot.bind (hf _ _ _ _ _ hok k1) ?_
        intro c' hc'
        refine Tot.pure ⟨⟨rep' ++ [(l, r, v)], hc', ?_, g5, by dsimp only; omega, ?_⟩, by simp⟩
        · intro s e h1 h2
          rcases k2 s e h1 h2 with ⟨x, hx, q⟩ | ⟨x, hx, q1, q2⟩
          · exact Or.inl ⟨x, by simp [hx], q⟩
          · simp only [List.mem_cons] at hx
            rcases hx with rfl | hx
            · exact Or.inl ⟨(l, r, v), by simp, q1, h2, q2⟩
            · exact Or.inr ⟨x, hx, q1, q2⟩
        · intro s h1 h2
          dsimp only at h1 ⊢
          by_cases hsj : s < j
          · have := g3 s h1 hsj
            exact ⟨by omega, fun e he => by have := g4 e he; omega⟩
          · have := k5 s (by omega) h2
            exact ⟨this.1, fun e he => this.2 e (by simp [he])⟩
  · exact ⟨rep, hq, hc, hs, le_refl _, fun s h1 h2 => by dsimp only at h1; omega⟩

/-- The histogram routine, with the callback's captured state related by `Q` to the list of reported triples. -/
theorem hist_tot {ha : Array Int} {f : σ → Nat → Nat → Int → M σ} {Q : List (Nat × Nat × Int) → σ → Prop} (hpos : ∀ t < ha.size, 0 ≤ at' 0 ha t)
    (hf : ∀ rep c l r v, Ok (at' 0 ha) ha.size (l, r, v) → Q rep c → Tot (f c l r v) (Q (rep ++ [(l, r, v)]))) {c : σ} (hq : Q [] c) :
    Tot (hist ha f c) fun c' => ∃ rep, Q rep c' ∧ Covered (at' 0 ha) ha.size rep := by
  rw [hist]
  refine Tot.bind (P := fun (s : List (Nat × Int) × σ) => ∃ rep, Q rep s.2 ∧ Covered (at' 0 ha) ha.size rep) ?_ ?_
  · refine Tot.mono (P := fun (s : List (Nat × Int) × σ) => (ha.size + 1 ≤ ha.size → ∃ rep, Q rep s.2 ∧ Cov (at' 0 ha) rep s.1 (ha.size + 1) ∧ Stk (at' 0 ha) s.1 (ha.size + 1)) ∧
        (ha.size + 1 = ha.size + 1 → ∃ rep, Q rep s.2 ∧ Covered (at' 0 ha) ha.size rep)) ?_ (fun s h => h.2 rfl)
    refine Tot.forUp (P := fun r (s : List (Nat × Int) × σ) => (r ≤ ha.size → ∃ rep, Q rep s.2 ∧ Cov (at' 0 ha) rep s.1 r ∧ Stk (at' 0 ha) s.1 r) ∧
        (r = ha.size + 1 → ∃ rep, Q rep s.2 ∧ Covered (at' 0 ha) ha.size rep)) (Nat.zero_le _) ?_ ?_
    · exact ⟨fun _ => ⟨[], hq, fun s e h1 h2 => by omega, rfl⟩, fun h => by omega⟩
    · rintro r ⟨st, c⟩ - hr ⟨hi, -⟩
      obtain ⟨rep, k1, k2, k3⟩ := hi (by omega)
      dsimp only at k1 k2 k3
      rw [histStep]
      by_cases hrn : r < ha.size
      · rw [height, if_pos hrn, rd_at 0 hrn, ok_bind]
        refine Tot.bind (pop_tot hf (by omega) _ k3 k2 k1) ?_
        rintro ⟨st', j, c'⟩ ⟨rep', g1, g2, g3, g4, g5, g6⟩
        dsimp only at g1 g2 g3 g4 g5 g6
        refine Tot.pure ⟨fun _ => ⟨rep', g1, ?_, ⟨by dsimp only; omega, by simp, ?_, g6, g3⟩⟩, fun h => by omega⟩
        · intro s e h1 h2
          dsimp only
          by_cases he : e ≤ r
          · rcases g2 s e h1 he with q | ⟨x, hx, q⟩
            · exact Or.inl q
            · exact Or.inr ⟨x, by simp [hx], q⟩
          · have : e = r + 1 := by omega
            subst this
            by_cases hsj : j ≤ s
            · exact Or.inr ⟨(j, at' 0 ha r), by simp, hsj, r, by omega, by omega, le_refl _⟩
            · obtain ⟨x, hx, q1, t, q2, q3, q4⟩ := g3.find (show s < j by omega)
              exact Or.inr ⟨x, by simp [hx], q1, t, q2, by omega, q4⟩
        · intro t h1 h2
          by_cases ht : t = r
          · subst ht
            exact le_refl _
          · exact g5 t h1 (by omega)
      · have hre : r = ha.size := by omega
        subst hre
        rw [height, if_neg hrn]
        refine Tot.bind (P := fun (x : Int) => x = 0) (Tot.pure rfl) ?_
        rintro _ rfl
        refine Tot.bind (pop_tot hf (le_refl _) _ k3 k2 k1) ?_
        rintro ⟨st', j, c'⟩ ⟨rep', g1, g2, g3, g4, g5, g6⟩
        dsimp only at g1 g2 g3 g4 g5 g6
        refine Tot.pure ⟨fun h => by omega, fun _ => ⟨rep', g1, fun s e h1 h2 => ?_⟩⟩
        rcases g2 s e h1 h2 with q | ⟨x, hx, q⟩
        · exact q
        · exfalso
          cases st' with
          | nil => simp at hx
          | cons e0 rest =>
            obtain ⟨l, v⟩ := e0
            have h1 := g6 (l, v) (by simp)
            obtain ⟨q1, q2, -⟩ := g3
            have := hpos (j - 1) (by omega)
            dsimp only at h1
            omega
  · intro s hs
    exact Tot.pure hs

/-! ## Grid -/

variable {g : Array (Array Bool)} {m : Nat}

theorem cell_eq (hg : Rect g m) {i j : Nat} (hi : i < g.size) (hj : j < m) : cell g i j = .ok (on g i j) := by
  have h1 : g[i]? = some g[i] := Array.getElem?_eq_getElem hi
  have h2 := hg i _ h1
  rw [cell, rd_eq hi, ok_bind, rd_eq (by omega), on, h1, Option.getD_some, Array.getElem?_eq_getElem (by omega), Option.getD_some]

/-- The height of column `j` at row `i` is `k`. -/
def Ht (g : Array (Array Bool)) (i j : Nat) (k : Int) : Prop :=
  0 ≤ k ∧ k ≤ i + 1 ∧ (∀ t : Nat, t ≤ i → (i : Int) - k < t → on g t j = true) ∧ (k ≤ i → on g (i - k.toNat) j = false)

/-- Cells of `[u, i]` in column `j` are true iff the height is at least `i + 1 - u`. -/
theorem Ht.iff {i j : Nat} {k : Int} (h : Ht g i j k) {u : Nat} (hu : u ≤ i + 1) : (i : Int) + 1 - u ≤ k ↔ ∀ t, u ≤ t → t ≤ i → on g t j = true := by
  obtain ⟨h1, h2, h3, h4⟩ := h
  constructor
  · intro hk t ht1 ht2
    exact h3 t ht2 (by omega)
  · intro ht
    by_contra hn
    have h5 := h4 (by omega)
    rw [ht (i - k.toNat) (by omega) (by omega)] at h5
    cases h5

/-- A zero in the row below (or the last row). -/
def Z (g : Array (Array Bool)) (i j : Nat) : Prop := i + 1 = g.size ∨ on g (i + 1) j = false

/-- State of `h`, `cnt_zero` after a row. -/
structure Row (g : Array (Array Bool)) (m i : Nat) (s : Array Int × Array Int) : Prop where
  size1 : s.1.size = m
  size2 : s.2.size = m + 1
  ht : ∀ j < m, Ht g i j (at' 0 s.1 j)
  mono : ∀ l r, l ≤ r → r ≤ m → at' 0 s.2 l ≤ at' 0 s.2 r
  zero : ∀ l r, l ≤ r → r ≤ m → (at' 0 s.2 r - at' 0 s.2 l ≠ 0 ↔ ∃ t, l ≤ t ∧ t < r ∧ Z g i t)

theorem zeroBelow_eq (hg : Rect g m) {i r : Nat} (hi : i < g.size) (hr : r < m) : ∃ z, zeroBelow g i r = .ok z ∧ ((z = 1 ∧ Z g i r) ∨ (z = 0 ∧ ¬ Z g i r)) := by
  rw [zeroBelow]
  by_cases h : i + 1 = g.size
  · rw [if_neg (not_not.2 h)]
    exact ⟨1, rfl, Or.inl ⟨rfl, Or.inl h⟩⟩
  · rw [if_pos h, cell_eq hg (by omega) hr, ok_bind]
    refine ⟨_, rfl, ?_⟩
    cases hb : on g (i + 1) r
    · exact Or.inl ⟨rfl, Or.inr hb⟩
    · refine Or.inr ⟨rfl, ?_⟩
      rintro (h' | h')
      · exact h h'
      · rw [hb] at h'
        cases h'

theorem ht_step {i j : Nat} {k : Int} (h : i = 0 ∧ k = 0 ∨ ∃ i', i = i' + 1 ∧ Ht g i' j k) : Ht g i j (if on g i j then k + 1 else 0) := by
  cases hb : on g i j
  · rw [if_neg (by simp)]
    exact ⟨le_refl _, by omega, fun t h1 h2 => by omega, fun _ => by simpa using hb⟩
  · rw [if_pos rfl]
    rcases h with ⟨rfl, rfl⟩ | ⟨i', rfl, h⟩
    · refine ⟨by omega, by omega, fun t h1 h2 => ?_, fun h => by omega⟩
      have : t = 0 := by omega
      subst this
      exact hb
    · obtain ⟨h1, h2, h3, h4⟩ := h
      refine ⟨by omega, by push_cast; omega, fun t q1 q2 => ?_, fun q => ?_⟩
      · by_cases ht : t = i' + 1
        · subst ht
          exact hb
        · exact h3 t (by omega) (by push_cast at q2; omega)
      · have := h4 (by push_cast at q; omega)
        rwa [show i' + 1 - (k + 1).toNat = i' - k.toNat by omega]

theorem row_tot (hg : Rect g m) {i : Nat} (hi : i < g.size) {s : Array Int × Array Int} (hs1 : s.1.size = m) (hs2 : s.2.size = m + 1) (hz : at' 0 s.2 0 = 0)
    (hprev : ∀ j < m, i = 0 ∧ at' 0 s.1 j = 0 ∨ ∃ i', i = i' + 1 ∧ Ht g i' j (at' 0 s.1 j)) :
    Tot (forUp 0 m s (rowStep g i)) fun t => Row g m i t ∧ at' 0 t.2 0 = 0 := by
  refine Tot.mono (P := fun (t : Array Int × Array Int) => t.1.size = m ∧ t.2.size = m + 1 ∧ at' 0 t.2 0 = 0 ∧ (∀ j < m, m ≤ j → at' 0 t.1 j = at' 0 s.1 j) ∧
      (∀ j < m, Ht g i j (at' 0 t.1 j)) ∧ (∀ l r, l ≤ r → r ≤ m → at' 0 t.2 l ≤ at' 0 t.2 r) ∧
      ∀ l r, l ≤ r → r ≤ m → (at' 0 t.2 r - at' 0 t.2 l ≠ 0 ↔ ∃ u, l ≤ u ∧ u < r ∧ Z g i u)) ?_ (fun t h => ⟨⟨h.1, h.2.1, h.2.2.2.2.1, h.2.2.2.2.2.1, h.2.2.2.2.2.2⟩, h.2.2.1⟩)
  refine Tot.forUp (P := fun k (t : Array Int × Array Int) => t.1.size = m ∧ t.2.size = m + 1 ∧ at' 0 t.2 0 = 0 ∧ (∀ j < m, k ≤ j → at' 0 t.1 j = at' 0 s.1 j) ∧
      (∀ j < k, Ht g i j (at' 0 t.1 j)) ∧ (∀ l r, l ≤ r → r ≤ k → at' 0 t.2 l ≤ at' 0 t.2 r) ∧
      ∀ l r, l ≤ r → r ≤ k → (at' 0 t.2 r - at' 0 t.2 l ≠ 0 ↔ ∃ u, l ≤ u ∧ u < r ∧ Z g i u)) (Nat.zero_le _) ?_ ?_
  · refine ⟨hs1, hs2, hz, fun _ _ _ => rfl, fun j hj => by omega, fun l r h1 h2 => ?_, fun l r h1 h2 => ?_⟩
    · obtain rfl : l = 0 := by omega
      obtain rfl : r = 0 := by omega
      exact le_refl _
    · obtain rfl : l = 0 := by omega
      obtain rfl : r = 0 := by omega
      constructor
      · intro h; omega
      · rintro ⟨u, h1, h2, -⟩; omega
  · rintro k ⟨h, cz⟩ - hk ⟨k1, k2, k3, k4, k5, k6, k7⟩
    dsimp only at k1 k2 k3 k4 k5 k6 k7
    obtain ⟨z, hz1, hz2⟩ := zeroBelow_eq hg hi hk
    rw [rowStep, cell_eq hg hi hk, ok_bind]
    dsimp only
    rw [rd_at 0 (by omega), ok_bind, wr_eq (by omega), ok_bind, hz1, ok_bind, rd_at 0 (by omega), ok_bind, wr_eq (by omega), ok_bind]
    have hat : ∀ r, at' 0 (cz.setIfInBounds (k + 1) (at' 0 cz k + z)) r = if r = k + 1 then at' 0 cz k + z else at' 0 cz r := by
      intro r
      rw [Graph.at_set' 0 (by omega)]
    have hat1 : ∀ r, at' 0 (h.setIfInBounds k (if on g i k then at' 0 h k + 1 else 0)) r = if r = k then (if on g i k then at' 0 h k + 1 else 0) else at' 0 h r := by
      intro r
      rw [Graph.at_set' 0 (by omega)]
    refine Tot.pure ⟨by simpa using k1, by simpa using k2, by dsimp only; rw [hat, if_neg (by omega)]; exact k3, fun j h1 h2 => ?_, fun j hj => ?_, fun l r h1 h2 => ?_, fun l r h1 h2 => ?_⟩
    · dsimp only
      rw [hat1, if_neg (by omega)]
      exact k4 j h1 (by omega)
    · dsimp only
      rw [hat1]
      by_cases e : j = k
      · subst e
        rw [if_pos rfl, k4 j hk (le_refl _)]
        exact ht_step (hprev j hk)
      · rw [if_neg e]
        exact k5 j (by omega)
    · dsimp only
      rw [hat, hat]
      by_cases e : r = k + 1
      · rw [if_pos e]
        by_cases e' : l = k + 1
        · rw [if_pos e']
        · rw [if_neg e']
          have := k6 l k (by omega) (le_refl _)
          rcases hz2 with ⟨rfl, -⟩ | ⟨rfl, -⟩ <;> omega
      · rw [if_neg e, if_neg (by omega)]
        exact k6 l r h1 (by omega)
    · dsimp only
      rw [hat, hat]
      by_cases e : r = k + 1
      · rw [if_pos e]
        by_cases e' : l = k + 1
        · rw [if_pos e']
          constructor
          · intro h; omega
          · rintro ⟨u, q1, q2, -⟩; omega
        · rw [if_neg e']
          have q0 := k6 l k (by omega) (le_refl _)
          have q1 := k7 l k (by omega) (le_refl _)
          subst e
          rcases hz2 with ⟨rfl, hzz⟩ | ⟨rfl, hzz⟩
          · constructor
            · intro _
              exact ⟨k, by omega, by omega, hzz⟩
            · intro _; omega
          · rw [add_zero, q1]
            constructor
            · rintro ⟨u, w1, w2, w3⟩
              exact ⟨u, w1, by omega, w3⟩
            · rintro ⟨u, w1, w2, w3⟩
              refine ⟨u, w1, ?_, w3⟩
              have : u ≠ k := fun e => hzz (e ▸ w3)
              omega
      · rw [if_neg e, if_neg (by omega)]
        exact k7 l r h1 (by omega)

/-- The rectangle of an argument tuple of the callback. -/
abbrev Tup := Int × Int × Nat × Nat

/-- A reported tuple is an all-true rectangle inside the grid. -/
def Good (g : Array (Array Bool)) (m : Nat) (x : Tup) : Prop :=
  ∃ u d : Nat, x.1 = u ∧ x.2.1 = d ∧ u ≤ d ∧ d ≤ g.size ∧ x.2.2.1 < x.2.2.2 ∧ x.2.2.2 ≤ m ∧ AllTrue g u d x.2.2.1 x.2.2.2

/-- Every all-true rectangle ending above row `i0` or blocked by row `i0` is inside a reported one. -/
def CovG (g : Array (Array Bool)) (m i0 : Nat) (rep : List Tup) : Prop :=
  ∀ u d l r, u < d → d ≤ i0 → l < r → r ≤ m → AllTrue g u d l r → (∃ t, l ≤ t ∧ t < r ∧ Z g (d - 1) t) →
    ∃ x ∈ rep, x.1 ≤ u ∧ (d : Int) ≤ x.2.1 ∧ x.2.2.1 ≤ l ∧ r ≤ x.2.2.2

theorem rectangles_tot (hg : Rect g m) {f : σ → Int → Int → Nat → Nat → M σ} {Q : List Tup → σ → Prop}
    (hf : ∀ rep c u d l r, Good g m (u, d, l, r) → Q rep c → Tot (f c u d l r) (Q (rep ++ [(u, d, l, r)]))) {c : σ} (hq : Q [] c) :
    Tot (rectangles g f c) fun c' => ∃ rep, Q rep c' ∧ (∀ x ∈ rep, Good g m x) ∧
      ∀ u d l r, u < d → d ≤ g.size → l < r → r ≤ m → AllTrue g u d l r → ∃ x ∈ rep, x.1 ≤ u ∧ (d : Int) ≤ x.2.1 ∧ x.2.2.1 ≤ l ∧ r ≤ x.2.2.2 := by
  rw [rectangles]
  by_cases h0 : g.size = 0
  · rw [if_pos h0]
    exact Tot.pure ⟨[], hq, by simp, fun u d l r h1 h2 => by omega⟩
  · rw [if_neg h0, rd_eq (by omega), ok_bind]
    have hm : g[0].size = m := hg 0 _ (Array.getElem?_eq_getElem (by omega))
    dsimp only
    rw [hm]
    refine Tot.bind (P := fun (s : (Array Int × Array Int) × σ) => ∃ rep, Q rep s.2 ∧ (∀ x ∈ rep, Good g m x) ∧ CovG g m g.size rep) ?_ ?_
    · refine Tot.mono (P := fun (s : (Array Int × Array Int) × σ) => (s.1.1.size = m ∧ s.1.2.size = m + 1 ∧ at' 0 s.1.2 0 = 0 ∧
          ∀ j < m, g.size = 0 ∧ at' 0 s.1.1 j = 0 ∨ ∃ i', g.size = i' + 1 ∧ Ht g i' j (at' 0 s.1.1 j)) ∧
          ∃ rep, Q rep s.2 ∧ (∀ x ∈ rep, Good g m x) ∧ CovG g m g.size rep) ?_ (fun s h => h.2)
      refine Tot.forUp (P := fun i (s : (Array Int × Array Int) × σ) => (s.1.1.size = m ∧ s.1.2.size = m + 1 ∧ at' 0 s.1.2 0 = 0 ∧
          ∀ j < m, i = 0 ∧ at' 0 s.1.1 j = 0 ∨ ∃ i', i = i' + 1 ∧ Ht g i' j (at' 0 s.1.1 j)) ∧
          ∃ rep, Q rep s.2 ∧ (∀ x ∈ rep, Good g m x) ∧ CovG g m i rep) (Nat.zero_le _) ?_ ?_
      · refine ⟨⟨by simp, by simp, by simp [at'], fun j hj => Or.inl ⟨rfl, by simp [at', hj]⟩⟩, [], hq, by simp, fun u d l r h1 h2 => by omega⟩
      · rintro i ⟨⟨h, cz⟩, c⟩ - hi ⟨⟨k1, k2, k3, k4⟩, rep, k5, k6, k7⟩
        dsimp only at k1 k2 k3 k4 k5
        rw [gridStep]
        refine Tot.bind (row_tot hg hi (s := (h, cz)) k1 k2 k3 k4) ?_
        rintro ⟨h', cz'⟩ ⟨hrow, hz0⟩
        dsimp only at hz0 ⊢
        have hsz : h'.size = m := hrow.size1
        have hsz2 : cz'.size = m + 1 := hrow.size2
        refine Tot.bind (hist_tot (ha := h') (f := report f cz' i)
          (Q := fun hrep c => ∃ rep', Q rep' c ∧ (∀ x ∈ rep', Good g m x) ∧ (∀ x ∈ rep, x ∈ rep') ∧
            ∀ x ∈ hrep, (∃ t, x.1 ≤ t ∧ t < x.2.1 ∧ Z g i t) → ((i : Int) - x.2.2 + 1, (i : Int) + 1, x.1, x.2.1) ∈ rep') (c := c) ?_ ?_ ?_) ?_
        · intro t ht
          exact (hrow.ht t (by omega)).1
        · rintro hrep c l r v hok ⟨rep', q1, q2, q3, q4⟩
          obtain ⟨o1, o2, o3, t0, o4, o5, o6⟩ := hok
          dsimp only at o1 o2 o3 o4 o5 o6
          rw [hsz] at o2
          rw [report, rd_at 0 (by omega), ok_bind, rd_at 0 (by omega), ok_bind]
          have hzz := hrow.zero l r (by omega) o2
          dsimp only at hzz
          by_cases hc : at' 0 cz' r - at' 0 cz' l ≠ 0
          · rw [if_pos hc]
            have hgood : Good g m ((i : Int) - v + 1, (i : Int) + 1, l, r) := by
              have ht0 := hrow.ht t0 (by omega)
              dsimp only at ht0
              rw [o6] at ht0
              have g1 := ht0.1
              have g2 := ht0.2.1
              refine ⟨((i : Int) - v + 1).toNat, i + 1, by dsimp only; omega, by simp, by omega, by omega, o1, o2, ?_⟩
              intro a b ha1 ha2 hb1 hb2
              dsimp only at hb1 hb2
              have hb := hrow.ht b (by omega)
              dsimp only at hb
              have := o3 b hb1 hb2
              exact (hb.iff (u := ((i : Int) - v + 1).toNat) (by omega)).1 (by omega) a ha1 (by omega)
            refine (hf _ _ _ _ _ _ hgood q1).mono ?_
            intro c' hc'
            refine ⟨_, hc', ?_, ?_, ?_⟩
            · intro x hx
              simp only [List.mem_append, List.mem_singleton] at hx
              rcases hx with hx | rfl
              · exact q2 x hx
              · exact hgood
            · intro x hx
              exact List.mem_append_left _ (q3 x hx)
            · intro x hx hxz
              simp only [List.mem_append, List.mem_singleton] at hx
              rcases hx with hx | rfl
              · exact List.mem_append_left _ (q4 x hx hxz)
              · exact List.mem_append_right _ (by simp)
          · rw [if_neg hc]
            refine Tot.pure ⟨rep', q1, q2, q3, ?_⟩
            intro x hx hxz
            simp only [List.mem_append, List.mem_singleton] at hx
            rcases hx with hx | rfl
            · exact q4 x hx hxz
            · exact absurd (hzz.2 hxz) hc
        · exact ⟨rep, k5, k6, fun x hx => hx, by simp⟩
        · rintro c' ⟨hrep, ⟨rep', q1, q2, q3, q4⟩, hcov⟩
          refine Tot.pure ⟨⟨hsz, hsz2, hz0, fun j hj => Or.inr ⟨i, rfl, hrow.ht j hj⟩⟩, rep', q1, q2, ?_⟩
          intro u d l r h1 h2 h3 h4 h5 h6
          by_cases hd : d ≤ i
          · obtain ⟨x, hx, w⟩ := k7 u d l r h1 hd h3 h4 h5 h6
            exact ⟨x, q3 x hx, w⟩
          · have : d = i + 1 := by omega
            subst this
            obtain ⟨x, hx, w1, w2, t, w3, w4, w5⟩ := hcov l r h3 (by omega)
            obtain ⟨t', w6, w7, w8⟩ := h6
            rw [Nat.add_sub_cancel] at w8
            refine ⟨_, q4 x hx ⟨t', by omega, by omega, w8⟩, ?_, by simp, w1, w2⟩
            dsimp only
            have ht := hrow.ht t (by omega)
            dsimp only at ht
            have := (ht.iff (u := u) (by omega)).2 (fun a ha1 ha2 => h5 a t ha1 (by omega) w3 w4)
            omega
    · rintro s ⟨rep, k1, k2, k3⟩
      refine Tot.pure ⟨rep, k1, k2, fun u d l r h1 h2 h3 h4 h5 => ?_⟩
      -- extend the rectangle downwards as far as possible
      have : ∀ k d, g.size - d = k → u < d → d ≤ g.size → AllTrue g u d l r → ∃ x ∈ rep, x.1 ≤ u ∧ (d : Int) ≤ x.2.1 ∧ x.2.2.1 ≤ l ∧ r ≤ x.2.2.2 := by
        intro k
        induction k with
        | zero =>
          intro d hk q1 q2 q3
          exact k3 u d l r q1 q2 h3 h4 q3 ⟨l, le_refl _, h3, Or.inl (by omega)⟩
        | succ k ih =>
          intro d hk q1 q2 q3
          by_cases hz : ∃ t, l ≤ t ∧ t < r ∧ Z g (d - 1) t
          · exact k3 u d l r q1 q2 h3 h4 q3 hz
          · obtain ⟨x, hx, w1, w2, w3⟩ := ih (d + 1) (by omega) (by omega) (by omega) (by
              intro a b ha1 ha2 hb1 hb2
              by_cases e : a = d
              · subst e
                by_contra hn
                exact hz ⟨b, hb1, hb2, Or.inr (by rw [show a - 1 + 1 = a by omega]; simpa using hn)⟩
              · exact q3 a b ha1 (by omega) hb1 hb2)
            exact ⟨x, hx, w1, by push_cast at w2; omega, w3⟩
      exact this _ d rfl h1 h2 h5

/-- A largest rectangle with its area. -/
def IsMax (g : Array (Array Bool)) (m : Nat) (x : Int × Int × Int × Nat × Nat) : Prop :=
  ∃ u d : Nat, x.2.1 = u ∧ x.2.2.1 = d ∧ u ≤ d ∧ d ≤ g.size ∧ x.2.2.2.1 ≤ x.2.2.2.2 ∧ x.2.2.2.2 ≤ m ∧ AllTrue g u d x.2.2.2.1 x.2.2.2.2 ∧
    x.1 = (((d - u) * (x.2.2.2.2 - x.2.2.2.1) : Nat) : Int) ∧
    ∀ u' d' l' r', u' ≤ d' → d' ≤ g.size → l' ≤ r' → r' ≤ m → AllTrue g u' d' l' r' → (((d' - u') * (r' - l') : Nat) : Int) ≤ x.1

theorem maximum_tot (hg : Rect g m) (hsz : g.size * m < 2 ^ 31) : Tot (maximum g) (IsMax g m) := by
  rw [maximum]
  refine (rectangles_tot hg (f := better) (Q := fun rep (c : Int × Int × Int × Nat × Nat) =>
    (∃ u d : Nat, c.2.1 = u ∧ c.2.2.1 = d ∧ u ≤ d ∧ d ≤ g.size ∧ c.2.2.2.1 ≤ c.2.2.2.2 ∧ c.2.2.2.2 ≤ m ∧ AllTrue g u d c.2.2.2.1 c.2.2.2.2 ∧
      c.1 = (((d - u) * (c.2.2.2.2 - c.2.2.2.1) : Nat) : Int)) ∧
    ∀ x ∈ rep, (x.2.1 - x.1) * ((x.2.2.2 : Int) - x.2.2.1) ≤ c.1) ?_ ?_).mono ?_
  · rintro rep ⟨area, u0, d0, l0, r0⟩ u d l r ⟨u', d', h1, h2, h3, h4, h5, h6, h7⟩ ⟨k1, k2⟩
    dsimp only at h1 h2 h5 h6 h7 k2
    subst h1 h2
    have hprod : ((d' : Int) - u') * ((r : Int) - l) = (((d' - u') * (r - l) : Nat) : Int) := by
      rw [Nat.cast_mul, Nat.cast_sub h3, Nat.cast_sub (by omega)]
    have hle : (d' - u') * (r - l) ≤ g.size * m := Nat.mul_le_mul (by omega) (by omega)
    rw [better, hprod, i32_ok ⟨by omega, by omega⟩, ok_bind]
    refine Tot.pure ?_
    dsimp only
    by_cases hgt : (((d' - u') * (r - l) : Nat) : Int) > area
    · rw [if_pos hgt]
      refine ⟨⟨u', d', rfl, rfl, h3, h4, by dsimp only; omega, h6, h7, rfl⟩, fun x hx => ?_⟩
      simp only [List.mem_append, List.mem_singleton] at hx
      rcases hx with hx | rfl
      · have := k2 x hx
        dsimp only
        omega
      · dsimp only
        omega
    · rw [if_neg hgt]
      refine ⟨k1, fun x hx => ?_⟩
      simp only [List.mem_append, List.mem_singleton] at hx
      rcases hx with hx | rfl
      · exact k2 x hx
      · dsimp only
        omega
  · refine ⟨⟨0, 0, rfl, rfl, le_refl _, Nat.zero_le _, le_refl _, Nat.zero_le _, fun i j h1 h2 => by omega, by simp⟩, by simp⟩
  · rintro ⟨area, u0, d0, l0, r0⟩ ⟨rep, ⟨⟨u, d, k1, k2, k3, k4, k5, k6, k7, k8⟩, k9⟩, -, k10⟩
    refine ⟨u, d, k1, k2, k3, k4, k5, k6, k7, k8, ?_⟩
    intro u' d' l' r' h1 h2 h3 h4 h5
    by_cases hud : u' = d'
    · subst hud
      simp
      dsimp only at k8
      omega
    by_cases hlr : l' = r'
    · subst hlr
      simp
      dsimp only at k8
      omega
    obtain ⟨x, hx, w1, w2, w3, w4⟩ := k10 u' d' l' r' (by omega) h2 (by omega) h4 h5
    refine le_trans ?_ (k9 x hx)
    rw [Nat.cast_mul, Nat.cast_sub h1, Nat.cast_sub h3]
    apply mul_le_mul <;> omega

end MaxRectangle
