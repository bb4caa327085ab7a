import Verif.Spec.SegmentTree2D
import Mathlib.Tactic.Ring
import Mathlib.Tactic.Tauto
import Mathlib.Tactic.Positivity

namespace SegmentTree2D
open Cxx Finset

variable {T : Type}

/-! ### Tables -/

/-- `t` is a table of `N` rows and `W` columns with the values `D`. -/
structure Rp (N W : Nat) (t : Array (Array T)) (D : Nat → Nat → T) : Prop where
  size : t.size = N
  row : ∀ i, i < N → ∃ r, t[i]? = some r ∧ r.size = W ∧ ∀ j, j < W → r[j]? = some (D i j)

/-- Change of one value. -/
def upd (D : Nat → Nat → T) (i j : Nat) (v : T) (x y : Nat) : T := if x = i ∧ y = j then v else D x y

theorem upd_same (D : Nat → Nat → T) (i j : Nat) (v : T) : upd D i j v i j = v := if_pos ⟨rfl, rfl⟩

theorem upd_ne (D : Nat → Nat → T) {i j x y : Nat} (v : T) (h : ¬ (x = i ∧ y = j)) : upd D i j v x y = D x y := if_neg h

variable {N W : Nat} {t : Array (Array T)} {D : Nat → Nat → T}

theorem Rp.congr (h : Rp N W t D) {D' : Nat → Nat → T} (h' : ∀ i j, i < N → j < W → D i j = D' i j) : Rp N W t D' :=
  ⟨h.size, fun i hi => by
    obtain ⟨r, h1, h2, h3⟩ := h.row i hi
    exact ⟨r, h1, h2, fun j hj => by rw [h3 j hj, h' i j hi hj]⟩⟩

theorem Rp.rd2 (h : Rp N W t D) {i j : Nat} (hi : i < N) (hj : j < W) : rd2 t i j = .ok (D i j) := by
  obtain ⟨r, h1, h2, h3⟩ := h.row i hi
  unfold SegmentTree2D.rd2
  rw [rd_some h1, ok_bind, rd_some (h3 j hj)]

theorem Rp.wr2 (h : Rp N W t D) {i j : Nat} (hi : i < N) (hj : j < W) (v : T) : Tot (wr2 t i j v) fun t' => Rp N W t' (upd D i j v) := by
  obtain ⟨r, h1, h2, h3⟩ := h.row i hi
  unfold SegmentTree2D.wr2
  have hs := h.size
  rw [rd_some h1, ok_bind, wr_eq (by omega), ok_bind, wr_eq (by omega)]
  refine Tot.pure ⟨by simpa using hs, fun x hx => ?_⟩
  by_cases e : x = i
  · subst e
    refine ⟨r.setIfInBounds j v, by simp [hs, hx], by simpa using h2, fun y hy => ?_⟩
    by_cases e' : y = j
    · subst e'
      rw [upd_same]
      simp [h2, hy]
    · rw [upd_ne _ _ (by omega), ← h3 y hy]
      simp [Ne.symm e']
  · obtain ⟨r', a, b, c⟩ := h.row x hx
    refine ⟨r', by simp [Ne.symm e, a], b, fun y hy => ?_⟩
    rw [upd_ne _ _ (by omega), c y hy]

theorem Rp.replicate (N W : Nat) (v : T) : Rp N W (Array.replicate N (Array.replicate W v)) fun _ _ => v :=
  ⟨by simp, fun i hi => ⟨Array.replicate W v, by simp [hi], by simp, fun j hj => by simp [hj]⟩⟩

variable [CommMonoid T]

/-- Inner nodes of a row hold the products of their children in the row. -/
def ColInv (m : Nat) (D : Nat → Nat → T) (i : Nat) : Prop := ∀ j, 1 ≤ j → j < m → D i j = D i (2 * j) * D i (2 * j + 1)

/-- Inner rows hold the products of their child rows. -/
def RowInv (n m : Nat) (D : Nat → Nat → T) : Prop := ∀ i j, 1 ≤ i → i < n → 1 ≤ j → j < 2 * m → D i j = D (2 * i) j * D (2 * i + 1) j

/-- It is enough to look at the leaf rows. -/
theorem colInv_all {n m : Nat} (h1 : ∀ i, n ≤ i → i < 2 * n → ColInv m D i) (h2 : RowInv n m D) (i : Nat) (hi : 1 ≤ i) (hi' : i < 2 * n) : ColInv m D i := by
  obtain ⟨k, hk⟩ : ∃ k, k = 2 * n - i := ⟨_, rfl⟩
  induction k using Nat.strong_induction_on generalizing i with
  | _ k ih =>
    by_cases c : n ≤ i
    · exact h1 i c hi'
    · have a := ih (2 * n - 2 * i) (by omega) (2 * i) (by omega) (by omega) rfl
      have b := ih (2 * n - (2 * i + 1)) (by omega) (2 * i + 1) (by omega) (by omega) rfl
      intro j hj hj'
      rw [h2 i j hi (by omega) hj (by omega), h2 i (2 * j) hi (by omega) (by omega) (by omega), h2 i (2 * j + 1) hi (by omega) (by omega) (by omega), a j hj hj', b j hj hj']
      exact mul_mul_mul_comm _ _ _ _

/-! ### Queries -/

/-- A level of the tree has the same product as the one below it. -/
theorem prod_double {m : Nat} {D : Nat → T} (h : ∀ k, 1 ≤ k → k < m → D k = D (2 * k) * D (2 * k + 1)) {l r : Nat} (hl : 1 ≤ l) (hlr : l ≤ r) (hr : r ≤ m) :
    ∏ i ∈ Ico (2 * l) (2 * r), D i = ∏ i ∈ Ico l r, D i := by
  obtain ⟨k, rfl⟩ := Nat.exists_eq_add_of_le hlr
  clear hlr
  induction k with
  | zero => simp
  | succ k ih =>
    rw [show l + (k + 1) = l + k + 1 by omega, prod_Ico_succ_top (by omega), ← ih (by omega), show 2 * (l + k + 1) = (2 * (l + k) + 1) + 1 by omega, prod_Ico_succ_top (by omega),
      prod_Ico_succ_top (by omega), mul_assoc, h (l + k) (by omega) (by omega)]

theorem walk_tot {m : Nat} {D : Nat → T} (h : ∀ k, 1 ≤ k → k < m → D k = D (2 * k) * D (2 * k + 1)) {get : Nat → M T} (hg : ∀ i, 1 ≤ i → i < 2 * m → get i = .ok (D i))
    {l0 r0 : Nat} (hl : 1 ≤ l0 ∨ r0 = 0) (hlr : l0 ≤ r0) (hr : r0 ≤ 2 * m) :
    walk (· * ·) 1 get l0 r0 = .ok (∏ i ∈ Ico l0 r0, D i) := by
  have L : Tot (loop (walkStep (· * ·) get) r0 (l0, r0, 1, 1)) fun s => s.2.2.1 * s.2.2.2 = ∏ i ∈ Ico l0 r0, D i := by
    refine Tot.loop (P := fun s : Nat × Nat × T × T => (1 ≤ s.1 ∨ s.2.1 = 0) ∧ s.1 ≤ s.2.1 ∧ s.2.1 ≤ 2 * m ∧
      s.2.2.1 * (∏ i ∈ Ico s.1 s.2.1, D i) * s.2.2.2 = ∏ i ∈ Ico l0 r0, D i) (fun s => s.2.1) ?_ ⟨hl, hlr, hr, by simp⟩ le_rfl
    rintro ⟨l, r, a, b⟩ ⟨h1, h2, h3, h4⟩
    dsimp only at h1 h2 h3 h4
    unfold walkStep
    dsimp only
    split
    case isFalse hlt =>
      have : l = r := by omega
      subst this
      refine Tot.pure ?_
      simpa using h4
    case isTrue hlt =>
      have L : Tot (takeL (· * ·) get l a) (fun q : Nat × T => q.1 = l + l % 2 ∧ q.2 * (∏ i ∈ Ico q.1 r, D i) = a * ∏ i ∈ Ico l r, D i) := by
        unfold takeL
        split
        next ho =>
          rw [hg l (by omega) (by omega), ok_bind]
          exact Tot.pure ⟨by omega, by dsimp only; rw [prod_eq_prod_Ico_succ_bot hlt, mul_assoc]⟩
        next ho => exact Tot.pure ⟨by omega, rfl⟩
      refine Tot.bind L ?_
      rintro ⟨l', a'⟩ ⟨e1, e2⟩
      dsimp only at e1 e2 ⊢
      have R : Tot (takeR (· * ·) get r b) (fun q : Nat × T => q.1 = r - r % 2 ∧ (∏ i ∈ Ico l' q.1, D i) * q.2 = (∏ i ∈ Ico l' r, D i) * b) := by
        unfold takeR
        split
        next ho =>
          rw [hg (r - 1) (by omega) (by omega), ok_bind]
          refine Tot.pure ⟨by omega, ?_⟩
          dsimp only
          conv_rhs => rw [show r = (r - 1) + 1 by omega, prod_Ico_succ_top (by omega : l' ≤ r - 1), mul_assoc]
        next ho => exact Tot.pure ⟨by omega, rfl⟩
      refine Tot.bind R ?_
      rintro ⟨r', b'⟩ ⟨e3, e4⟩
      dsimp only at e3 e4 ⊢
      refine Tot.pure ⟨⟨by dsimp only; omega, by dsimp only; omega, by dsimp only; omega, ?_⟩, by dsimp only; omega⟩
      dsimp only
      rw [← h4, ← e2, mul_assoc, mul_assoc, ← e4, ← prod_double h (by omega) (by omega) (by omega), show 2 * (l' / 2) = l' by omega, show 2 * (r' / 2) = r' by omega]
  obtain ⟨⟨l, r, a, b⟩, e, h⟩ := L
  unfold walk
  rw [e, ok_bind]
  dsimp only at h ⊢
  rw [h]
  rfl

/-! ### The invariant -/

/-- The object stands for the table `f` of `n` rows and `m` columns. -/
structure Rep (n m : Nat) (f : Nat → Nat → T) (s : State T) : Prop where
  hn : s.n = n
  hm : s.m = m
  ex : ∃ D, Rp (2 * n) (2 * m) s.dat D ∧ (∀ i, 1 ≤ i → i < 2 * n → ColInv m D i) ∧ RowInv n m D ∧ ∀ i j, i < n → j < m → D (n + i) (m + j) = f i j

variable {n m : Nat} {f : Nat → Nat → T} {s : State T}

theorem prod_tot (h : Rep n m f s) {u d l r : Nat} (h1 : u ≤ d) (h2 : d ≤ n) (h3 : l ≤ r) (h4 : r ≤ m) : prod (· * ·) 1 s u d l r = .ok (Spec.rect f u d l r) := by
  obtain ⟨h5, h6, D, hD, hc, hr, hf⟩ := h
  unfold prod
  rw [decide_eq_true (by omega), check_true, ok_bind, h5, h6, Int.toNat_natCast, Int.toNat_natCast, Int.toNat_natCast, Int.toNat_natCast]
  rw [walk_tot (m := n) (D := fun i => ∏ j ∈ Ico (l + m) (r + m), D i j)]
  · unfold Spec.rect
    rw [← prod_Ico_add (f := fun i => ∏ j ∈ Ico (l + m) (r + m), D i j)]
    congr 1
    refine prod_congr rfl fun i hi => ?_
    rw [mem_Ico] at hi
    rw [← prod_Ico_add (f := fun j => D (n + i) j)]
    refine prod_congr rfl fun j hj => ?_
    rw [mem_Ico] at hj
    exact hf i j (by omega) (by omega)
  · intro k hk hk'
    rw [← prod_mul_distrib]
    refine prod_congr rfl fun j hj => ?_
    rw [mem_Ico] at hj
    by_cases c : 1 ≤ j
    · exact hr k j hk hk' c (by omega)
    · omega
  · intro i hi hi'
    obtain ⟨row, a, b, c⟩ := hD.row i hi'
    rw [rd_some a, ok_bind]
    exact walk_tot (m := m) (D := D i) (fun k hk hk' => hc i hi hi' k hk hk') (fun j hj hj' => rd_some (c j hj')) (by omega) (by omega) (by omega)
  · omega
  · omega
  · omega

theorem get_tot (h : Rep n m f s) {i j : Nat} (hi : i < n) (hj : j < m) : get s i j = .ok (f i j) := by
  obtain ⟨h5, h6, D, hD, hc, hr, hf⟩ := h
  unfold get
  rw [decide_eq_true (by omega), check_true, ok_bind, h5, h6, Int.toNat_natCast, Int.toNat_natCast, hD.rd2 (by omega) (by omega), hf i j hi hj]

/-! ### Updates -/

theorem pullCol_tot (h : Rp N W t D) {i j : Nat} (hi : i < N) (hj : 2 * j + 1 < W) :
    Tot (pullCol (· * ·) t i j) fun t' => Rp N W t' (upd D i j (D i (2 * j) * D i (2 * j + 1))) := by
  unfold pullCol
  rw [h.rd2 hi (by omega), ok_bind, h.rd2 hi hj, ok_bind]
  exact h.wr2 hi (by omega) _

theorem pullRow_tot (h : Rp N W t D) {i j : Nat} (hi : 2 * i + 1 < N) (hj : j < W) :
    Tot (pullRow (· * ·) t i j) fun t' => Rp N W t' (upd D i j (D (2 * i) j * D (2 * i + 1) j)) := by
  unfold pullRow
  rw [h.rd2 (by omega) hj, ok_bind, h.rd2 hi hj, ok_bind]
  exact h.wr2 (by omega) hj _

/-- The loop over the columns of one row. -/
theorem colLoop_tot {n m x y : Nat} (hx : n ≤ x) (hx' : x < 2 * n) (hy : y < 2 * m) (h : Rp (2 * n) (2 * m) t D) (hc : ∀ j, 1 ≤ j → j < m → j ≠ y / 2 → D x j = D x (2 * j) * D x (2 * j + 1)) :
    Tot (loop (colStep (· * ·) x) y (y / 2, t)) fun s => ∃ D', Rp (2 * n) (2 * m) s.2 D' ∧ ColInv m D' x ∧ (∀ a b, a ≠ x → D' a b = D a b) ∧ (∀ b, m ≤ b → D' x b = D x b) ∧
      ∀ b, (∀ k, b ≠ y / 2 ^ k) → D' x b = D x b := by
  refine Tot.loop (P := fun s : Nat × Array (Array T) => s.1 < m ∧ (∃ k, s.1 = y / 2 ^ k) ∧ ∃ D', Rp (2 * n) (2 * m) s.2 D' ∧ (∀ j, 1 ≤ j → j < m → j ≠ s.1 → D' x j = D' x (2 * j) * D' x (2 * j + 1)) ∧
    (∀ a b, a ≠ x → D' a b = D a b) ∧ (∀ b, m ≤ b → D' x b = D x b) ∧ ∀ b, (∀ k, b ≠ y / 2 ^ k) → D' x b = D x b) (fun s => s.1) ?_
    ⟨by om, ⟨1, by simp⟩, D, h, hc, fun _ _ _ => rfl, fun _ _ => rfl, fun _ _ => rfl⟩ (by om)
  rintro ⟨k, d⟩ ⟨h1, ⟨p, hp⟩, D', h2, h3, h4, h5, h6⟩
  dsimp only at h1 hp h2 h3 h4 h5 h6
  unfold colStep
  dsimp only
  split
  next hz => exact Tot.pure ⟨D', h2, fun j a b => h3 j a b (by omega), h4, h5, h6⟩
  next hz =>
    refine Tot.bind (pullCol_tot h2 (i := x) (j := k) (by omega) (by omega)) fun d' hd' => ?_
    refine Tot.pure ⟨⟨by om, ⟨p + 1, by dsimp only; rw [hp, Nat.div_div_eq_div_mul, pow_succ]⟩, _, hd', ?_, ?_, ?_, ?_⟩, by om⟩
    · intro j a b c
      dsimp only at c
      by_cases e : j = k
      · subst e
        rw [upd_same, upd_ne _ _ (by omega), upd_ne _ _ (by omega)]
      · rw [upd_ne _ _ (by omega), upd_ne _ _ (by omega), upd_ne _ _ (by omega)]
        exact h3 j a b e
    · intro a b c
      rw [upd_ne _ _ (by omega), h4 a b c]
    · intro b hb
      rw [upd_ne _ _ (by omega), h5 b hb]
    · intro b hb
      have := hb p
      rw [upd_ne _ _ (by omega), h6 b hb]

open Classical in
/-- The loop over the cells of another row. -/
theorem cellLoop_tot {n m x y : Nat} (hx : 1 ≤ x) (hx' : x < n) (hy : y < 2 * m) (h : Rp (2 * n) (2 * m) t D) :
    Tot (loop (cellStep (· * ·) x) y (y, t)) fun s => Rp (2 * n) (2 * m) s.2 fun a b => if a = x ∧ 1 ≤ b ∧ ∃ k, b = y / 2 ^ k then D (2 * x) b * D (2 * x + 1) b else D a b := by
  refine Tot.loop (P := fun s : Nat × Array (Array T) => ∃ k, s.1 = y / 2 ^ k ∧ Rp (2 * n) (2 * m) s.2 fun a b => if a = x ∧ 1 ≤ b ∧ ∃ k' < k, b = y / 2 ^ k' then D (2 * x) b * D (2 * x + 1) b else D a b)
    (fun s => s.1) ?_ ⟨0, (by rw [pow_zero, Nat.div_one]), h.congr fun i j _ _ => (if_neg (by rintro ⟨_, _, k, hk, _⟩; omega)).symm⟩ le_rfl
  rintro ⟨c, d⟩ ⟨k, h1, h2⟩
  dsimp only at h1 h2
  unfold cellStep
  dsimp only
  split
  next hz =>
    refine Tot.pure (h2.congr fun i j hi hj => ?_)
    refine if_congr ⟨fun ⟨a, b, k', _, e⟩ => ⟨a, b, k', e⟩, fun ⟨a, b, k', e⟩ => ⟨a, b, k', ?_, e⟩⟩ rfl rfl
    by_contra hc
    have : y / 2 ^ k' ≤ y / 2 ^ k := Nat.div_le_div_left (Nat.pow_le_pow_right (by omega) (by omega)) (by positivity)
    omega
  next hz =>
    have hcy : c ≤ y := by rw [h1]; exact Nat.div_le_self _ _
    refine Tot.bind (pullRow_tot h2 (i := x) (j := c) (by omega) (by omega)) fun d' hd' => ?_
    refine Tot.pure ⟨⟨k + 1, by dsimp only; rw [h1, Nat.div_div_eq_div_mul, pow_succ], hd'.congr fun i j hi hj => ?_⟩, by om⟩
    by_cases e : i = x ∧ j = c
    · obtain ⟨rfl, rfl⟩ := e
      rw [upd_same, if_neg (by omega), if_neg (by omega), if_pos ⟨rfl, by omega, k, by omega, h1⟩]
    · rw [upd_ne _ _ e]
      refine if_congr ⟨fun ⟨a, b, k', hk', e⟩ => ⟨a, b, k', by omega, e⟩, fun ⟨a, b, k', hk', e'⟩ => ⟨a, b, k', ?_, e'⟩⟩ rfl rfl
      rcases Nat.lt_succ_iff_lt_or_eq.1 hk' with hh | hh
      · exact hh
      · subst hh
        exact absurd ⟨a, by rw [e', h1]⟩ e

open Classical in
/-- The loop over the other rows. -/
theorem rowLoop_tot {n m x y : Nat} (hx : x < 2 * n) (hy : y < 2 * m) (h : Rp (2 * n) (2 * m) t D)
    (hr : ∀ i j, 1 ≤ i → i < n → 1 ≤ j → j < 2 * m → (i ≠ x / 2 ∨ ∀ k, j ≠ y / 2 ^ k) → D i j = D (2 * i) j * D (2 * i + 1) j) :
    Tot (loop (rowStep (· * ·) y) x (x / 2, t)) fun s => ∃ D', Rp (2 * n) (2 * m) s.2 D' ∧ RowInv n m D' ∧ ∀ i j, n ≤ i → D' i j = D i j := by
  refine Tot.loop (P := fun s : Nat × Array (Array T) => s.1 < n ∧ ∃ D', Rp (2 * n) (2 * m) s.2 D' ∧
    (∀ i j, 1 ≤ i → i < n → 1 ≤ j → j < 2 * m → (i ≠ s.1 ∨ ∀ k, j ≠ y / 2 ^ k) → D' i j = D' (2 * i) j * D' (2 * i + 1) j) ∧ ∀ i j, n ≤ i → D' i j = D i j) (fun s => s.1) ?_
    ⟨by om, D, h, hr, fun _ _ _ => rfl⟩ (by om)
  rintro ⟨c, d⟩ ⟨h1, D', h2, h3, h4⟩
  dsimp only at h1 h2 h3 h4
  unfold rowStep
  dsimp only
  split
  next hz => exact Tot.pure ⟨D', h2, fun i j a b c d => h3 i j a b c d (by omega), h4⟩
  next hz =>
    refine Tot.bind (cellLoop_tot (x := c) (y := y) (by omega) h1 hy h2) ?_
    rintro ⟨c', d'⟩ hd'
    dsimp only at hd' ⊢
    refine Tot.pure ⟨⟨by om, _, hd', ?_, ?_⟩, by om⟩
    · intro i j a b p q r
      dsimp only at r ⊢
      by_cases e : i = c
      · subst e
        rw [if_neg (c := 2 * i = i ∧ _) (by omega), if_neg (c := 2 * i + 1 = i ∧ _) (by omega)]
        by_cases e' : ∃ k, j = y / 2 ^ k
        · rw [if_pos ⟨rfl, p, e'⟩]
        · rw [if_neg (by tauto)]
          exact h3 i j a b p q (.inr fun k hk => e' ⟨k, hk⟩)
      · rw [if_neg (c := i = c ∧ _) (by tauto)]
        by_cases e' : ∃ k, j = y / 2 ^ k
        · have : i ≠ c / 2 := by
            rcases r with r | r
            · exact r
            · exact absurd e'.choose_spec (r _)
          rw [if_neg (c := 2 * i = c ∧ _) (by omega), if_neg (c := 2 * i + 1 = c ∧ _) (by omega)]
          exact h3 i j a b p q (.inl e)
        · rw [if_neg (c := 2 * i = c ∧ _) (by tauto), if_neg (c := 2 * i + 1 = c ∧ _) (by tauto)]
          exact h3 i j a b p q (.inl e)
    · intro i j hi
      rw [if_neg (by omega), h4 i j hi]

theorem set_tot (h : Rep n m f s) {i j : Nat} (hi : i < n) (hj : j < m) (v : T) :
    Tot (set (· * ·) s i j v) (Rep n m fun x y => if x = i ∧ y = j then v else f x y) := by
  obtain ⟨h5, h6, D, hD, hc, hr, hf⟩ := h
  unfold set
  rw [decide_eq_true (by omega), check_true, ok_bind, h5, h6, Int.toNat_natCast, Int.toNat_natCast]
  dsimp only
  refine Tot.bind (hD.wr2 (i := n + i) (j := m + j) (by omega) (by omega) v) fun t1 h1 => ?_
  refine Tot.bind (colLoop_tot (n := n) (m := m) (x := n + i) (y := m + j) (by omega) (by omega) (by omega) h1 ?_) ?_
  · intro b hb hb' hne
    rw [upd_ne _ _ (by omega), upd_ne _ _ (by omega), upd_ne _ _ (by omega)]
    exact hc (n + i) (by omega) (by omega) b hb hb'
  rintro ⟨c2, t2⟩ ⟨D2, h2, hc2, ho2, hl2, ha2⟩
  dsimp only at h2 ⊢
  refine Tot.bind (rowLoop_tot (n := n) (m := m) (x := n + i) (y := m + j) (by omega) (by omega) h2 ?_) ?_
  · intro a b ha ha' hb hb' hne
    have key : ∀ c, (c ≠ n + i ∨ ∀ k, b ≠ (m + j) / 2 ^ k) → D2 c b = D c b := by
      intro c hc
      by_cases e : c = n + i
      · subst e
        have hk := hc.resolve_left (by simp)
        rw [ha2 b hk]
        have := hk 0
        rw [pow_zero, Nat.div_one] at this
        exact upd_ne _ _ (by omega)
      · rw [ho2 c b e]
        exact upd_ne _ _ (by omega)
    rw [key a (.inl (by omega)), key (2 * a) (by rcases hne with q | q; (· exact .inl (by omega)); exact .inr q), key (2 * a + 1) (by rcases hne with q | q; (· exact .inl (by omega)); exact .inr q)]
    exact hr a b ha ha' hb hb'
  rintro ⟨c3, t3⟩ ⟨D3, h3, hr3, hl3⟩
  dsimp only at h3 ⊢
  refine Tot.pure ⟨rfl, rfl, D3, h3, colInv_all ?_ hr3, hr3, ?_⟩
  · intro a ha ha' b hb hb'
    rw [hl3 a b ha, hl3 a _ ha, hl3 a _ ha]
    by_cases e : a = n + i
    · subst e
      exact hc2 b hb hb'
    · rw [ho2 a _ e, ho2 a _ e, ho2 a _ e, upd_ne _ _ (by omega), upd_ne _ _ (by omega), upd_ne _ _ (by omega)]
      exact hc a (by omega) ha' b hb hb'
  · intro a b ha hb
    rw [hl3 _ _ (by omega)]
    by_cases e : a = i
    · subst e
      rw [hl2 _ (by omega)]
      by_cases e' : b = j
      · subst e'
        rw [upd_same, if_pos ⟨rfl, rfl⟩]
      · rw [upd_ne _ _ (by omega), if_neg (by omega), hf a b ha hb]
    · rw [ho2 _ _ (by omega), upd_ne _ _ (by omega), if_neg (by omega), hf a b ha hb]

/-! ### The constructor -/

theorem fill_tot {a : Array (Array T)} {f : Nat → Nat → T} (ha : Rp n m a f) (h : Rp (2 * n) (2 * m) t D) :
    Tot (forUp 0 n t fun i dat => forUp 0 m dat fun j dat => do wr2 dat (n + i) (m + j) (← rd2 a i j)) fun t' => ∃ D', Rp (2 * n) (2 * m) t' D' ∧ ∀ i j, i < n → j < m → D' (n + i) (m + j) = f i j := by
  refine (Tot.forUp (P := fun i (t : Array (Array T)) => ∃ D', Rp (2 * n) (2 * m) t D' ∧ ∀ x y, x < i → y < m → D' (n + x) (m + y) = f x y) (Nat.zero_le _) ⟨D, h, fun _ _ h => by omega⟩ ?_)
  rintro i t1 - hi ⟨D1, h1, h2⟩
  refine (Tot.forUp (P := fun j (t : Array (Array T)) => ∃ D', Rp (2 * n) (2 * m) t D' ∧ ∀ x y, (x < i ∧ y < m ∨ x = i ∧ y < j) → D' (n + x) (m + y) = f x y) (Nat.zero_le _)
    ⟨D1, h1, fun x y h => h2 x y (by omega) (by omega)⟩ ?_).mono ?_
  · rintro j t2 - hj ⟨D2, h3, h4⟩
    rw [ha.rd2 hi hj, ok_bind]
    refine (h3.wr2 (by omega) (by omega) _).mono fun t3 h5 => ⟨_, h5, fun x y hxy => ?_⟩
    by_cases e : x = i ∧ y = j
    · obtain ⟨rfl, rfl⟩ := e
      rw [upd_same]
    · rw [upd_ne _ _ (by omega)]
      exact h4 x y (by omega)
  · rintro t3 ⟨D3, h3, h4⟩
    exact ⟨D3, h3, fun x y hx hy => h4 x y (by omega)⟩

theorem cols_tot {n m : Nat} (hm : 1 ≤ m) (hn : 1 ≤ n) (h : Rp (2 * n) (2 * m) t D) :
    Tot (forUp 1 (2 * n) t fun i dat => forDown m 1 dat fun j dat => pullCol (· * ·) dat i j) fun t' => ∃ D', Rp (2 * n) (2 * m) t' D' ∧ (∀ i, 1 ≤ i → i < 2 * n → ColInv m D' i) ∧
      ∀ i j, m ≤ j → D' i j = D i j := by
  refine (Tot.forUp (P := fun i (t : Array (Array T)) => ∃ D', Rp (2 * n) (2 * m) t D' ∧ (∀ x, 1 ≤ x → x < i → ColInv m D' x) ∧ ∀ i j, m ≤ j → D' i j = D i j) (by omega)
    ⟨D, h, fun _ _ h => by omega, fun _ _ _ => rfl⟩ ?_)
  rintro i t1 hi hi' ⟨D1, h1, h2, h3⟩
  refine (Tot.forDown (P := fun j (t : Array (Array T)) => ∃ D', Rp (2 * n) (2 * m) t D' ∧ (∀ x, 1 ≤ x → x < i → ColInv m D' x) ∧ (∀ y, j ≤ y → y < m → D' i y = D' i (2 * y) * D' i (2 * y + 1)) ∧
    ∀ i j, m ≤ j → D' i j = D i j) hm ⟨D1, h1, h2, fun _ _ _ => by omega, h3⟩ ?_).mono ?_
  · rintro j t2 hj hj' ⟨D2, h4, h5, h6, h7⟩
    refine (pullCol_tot h4 (by omega) (by omega)).mono fun t3 h8 => ⟨_, h8, ?_, ?_, ?_⟩
    · intro x hx hx' y hy hy'
      rw [upd_ne _ _ (by omega), upd_ne _ _ (by omega), upd_ne _ _ (by omega)]
      exact h5 x hx hx' y hy hy'
    · intro y hy hy'
      by_cases e : y = j
      · subst e
        rw [upd_same, upd_ne _ _ (by omega), upd_ne _ _ (by omega)]
      · rw [upd_ne _ _ (by omega), upd_ne _ _ (by omega), upd_ne _ _ (by omega)]
        exact h6 y (by omega) hy'
    · intro x y hy
      rw [upd_ne _ _ (by omega), h7 x y hy]
  · rintro t3 ⟨D3, h4, h5, h6, h7⟩
    refine ⟨D3, h4, fun x hx hx' => ?_, h7⟩
    by_cases e : x = i
    · subst e
      exact h6
    · exact h5 x hx (by omega)

theorem rows_tot {n m : Nat} (hm : 1 ≤ m) (hn : 1 ≤ n) (h : Rp (2 * n) (2 * m) t D) :
    Tot (forDown n 1 t fun i dat => forUp 1 (2 * m) dat fun j dat => pullRow (· * ·) dat i j) fun t' => ∃ D', Rp (2 * n) (2 * m) t' D' ∧ RowInv n m D' ∧ ∀ i j, n ≤ i → D' i j = D i j := by
  refine (Tot.forDown (P := fun i (t : Array (Array T)) => ∃ D', Rp (2 * n) (2 * m) t D' ∧ (∀ x y, i ≤ x → x < n → 1 ≤ y → y < 2 * m → D' x y = D' (2 * x) y * D' (2 * x + 1) y) ∧
    ∀ i j, n ≤ i → D' i j = D i j) hn ⟨D, h, fun _ _ _ _ => by omega, fun _ _ _ => rfl⟩ ?_)
  rintro i t1 hi hi' ⟨D1, h1, h2, h3⟩
  refine (Tot.forUp (P := fun j (t : Array (Array T)) => ∃ D', Rp (2 * n) (2 * m) t D' ∧ (∀ x y, (i + 1 ≤ x ∧ x < n ∧ 1 ≤ y ∧ y < 2 * m ∨ x = i ∧ 1 ≤ y ∧ y < j) → D' x y = D' (2 * x) y * D' (2 * x + 1) y) ∧
    ∀ i j, n ≤ i → D' i j = D i j) (by omega) ⟨D1, h1, fun x y h => h2 x y (by omega) (by omega) (by omega) (by omega), h3⟩ ?_).mono ?_
  · rintro j t2 hj hj' ⟨D2, h4, h5, h6⟩
    refine (pullRow_tot h4 (by omega) (by omega)).mono fun t3 h8 => ⟨_, h8, ?_, ?_⟩
    · intro x y hxy
      by_cases e : x = i ∧ y = j
      · obtain ⟨rfl, rfl⟩ := e
        rw [upd_same, upd_ne _ _ (by omega), upd_ne _ _ (by omega)]
      · rw [upd_ne _ _ (by omega), upd_ne _ _ (by omega), upd_ne _ _ (by omega)]
        exact h5 x y (by omega)
    · intro x y hx
      rw [upd_ne _ _ (by omega), h6 x y hx]
  · rintro t3 ⟨D3, h4, h5, h6⟩
    exact ⟨D3, h4, fun x y hx hx' hy hy' => h5 x y (by omega), h6⟩

theorem forUp_none {σ : Type} {lo hi : Nat} {s : σ} {g : Nat → σ → M σ} (h : hi ≤ lo) : forUp lo hi s g = .ok s := by
  unfold forUp
  rw [show hi - lo = 0 by omega]
  rfl

theorem forDown_none {σ : Type} {lo hi : Nat} {s : σ} {g : Nat → σ → M σ} (h : hi ≤ lo) : forDown hi lo s g = .ok s := by
  unfold forDown
  rw [show hi - lo = 0 by omega]
  rfl

theorem forUp_id {σ : Type} {lo hi : Nat} {s : σ} {g : Nat → σ → M σ} (h : ∀ i s, g i s = .ok s) : forUp lo hi s g = .ok s := by
  by_cases c : lo ≤ hi
  · obtain ⟨r, e, hr⟩ := Tot.forUp (f := g) (P := fun _ t => t = s) c rfl fun j t _ _ ht => by rw [h, ht]; exact Tot.pure rfl
    rw [e, hr]
  · exact forUp_none (by omega)

theorem forDown_id {σ : Type} {lo hi : Nat} {s : σ} {g : Nat → σ → M σ} (h : ∀ i s, g i s = .ok s) : forDown hi lo s g = .ok s := by
  by_cases c : lo ≤ hi
  · obtain ⟨r, e, hr⟩ := Tot.forDown (f := g) (P := fun _ t => t = s) c rfl fun j t _ _ ht => by rw [h, ht]; exact Tot.pure rfl
    rw [e, hr]
  · exact forDown_none (by omega)

/-- The columns of a vector of rows. -/
def width (a : Array (Array T)) : Nat := (a[0]?.getD #[]).size

theorem ofTable_tot {a : Array (Array T)} {f : Nat → Nat → T} (ha : Rp a.size (width a) a f) : Tot (ofTable (· * ·) 1 a) (Rep a.size (width a) f) := by
  unfold ofTable
  dsimp only
  have hw : (if a.size = 0 then return 0 else return (← rd a 0).size : M Nat) = .ok (width a) := by
    by_cases c : a.size = 0
    · rw [if_pos c]
      unfold width
      rw [Array.getElem?_eq_none (by omega)]
      rfl
    · rw [if_neg c, rd_eq (by omega), ok_bind]
      unfold width
      rw [Array.getElem?_eq_getElem (by omega)]
      rfl
  rw [hw, ok_bind]
  refine Tot.bind (fill_tot ha (Rp.replicate _ _ 1)) ?_
  rintro t1 ⟨D1, h1, h2⟩
  by_cases c : 1 ≤ a.size ∧ 1 ≤ width a
  · refine Tot.bind (cols_tot c.2 c.1 h1) ?_
    rintro t2 ⟨D2, h3, h4, h5⟩
    refine Tot.bind (rows_tot c.2 c.1 h3) ?_
    rintro t3 ⟨D3, h6, h7, h8⟩
    refine Tot.pure ⟨rfl, rfl, D3, h6, colInv_all ?_ h7, h7, ?_⟩
    · intro i hi hi' j hj hj'
      rw [h8 i _ hi, h8 i _ hi, h8 i _ hi]
      exact h4 i (by omega) hi' j hj hj'
    · intro i j hi hj
      rw [h8 _ _ (by omega), h5 _ _ (by omega), h2 i j hi hj]
  · have e1 : forUp 1 (2 * a.size) t1 (fun i dat => forDown (width a) 1 dat fun j dat => pullCol (· * ·) dat i j) = .ok t1 := by
      by_cases d : width a = 0
      · exact forUp_id fun i s => forDown_none (by omega)
      · exact forUp_none (by omega)
    have e2 : forDown a.size 1 t1 (fun i dat => forUp 1 (2 * width a) dat fun j dat => pullRow (· * ·) dat i j) = .ok t1 := by
      by_cases d : width a = 0
      · exact forDown_id fun i s => forUp_none (by omega)
      · exact forDown_none (by omega)
    rw [e1, ok_bind, e2, ok_bind]
    refine Tot.pure ⟨rfl, rfl, D1, h1, ?_, ?_, h2⟩
    · intro i hi hi' j hj hj'
      omega
    · intro i j hi hi' hj hj'
      omega

end SegmentTree2D
