import Verif.Proof.MaxRectangle

/-! # Proofs about `library/algorithm/{maximum_square,monotone_minima}.hpp` -/

namespace MaxSquare
open Cxx Grid MaxRectangle

variable {g : Array (Array Bool)} {m : Nat}

/-- There is an all-true square of side `k` whose bottom right cell is `(i, j)`. -/
def Sq (g : Array (Array Bool)) (i j k : Nat) : Prop := k ≤ i + 1 ∧ k ≤ j + 1 ∧ AllTrue g (i + 1 - k) (i + 1) (j + 1 - k) (j + 1)

/-- `k` is the side of the largest such square. -/
def Best (g : Array (Array Bool)) (i j : Nat) (k : Int) : Prop := ∃ s : Nat, k = s ∧ Sq g i j s ∧ ∀ s', Sq g i j s' → s' ≤ s

theorem Sq.mono {i j k k' : Nat} (h : Sq g i j k) (hk : k' ≤ k) : Sq g i j k' :=
  ⟨by have := h.1; omega, by have := h.2.1; omega, fun a b h1 h2 h3 h4 => h.2.2 a b (by omega) h2 (by omega) h4⟩

theorem best_false {i j : Nat} (h : on g i j = false) : Best g i j 0 := by
  refine ⟨0, rfl, ⟨by omega, by omega, fun a b h1 h2 => by omega⟩, fun s' hs => ?_⟩
  by_contra hn
  have := hs.2.2 i j (by omega) (by omega) (by omega) (by omega)
  rw [h] at this
  cases this

theorem sq_one {i j : Nat} (h : on g i j = true) : Sq g i j 1 := by
  refine ⟨by omega, by omega, fun a b h1 h2 h3 h4 => ?_⟩
  obtain rfl : a = i := by omega
  obtain rfl : b = j := by omega
  exact h

theorem sq_step {i j k : Nat} (h : on g (i + 1) (j + 1) = true) :
    Sq g (i + 1) (j + 1) (k + 1) ↔ Sq g (i + 1) j k ∧ Sq g i j k ∧ Sq g i (j + 1) k := by
  constructor
  · rintro ⟨h1, h2, h3⟩
    refine ⟨⟨by omega, by omega, fun a b q1 q2 q3 q4 => h3 a b (by omega) (by omega) (by omega) (by omega)⟩,
      ⟨by omega, by omega, fun a b q1 q2 q3 q4 => h3 a b (by omega) (by omega) (by omega) (by omega)⟩,
      ⟨by omega, by omega, fun a b q1 q2 q3 q4 => h3 a b (by omega) (by omega) (by omega) (by omega)⟩⟩
  · rintro ⟨⟨a1, a2, a3⟩, ⟨b1, b2, b3⟩, ⟨c1, c2, c3⟩⟩
    refine ⟨by omega, by omega, fun a b q1 q2 q3 q4 => ?_⟩
    by_cases ha : a = i + 1
    · by_cases hb : b = j + 1
      · subst ha hb
        exact h
      · exact a3 a b (by omega) (by omega) (by omega) (by omega)
    · by_cases hb : b = j + 1
      · exact c3 a b (by omega) (by omega) (by omega) (by omega)
      · exact b3 a b (by omega) (by omega) (by omega) (by omega)

/-- The previous row: zeros above row `0`. -/
def Prev (g : Array (Array Bool)) (m i : Nat) (pd : Array Int) : Prop :=
  pd.size = m ∧ ∀ j < m, (i = 0 ∧ at' 0 pd j = 0) ∨ ∃ i', i = i' + 1 ∧ Best g i' j (at' 0 pd j)

theorem value_tot {pd dp : Array Int} {i j : Nat} (hp : Prev g m i pd) (hj : j < m) (hd : dp.size = m) (hdp : ∀ b < j, Best g i b (at' 0 dp b)) (h : on g i j = true) :
    Tot (value pd dp j) fun v => Best g i j v := by
  rw [value]
  by_cases h0 : j = 0
  · subst h0
    rw [if_pos rfl]
    exact Tot.pure ⟨1, rfl, sq_one h, fun s' hs => by have := hs.2.1; omega⟩
  · have hp1 := hp.1
    rw [if_neg h0, rd_at 0 (by omega), ok_bind, rd_at 0 (by omega), ok_bind, rd_at 0 (by omega), ok_bind]
    refine Tot.pure ?_
    obtain ⟨j', rfl⟩ : ∃ j', j = j' + 1 := ⟨j - 1, by omega⟩
    rw [Nat.add_sub_cancel]
    obtain ⟨x, hx1, hx2, hx3⟩ := hdp j' (by omega)
    rcases hp.2 j' (by omega) with ⟨hi, hy⟩ | ⟨i', rfl, y, hy1, hy2, hy3⟩
    · subst hi
      rcases hp.2 (j' + 1) (by omega) with ⟨-, hz⟩ | ⟨i', hi', -⟩
      · refine ⟨1, ?_, sq_one h, fun s' hs => by have := hs.1; omega⟩
        rw [hx1, hy, hz]
        omega
      · omega
    · rcases hp.2 (j' + 1) (by omega) with ⟨hi, hz⟩ | ⟨i'', hi'', z, hz1, hz2, hz3⟩
      · omega
      · obtain rfl : i' = i'' := by omega
        refine ⟨1 + min (min x y) z, by rw [hx1, hy1, hz1]; push_cast; rfl, ?_, fun s' hs => ?_⟩
        · rw [Nat.add_comm 1]
          exact (sq_step h).2 ⟨hx2.mono (show min (min x y) z ≤ x by omega), hy2.mono (by omega), hz2.mono (by omega)⟩
        · cases s' with
          | zero => omega
          | succ k =>
            obtain ⟨q1, q2, q3⟩ := (sq_step h).1 hs
            have := hx3 k q1
            have := hy3 k q2
            have := hz3 k q3
            omega

/-- The reported square. -/
def Rep (g : Array (Array Bool)) (m : Nat) (maxL : Int) (sq : Int × Int × Int × Int) : Prop :=
  ∃ u d l r : Nat, sq = ((u : Int), (d : Int), (l : Int), (r : Int)) ∧ u ≤ d ∧ d ≤ g.size ∧ l ≤ r ∧ r ≤ m ∧ d - u = r - l ∧ maxL = ((d - u : Nat) : Int) ∧ AllTrue g u d l r

theorem row_tot (hg : Rect g m) {i : Nat} (hi : i < g.size) {s : State} (hp : Prev g m i s.dp) (hr : Rep g m s.maxL s.sq)
    (hb : ∀ a < i, ∀ b < m, ∀ k, Sq g a b k → (k : Int) ≤ s.maxL) :
    Tot (rowStep g m i s) fun t => Prev g m (i + 1) t.dp ∧ Rep g m t.maxL t.sq ∧ ∀ a < i + 1, ∀ b < m, ∀ k, Sq g a b k → (k : Int) ≤ t.maxL := by
  rw [rowStep]
  refine Tot.mono (P := fun (t : State) => t.dp.size = m ∧ (∀ b < m, Best g i b (at' 0 t.dp b)) ∧ (∀ b, m ≤ b → at' 0 t.dp b = 0) ∧ Rep g m t.maxL t.sq ∧
      (∀ a < i, ∀ b < m, ∀ k, Sq g a b k → (k : Int) ≤ t.maxL) ∧ ∀ b < m, ∀ k, Sq g i b k → (k : Int) ≤ t.maxL) ?_ ?_
  · refine Tot.forUp (P := fun j (t : State) => t.dp.size = m ∧ (∀ b < j, Best g i b (at' 0 t.dp b)) ∧ (∀ b, j ≤ b → at' 0 t.dp b = 0) ∧ Rep g m t.maxL t.sq ∧
      (∀ a < i, ∀ b < m, ∀ k, Sq g a b k → (k : Int) ≤ t.maxL) ∧ ∀ b < j, ∀ k, Sq g i b k → (k : Int) ≤ t.maxL) (Nat.zero_le _) ?_ ?_
    · refine ⟨by simp, fun b hb => by omega, fun b _ => ?_, hr, hb, fun b hb => by omega⟩
      by_cases hbm : b < m
      · simp [at', hbm]
      · exact at_ge 0 (by simpa using hbm)
    · rintro j ⟨dp, mx, sq⟩ - hj ⟨k1, k2, k3, k4, k5, k6⟩
      dsimp only at k1 k2 k3 k4 k5 k6
      rw [cellStep, cell_eq hg hi hj, ok_bind]
      cases hon : on g i j
      · rw [if_neg (by simp)]
        have hbest := best_false hon
        refine Tot.pure ⟨k1, fun b hb => ?_, fun b hb => k3 b (by omega), k4, k5, fun b hb k hk => ?_⟩
        · by_cases e : b = j
          · subst e
            dsimp only
            rw [k3 b (le_refl _)]
            exact hbest
          · exact k2 b (by omega)
        · by_cases e : b = j
          · subst e
            obtain ⟨s0, e0, -, hs0⟩ := hbest
            have := hs0 k hk
            obtain ⟨u, d, l, r, -, q1, -, -, -, -, q2, -⟩ := k4
            dsimp only
            omega
          · exact k6 b (by omega) k hk
      · rw [if_pos rfl, onTrue]
        refine Tot.bind (value_tot hp hj k1 k2 hon) ?_
        rintro v ⟨s0, rfl, hs0, hs1⟩
        rw [wr_eq (by dsimp only; omega), ok_bind]
        have hat : ∀ b, at' 0 (dp.setIfInBounds j (s0 : Int)) b = if b = j then (s0 : Int) else at' 0 dp b := fun b => Graph.at_set' 0 (by omega) _ _
        have hdp : ∀ b < j + 1, Best g i b (at' 0 (dp.setIfInBounds j (s0 : Int)) b) := by
          intro b hb
          rw [hat]
          by_cases e : b = j
          · subst e
            rw [if_pos rfl]
            exact ⟨s0, rfl, hs0, hs1⟩
          · rw [if_neg e]
            exact k2 b (by omega)
        have hz : ∀ b, j + 1 ≤ b → at' 0 (dp.setIfInBounds j (s0 : Int)) b = 0 := by
          intro b hb
          rw [hat, if_neg (by omega)]
          exact k3 b (by omega)
        refine Tot.pure ?_
        rw [upd]
        dsimp only
        by_cases hgt : (s0 : Int) > mx
        · rw [if_pos hgt]
          refine ⟨by simpa using k1, hdp, hz, ?_, fun a ha b hb k hk => ?_, fun b hb k hk => ?_⟩
          · refine ⟨i + 1 - s0, i + 1, j + 1 - s0, j + 1, ?_, by omega, by omega, by omega, by omega, ?_, ?_, hs0.2.2⟩
            · have := hs0.1
              have := hs0.2.1
              simp only [Prod.mk.injEq]
              refine ⟨by omega, by push_cast; rfl, by omega, by push_cast; rfl⟩
            · have := hs0.1
              have := hs0.2.1
              omega
            · have := hs0.1
              dsimp only
              omega
          · have := k5 a ha b hb k hk
            dsimp only
            omega
          · dsimp only
            by_cases e : b = j
            · subst e
              exact_mod_cast hs1 k hk
            · have := k6 b (by omega) k hk
              omega
        · rw [if_neg hgt]
          refine ⟨by simpa using k1, hdp, hz, k4, k5, fun b hb k hk => ?_⟩
          dsimp only
          by_cases e : b = j
          · subst e
            have := hs1 k hk
            omega
          · exact k6 b (by omega) k hk
  · rintro t ⟨k1, k2, k3, k4, k5, k6⟩
    refine ⟨⟨k1, fun j hj => Or.inr ⟨i, rfl, k2 j hj⟩⟩, k4, fun a ha b hb' k hk => ?_⟩
    by_cases e : a = i
    · subst e
      exact k6 b hb' k hk
    · exact k5 a (by omega) b hb' k hk

/-- A largest square with its area. -/
def IsMax (g : Array (Array Bool)) (m : Nat) (x : Int × Int × Int × Int × Int) : Prop :=
  ∃ u d l r : Nat, x.2 = ((u : Int), (d : Int), (l : Int), (r : Int)) ∧ u ≤ d ∧ d ≤ g.size ∧ l ≤ r ∧ r ≤ m ∧ d - u = r - l ∧ AllTrue g u d l r ∧
    x.1 = (((d - u) * (r - l) : Nat) : Int) ∧
    ∀ u' d' l' r', u' ≤ d' → d' ≤ g.size → l' ≤ r' → r' ≤ m → d' - u' = r' - l' → AllTrue g u' d' l' r' → (((d' - u') * (r' - l') : Nat) : Int) ≤ x.1

theorem maximum_tot (hg : Rect g m) (h0 : g.size = 0 → m = 0) (hsz : g.size * m < 2 ^ 31) : Tot (maximum g) (IsMax g m) := by
  rw [maximum]
  have hw : width g = .ok m := by
    rw [width]
    by_cases h : g.size = 0
    · rw [if_pos h, h0 h]
      rfl
    · rw [if_neg h, rd_eq (by omega), ok_bind]
      have := hg 0 _ (Array.getElem?_eq_getElem (by omega : 0 < g.size))
      rw [this]
      rfl
  rw [hw, ok_bind]
  refine Tot.bind (P := fun (t : State) => Prev g m g.size t.dp ∧ Rep g m t.maxL t.sq ∧ ∀ a < g.size, ∀ b < m, ∀ k, Sq g a b k → (k : Int) ≤ t.maxL) ?_ ?_
  · refine Tot.forUp (P := fun i (t : State) => Prev g m i t.dp ∧ Rep g m t.maxL t.sq ∧ ∀ a < i, ∀ b < m, ∀ k, Sq g a b k → (k : Int) ≤ t.maxL) (Nat.zero_le _) ?_ ?_
    · refine ⟨⟨by simp, fun j hj => Or.inl ⟨rfl, by simp [at', hj]⟩⟩, ⟨0, 0, 0, 0, rfl, le_refl _, Nat.zero_le _, le_refl _, Nat.zero_le _, rfl, rfl, fun a b h1 h2 => by omega⟩, fun a ha => by omega⟩
    · rintro i s - hi ⟨k1, k2, k3⟩
      exact row_tot hg hi k1 k2 k3
  · rintro ⟨dp, mx, sq⟩ ⟨-, ⟨u, d, l, r, q0, q1, q2, q3, q4, q5, q6, q7⟩, k3⟩
    dsimp only at q0 q6 k3 ⊢
    have hmul : mx * mx = (((d - u) * (r - l) : Nat) : Int) := by rw [q6, ← q5]; push_cast; rfl
    have hle : (d - u) * (r - l) ≤ g.size * m := Nat.mul_le_mul (by omega) (by omega)
    rw [hmul, i32_ok ⟨by omega, by omega⟩, ok_bind]
    refine Tot.pure ⟨u, d, l, r, q0, q1, q2, q3, q4, q5, q7, rfl, ?_⟩
    intro u' d' l' r' h1 h2 h3 h4 h5 h6
    by_cases hud : d' = u'
    · subst hud
      rw [Nat.sub_self, Nat.zero_mul]
      dsimp only
      omega
    have hsq : Sq g (d' - 1) (r' - 1) (d' - u') := by
      refine ⟨by omega, by omega, fun a b w1 w2 w3 w4 => h6 a b (by omega) (by omega) (by omega) (by omega)⟩
    have := k3 (d' - 1) (by omega) (r' - 1) (by omega) _ hsq
    dsimp only
    exact_mod_cast Nat.mul_le_mul (show d' - u' ≤ d - u by omega) (show r' - l' ≤ r - l by omega)

end MaxSquare

namespace MonotoneMinima
open Cxx

variable {V : Type} [LinearOrder V]

/-- `j` is the first column of row `i` attaining the minimum over the columns `[0, m)`. -/
def FirstMin (A : Nat → Nat → V) (m i j : Nat) : Prop := j < m ∧ (∀ k < m, A i j ≤ A i k) ∧ ∀ k < j, A i j < A i k

theorem exists_first (A : Nat → Nat → V) {m : Nat} (hm : 0 < m) (i : Nat) : ∃ j, FirstMin A m i j := by
  induction m with
  | zero => omega
  | succ m ih =>
    by_cases h : m = 0
    · subst h
      exact ⟨0, by omega, fun k hk => by obtain rfl : k = 0 := by omega
                                         exact le_refl _, fun k hk => by omega⟩
    · obtain ⟨j, h1, h2, h3⟩ := ih (by omega)
      by_cases hc : A i j ≤ A i m
      · refine ⟨j, by omega, fun k hk => ?_, h3⟩
        by_cases e : k = m
        · subst e
          exact hc
        · exact h2 k (by omega)
      · refine ⟨m, by omega, fun k hk => ?_, fun k hk => ?_⟩
        · by_cases e : k = m
          · subst e
            exact le_refl _
          · exact le_trans (not_le.1 hc).le (h2 k (by omega))
        · exact lt_of_lt_of_le (not_le.1 hc) (h2 k hk)

theorem FirstMin.unique {A : Nat → Nat → V} {m i j j' : Nat} (h : FirstMin A m i j) (h' : FirstMin A m i j') : j = j' := by
  rcases Nat.lt_trichotomy j j' with g | g | g
  · exact absurd (h.2.1 j' h'.1) (not_le.2 (h'.2.2 j g))
  · exact g
  · exact absurd (h'.2.1 j h.1) (not_le.2 (h.2.2 j' g))

theorem rec_tot {A : Nat → Nat → V} {n m : Nat} {compare : Nat → Nat → Nat → M Bool}
    (hc : ∀ i j1 j2, i < n → j1 < j2 → j2 < m → compare i j1 j2 = .ok (decide (A i j1 ≤ A i j2)))
    (hmono : ∀ i i' j j', i < i' → i' < n → FirstMin A m i j → FirstMin A m i' j' → j ≤ j') :
    ∀ fuel u d l r (res : Array Int), u ≤ d → d ≤ n → d - u ≤ fuel → r ≤ m → (u < d → l < r) → res.size = n →
      (∀ i j, u ≤ i → i < d → FirstMin A m i j → l ≤ j ∧ j < r) →
      Tot (rec compare fuel u d l r res) fun res' => res'.size = n ∧ (∀ i, ¬ (u ≤ i ∧ i < d) → res'[i]? = res[i]?) ∧
        ∀ i, u ≤ i → i < d → ∃ j : Nat, res'[i]? = some (j : Int) ∧ FirstMin A m i j := by
  intro fuel
  induction fuel with
  | zero =>
    intro u d l r res h1 h2 h3 h4 h5 h6 h7
    unfold rec
    rw [if_pos (by omega)]
    exact Tot.pure ⟨h6, fun _ _ => rfl, fun i _ _ => by omega⟩
  | succ fuel ih =>
    intro u d l r res h1 h2 h3 h4 h5 h6 h7
    unfold rec
    by_cases hud : u = d
    · rw [if_pos hud]
      exact Tot.pure ⟨h6, fun _ _ => rfl, fun i _ _ => by omega⟩
    · have hlr := h5 (by omega)
      rw [if_neg hud]
      dsimp only
      rw [decide_eq_true hlr, check_true, ok_bind]
      obtain ⟨row, hrow⟩ : ∃ row, row = (u + d) / 2 := ⟨_, rfl⟩
      rw [← hrow]
      have hrow1 : u ≤ row ∧ row < d := by omega
      refine Tot.bind (P := fun j => FirstMin A m row j) ?_ ?_
      · refine Tot.mono (P := fun j => l ≤ j ∧ j < r ∧ (∀ k, l ≤ k → k < r → A row j ≤ A row k) ∧ ∀ k, l ≤ k → k < j → A row j < A row k) ?_ ?_
        · refine Tot.forUp (P := fun c j => l ≤ j ∧ j < c ∧ (∀ k, l ≤ k → k < c → A row j ≤ A row k) ∧ ∀ k, l ≤ k → k < j → A row j < A row k) (by omega) ?_ ?_
          · refine ⟨le_refl _, by omega, fun k q1 q2 => ?_, fun k q1 q2 => by omega⟩
            obtain rfl : k = l := by omega
            exact le_refl _
          · rintro c j hc1 hc2 ⟨k1, k2, k3, k4⟩
            rw [colStep, hc row j c (by omega) k2 (by omega), ok_bind]
            refine Tot.pure ?_
            by_cases hle : A row j ≤ A row c
            · rw [decide_eq_true hle, if_pos rfl]
              refine ⟨k1, by omega, fun k q1 q2 => ?_, k4⟩
              by_cases e : k = c
              · subst e
                exact hle
              · exact k3 k q1 (by omega)
            · rw [decide_eq_false hle, if_neg (by simp)]
              refine ⟨by omega, by omega, fun k q1 q2 => ?_, fun k q1 q2 => lt_of_lt_of_le (not_le.1 hle) (k3 k q1 q2)⟩
              by_cases e : k = c
              · subst e
                exact le_refl _
              · exact le_trans (not_le.1 hle).le (k3 k q1 (by omega))
        · rintro j ⟨k1, k2, k3, k4⟩
          obtain ⟨j0, hj0⟩ := exists_first A (show 0 < m by omega) row
          obtain ⟨q1, q2⟩ := h7 row j0 hrow1.1 hrow1.2 hj0
          have : j = j0 := by
            rcases Nat.lt_trichotomy j j0 with g | g | g
            · exact absurd (k3 j0 q1 q2) (not_le.2 (hj0.2.2 j g))
            · exact g
            · exact absurd (hj0.2.1 j (by omega)) (not_le.2 (k4 j0 q1 g))
          rw [this]
          exact hj0
      · intro j hj
        have hjr := h7 row j hrow1.1 hrow1.2 hj
        rw [wr_eq (by omega), ok_bind]
        refine Tot.bind (ih u row l (j + 1) _ (by omega) (by omega) (by omega) (by omega) (by omega) (by simpa using h6) ?_) ?_
        · intro i j' q1 q2 hj'
          have := hmono i row j' j q2 (by omega) hj' hj
          have := h7 i j' q1 (by omega) hj'
          omega
        · rintro res1 ⟨p1, p2, p3⟩
          refine (ih (row + 1) d j r res1 (by omega) h2 (by omega) h4 (by omega) p1 ?_).mono ?_
          · intro i j' q1 q2 hj'
            have := hmono row i j j' (by omega) (by omega) hj hj'
            have := h7 i j' (by omega) q2 hj'
            omega
          · rintro res2 ⟨w1, w2, w3⟩
            refine ⟨w1, fun i hi => ?_, fun i q1 q2 => ?_⟩
            · rw [w2 i (by omega), p2 i (by omega), Array.getElem?_setIfInBounds_ne (by omega)]
            · by_cases e1 : i < row
              · rw [w2 i (by omega)]
                exact p3 i q1 e1
              · by_cases e2 : i = row
                · subst e2
                  exact ⟨j, by rw [w2 i (by omega), p2 i (by omega), Array.getElem?_setIfInBounds_self_of_lt (by omega)], hj⟩
                · exact w3 i (by omega) q2

theorem run_tot {A : Nat → Nat → V} {n m : Nat} {compare : Nat → Nat → Nat → M Bool} (hm : n = 0 ∨ 0 < m)
    (hc : ∀ i j1 j2, i < n → j1 < j2 → j2 < m → compare i j1 j2 = .ok (decide (A i j1 ≤ A i j2)))
    (hmono : ∀ i i' j j', i < i' → i' < n → FirstMin A m i j → FirstMin A m i' j' → j ≤ j') :
    Tot (run n m compare) fun res => res.size = n ∧ ∀ i < n, ∃ j : Nat, res[i]? = some (j : Int) ∧ FirstMin A m i j := by
  refine (rec_tot hc hmono n 0 n 0 m _ (Nat.zero_le _) (le_refl _) (by omega) (le_refl _) (by omega) (by simp) (fun i j _ _ hj => ⟨Nat.zero_le _, hj.1⟩)).mono ?_
  rintro res ⟨h1, -, h3⟩
  exact ⟨h1, fun i hi => h3 i (Nat.zero_le _) hi⟩

theorem run_assert {n : Nat} {compare : Nat → Nat → Nat → M Bool} (hn : 0 < n) : run n 0 compare = .error .assertion := by
  obtain ⟨k, rfl⟩ : ∃ k, n = k + 1 := ⟨n - 1, by omega⟩
  rw [run]
  unfold rec
  rw [if_neg (by omega)]
  rfl

end MonotoneMinima
