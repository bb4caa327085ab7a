import Verif.Proof.Gauss2

/-! # Proofs for `GaussianElimination`: backward elimination and the basis -/

namespace Gauss
open Cxx

variable {F : Type} [Field F] [DecidableEq F]

theorem scale_tot {inv : F} {u : Array F} {mse m : Nat} (hu : u.size = m + 1) (hm : mse ≤ m) :
    Tot (scale (o F) inv mse m u) fun v' => v'.size = m + 1 ∧ ∀ c, at' 0 v' c = if mse ≤ c then at' 0 u c * inv else at' 0 u c := by
  rw [scale]
  refine Tot.mono (P := fun (v' : Array F) => v'.size = m + 1 ∧ ∀ c, at' 0 v' c = if mse ≤ c ∧ c < m + 1 then at' 0 u c * inv else at' 0 u c) ?_ ?_
  · refine Tot.forUp (P := fun k (v' : Array F) => v'.size = m + 1 ∧ ∀ c, at' 0 v' c = if mse ≤ c ∧ c < k then at' 0 u c * inv else at' 0 u c) (by omega) ?_ ?_
    · exact ⟨hu, fun c => by rw [if_neg (by omega)]⟩
    · rintro col v' h1 h2 ⟨h3, h4⟩
      rw [rd_at 0 (by omega), ok_bind, wr_eq (by omega)]
      refine Tot.pure ⟨by simpa using h3, fun c => ?_⟩
      rw [Graph.at_set' 0 (by omega)]
      by_cases e : c = col
      · subst e
        rw [if_pos rfl, if_pos (by omega), h4, if_neg (by omega)]
        rfl
      · rw [if_neg e, h4]
        by_cases h : mse ≤ c ∧ c < col
        · rw [if_pos h, if_pos (by omega)]
        · rw [if_neg h, if_neg (by omega)]
  · rintro v' ⟨h1, h2⟩
    refine ⟨h1, fun c => ?_⟩
    rw [h2]
    by_cases hc : mse ≤ c
    · rw [if_pos hc]
      by_cases hc2 : c < m + 1
      · rw [if_pos ⟨hc, hc2⟩]
      · rw [if_neg (by omega), show at' 0 u c = 0 from at_ge _ (by omega), zero_mul]
    · rw [if_neg hc, if_neg (by omega)]

/-- The state of the backward phase once the rows from `i` on are done. -/
structure BInv (n m R : Nat) (p : Nat → Nat) (S : (Nat → F) → Prop) (i : Nat) (s : Back F) : Prop where
  shape : Shape n m s.Ab
  sol : ∀ x, Sol n m (ent s.Ab) x ↔ S x
  plt : ∀ k < R, p k < m
  pmono : ∀ k k', k < k' → k' < R → p k < p k'
  piv : ∀ k < R, ent s.Ab k (p k) ≠ 0
  zero : ∀ k < R, ∀ c < p k, ent s.Ab k c = 0
  rest : ∀ r, R ≤ r → r < n → ∀ c < m, ent s.Ab r c = 0
  rhs : ∀ r, R ≤ r → i ≤ r → r < n → ent s.Ab r m = 0
  one : ∀ k, i ≤ k → k < R → ent s.Ab k (p k) = 1
  up : ∀ k, i ≤ k → k < R → ∀ r < k, ent s.Ab r (p k) = 0
  xsize : s.x0.size = m
  xp : ∀ k, i ≤ k → k < R → at' 0 s.x0 (p k) = ent s.Ab k m
  xq : ∀ c < m, (∀ k, i ≤ k → k < R → p k ≠ c) → at' 0 s.x0 c = 0
  dsize : s.down.size = m
  down : ∀ c < m, at' false s.down c = true ↔ ∃ k, i ≤ k ∧ k < R ∧ p k = c
  num : s.basisNum = (m : Int) - ((R - i : Nat) : Int)

/-- Either no solution was detected, or the invariant holds. -/
def Good (n m R : Nat) (p : Nat → Nat) (S : (Nat → F) → Prop) (i : Nat) (s : Back F) : Prop :=
  if s.empty then ¬ ∃ x, S x else BInv n m R p S i s

theorem backPivot_tot {n m R i : Nat} {p : Nat → Nat} {S : (Nat → F) → Prop} {s : Back F} (h : BInv n m R p S (i + 1) s) (hi : i < R) (hR : R ≤ n) (he : s.empty = false) :
    Tot (backPivot (o F) m i (p i) s) (Good n m R p S i) := by
  have hs1 := h.shape.1
  have hs2 := h.shape.2 i (by omega)
  have hp := h.plt i hi
  rw [backPivot, rd_at #[] (by omega), ok_bind, rd_at 0 (by omega), ok_bind]
  refine Tot.bind (elim_tot (lo := 0) (hi := i) h.shape (by omega) (Nat.zero_le _) (by omega) (by omega) (by omega) (h.zero i hi) (h.piv i hi)) ?_
  rintro A ⟨a1, a2, a3⟩
  have hAi : ∀ c, ent A i c = ent s.Ab i c := fun c => a2 i c (by omega)
  rw [rd_at #[] (by have := a1.1; omega), ok_bind]
  refine Tot.bind (scale_tot (a1.2 i (by omega)) (by omega : p i ≤ m)) ?_
  rintro u ⟨u1, u2⟩
  obtain ⟨b1, b2⟩ := ent_set a1 (by omega : i < n) u1
  rw [wr_eq (by have := a1.1; omega), ok_bind, rd_at 0 (by omega), ok_bind, wr_eq (by have := h.xsize; omega), ok_bind, wr_eq (by have := h.dsize; omega), ok_bind]
  obtain ⟨D, hD⟩ : ∃ D, D = A.setIfInBounds i u := ⟨_, rfl⟩
  rw [← hD] at b1 b2 ⊢
  obtain ⟨w, hw⟩ : ∃ w, w = ent s.Ab i (p i) := ⟨_, rfl⟩
  have hw0 : w ≠ 0 := by rw [hw]; exact h.piv i hi
  have hzi := h.zero i hi
  have hDi : ∀ c, ent D i c = ent s.Ab i c * (1 / w) := by
    intro c
    rw [b2, if_pos rfl, u2]
    have e1 : at' 0 (at' #[] A i) c = ent s.Ab i c := hAi c
    have e2 : (o F).inv (at' 0 (at' #[] s.Ab i) (p i)) = 1 / w := by rw [hw]; rfl
    rw [e1, e2]
    by_cases hc : p i ≤ c
    · rw [if_pos hc]
    · rw [if_neg hc, hzi c (by omega), zero_mul]
  have hDlt : ∀ r < i, ent D r (p i) = 0 ∧ ∃ k : F, ∀ c, ent D r c = ent s.Ab r c + k * ent s.Ab i c := by
    intro r hr
    obtain ⟨k1, k, k2⟩ := a3 r (Nat.zero_le _) hr
    exact ⟨by rw [b2, if_neg (by omega)]; exact k1, k, fun c => by rw [b2, if_neg (by omega)]; exact k2 c⟩
  have hDgt : ∀ r, i < r → ∀ c, ent D r c = ent s.Ab r c := by
    intro r hr c
    rw [b2, if_neg (by omega)]
    exact a2 r c (by omega)
  have hpm : ∀ k, i < k → k < R → p i < p k := fun k h1 h2 => h.pmono i k h1 h2
  refine Tot.pure ?_
  rw [Good, if_neg (by simp [he])]
  refine ⟨b1, fun x => ?_, h.plt, h.pmono, fun k hk => ?_, fun k hk c hc => ?_, fun r q1 q2 c hc => ?_, fun r q1 q2 q3 => ?_, fun k q1 q2 => ?_, fun k q1 q2 r hr => ?_, ?_, fun k q1 q2 => ?_, fun c hc hn => ?_, ?_, fun c hc => ?_, ?_⟩
  · rw [sol_scale (i := i) (k := 1 / w) (e := ent A) (by simpa using hw0) (fun r c => ?_) x, sol_elim (i := i) (e := ent s.Ab) (by omega) hAi (fun r hr => ?_) x]
    · exact h.sol x
    · by_cases hr' : r < i
      · exact (a3 r (Nat.zero_le _) hr').2
      · exact ⟨0, fun c => by rw [zero_mul, add_zero]; exact a2 r c (by omega)⟩
    · by_cases e1 : r = i
      · rw [if_pos e1, e1, hDi, hAi]
      · rw [if_neg e1]
        rw [b2, if_neg e1]
  · show ent D k (p k) ≠ 0
    rcases Nat.lt_trichotomy k i with hk1 | rfl | hk1
    · obtain ⟨-, w', w2⟩ := hDlt k hk1
      rw [w2, hzi (p k) (h.pmono k i hk1 hi), mul_zero, add_zero]
      exact h.piv k hk
    · rw [hDi, ← hw]
      rw [mul_one_div_cancel hw0]
      exact one_ne_zero
    · rw [hDgt k hk1]
      exact h.piv k hk
  · show ent D k c = 0
    rcases Nat.lt_trichotomy k i with hk1 | rfl | hk1
    · obtain ⟨-, w', w2⟩ := hDlt k hk1
      rw [w2, hzi c (by have := h.pmono k i hk1 hi; omega), mul_zero, add_zero]
      exact h.zero k hk c hc
    · rw [hDi, hzi c hc, zero_mul]
    · rw [hDgt k hk1]
      exact h.zero k hk c hc
  · show ent D r c = 0
    rw [hDgt r (by omega)]
    exact h.rest r q1 q2 c hc
  · show ent D r m = 0
    rw [hDgt r (by omega)]
    exact h.rhs r q1 (by omega) q3
  · show ent D k (p k) = 1
    by_cases e1 : k = i
    · rw [e1, hDi, ← hw, mul_one_div_cancel hw0]
    · rw [hDgt k (by omega)]
      exact h.one k (by omega) q2
  · show ent D r (p k) = 0
    by_cases e1 : k = i
    · rw [e1]
      exact (hDlt r (by omega)).1
    · have hik : ent s.Ab i (p k) = 0 := h.up k (by omega) q2 i (by omega)
      rcases Nat.lt_trichotomy r i with hk1 | rfl | hk1
      · obtain ⟨-, w', w2⟩ := hDlt r hk1
        rw [w2, hik, mul_zero, add_zero]
        exact h.up k (by omega) q2 r hr
      · rw [hDi, hik, zero_mul]
      · rw [hDgt r hk1]
        exact h.up k (by omega) q2 r hr
  · simpa using h.xsize
  · show at' 0 (s.x0.setIfInBounds (p i) (at' 0 u m)) (p k) = ent D k m
    rw [Graph.at_set' 0 (by have := h.xsize; omega)]
    by_cases e1 : k = i
    · rw [e1, if_pos rfl, b2, if_pos rfl]
    · have := hpm k (by omega) q2
      rw [if_neg (by omega), hDgt k (by omega)]
      exact h.xp k (by omega) q2
  · show at' 0 (s.x0.setIfInBounds (p i) (at' 0 u m)) c = 0
    rw [Graph.at_set' 0 (by have := h.xsize; omega), if_neg (fun e1 => hn i (le_refl _) hi e1.symm)]
    exact h.xq c hc fun k k1 k2 => hn k (by omega) k2
  · simpa using h.dsize
  · show at' false (s.down.setIfInBounds (p i) true) c = true ↔ _
    rw [Graph.at_set' false (by have := h.dsize; omega)]
    by_cases e1 : c = p i
    · rw [if_pos e1]
      exact ⟨fun _ => ⟨i, le_refl _, hi, e1.symm⟩, fun _ => rfl⟩
    · rw [if_neg e1, h.down c hc]
      constructor
      · rintro ⟨k, k1, k2, k3⟩
        exact ⟨k, by omega, k2, k3⟩
      · rintro ⟨k, k1, k2, k3⟩
        refine ⟨k, ?_, k2, k3⟩
        by_contra hc'
        have : k = i := by omega
        exact e1 (by rw [← k3, this])
  · show s.basisNum - 1 = _
    rw [h.num]
    omega

theorem backStep_tot {n m R i : Nat} {p : Nat → Nat} {S : (Nat → F) → Prop} {s : Back F} (h : Good n m R p S (i + 1) s) (hi : i < n) (hR : R ≤ n) :
    Tot (backStep (o F) m i s) (Good n m R p S i) := by
  rw [backStep]
  by_cases he : s.empty = true
  · rw [if_pos he]
    refine Tot.pure ?_
    rw [Good, if_pos he] at h ⊢
    exact h
  · rw [if_neg he]
    rw [Good, if_neg he] at h
    rw [rd_at #[] (by have := h.shape.1; omega), ok_bind]
    refine Tot.bind (findNonzero_tot (by have := h.shape.2 i hi; omega) (m + 1) 0 (by omega) (Nat.zero_le _)) ?_
    rintro c ⟨-, c1, c2, c3⟩
    have c2' : ∀ t < c, ent s.Ab i t = 0 := fun t ht => c2 t (Nat.zero_le _) ht
    have c3' : c < m + 1 → ent s.Ab i c ≠ 0 := c3
    by_cases hiR : i < R
    · have hc : c = p i := by
        rcases Nat.lt_trichotomy c (p i) with h1 | h1 | h1
        · exact absurd (h.zero i hiR c h1) (c3' (by have := h.plt i hiR; omega))
        · exact h1
        · exact absurd (c2' _ h1) (h.piv i hiR)
      subst hc
      rw [if_pos (h.plt i hiR)]
      exact backPivot_tot h hiR hR (by simpa using he)
    · have hcm : ¬ c < m := fun hc => c3' (by omega) (h.rest i (by omega) hi c hc)
      rw [if_neg hcm]
      by_cases hc : c = m
      · rw [if_pos hc]
        refine Tot.pure ?_
        rw [Good, if_pos rfl]
        rintro ⟨x, hx⟩
        have := (h.sol x).2 hx i hi
        rw [Finset.sum_eq_zero (fun t ht => by rw [h.rest i (by omega) hi t (Finset.mem_range.1 ht), zero_mul])] at this
        exact c3' (by omega) (by rw [hc]; exact this.symm)
      · rw [if_neg hc]
        refine Tot.pure ?_
        rw [Good, if_neg he]
        exact { h with
          rhs := fun r q1 q2 q3 => by
            by_cases e1 : r = i
            · rw [e1]; exact c2' m (by omega)
            · exact h.rhs r q1 (by omega) q3
          one := fun k q1 q2 => by omega
          up := fun k q1 q2 => by omega
          xp := fun k q1 q2 => by omega
          xq := fun c hc hn => h.xq c hc fun k q1 q2 => by omega
          down := fun c hc => by
            rw [h.down c hc]
            constructor
            · rintro ⟨k, k1, k2, k3⟩; omega
            · rintro ⟨k, k1, k2, k3⟩; omega
          num := by rw [h.num]; omega }

/-! ## The basis -/

/-- `v` is the basis vector of the free column `f`. -/
def Vec (m R : Nat) (p : Nat → Nat) (e : Nat → Nat → F) (f : Nat) (v : Array F) : Prop :=
  v.size = m ∧ (∀ k < R, at' 0 v (p k) = e k f) ∧ (∀ c < m, (∀ k < R, p k ≠ c) → at' 0 v c = if c = f then -1 else 0)

theorem basisVector_tot {n m R f : Nat} {p : Nat → Nat} {S : (Nat → F) → Prop} {s : Back F} (h : BInv n m R p S 0 s) (hR : R ≤ n) (hf : f < m) (hfree : ∀ k < R, p k ≠ f)
    {v : Array F} (hv : v.size = m) : Tot (basisVector (o F) s.Ab s.down m f v) (Vec m R p (ent s.Ab) f) := by
  rw [basisVector]
  refine Tot.bind (P := fun (w : Nat × Array F) => w.2.size = m ∧ (∀ k < R, at' 0 w.2 (p k) = ent s.Ab k f) ∧ ∀ c < m, (∀ k < R, p k ≠ c) → at' 0 w.2 c = 0) ?_ ?_
  · refine Tot.mono (P := fun (w : Nat × Array F) => w.2.size = m ∧ w.1 ≤ R ∧ (∀ k < w.1, p k < m) ∧ (∀ k, w.1 ≤ k → k < R → m ≤ p k) ∧ (∀ k < w.1, at' 0 w.2 (p k) = ent s.Ab k f) ∧ ∀ c < m, (∀ k < R, p k ≠ c) → at' 0 w.2 c = 0) ?_ ?_
    · refine Tot.forUp (P := fun j (w : Nat × Array F) => w.2.size = m ∧ w.1 ≤ R ∧ (∀ k < w.1, p k < j) ∧ (∀ k, w.1 ≤ k → k < R → j ≤ p k) ∧ (∀ k < w.1, at' 0 w.2 (p k) = ent s.Ab k f) ∧ ∀ c < j, (∀ k < R, p k ≠ c) → at' 0 w.2 c = 0) (Nat.zero_le _) ?_ ?_
      · exact ⟨hv, Nat.zero_le _, fun k hk => by omega, fun k _ _ => Nat.zero_le _, fun k hk => by omega, fun c hc => by omega⟩
      · rintro j ⟨i, w⟩ - hj ⟨w1, w2, w3, w4, w5, w6⟩
        dsimp only at w1 w2 w3 w4 w5 w6
        rw [basisEntry]
        dsimp only
        rw [rd_at false (by have := h.dsize; omega), ok_bind]
        by_cases hd : at' false s.down j = true
        · rw [if_pos hd]
          obtain ⟨k, -, k1, k2⟩ := (h.down j hj).1 hd
          have hki : k = i := by
            rcases Nat.lt_trichotomy k i with h1 | h1 | h1
            · have := w3 k h1; omega
            · exact h1
            · have := h.pmono i k h1 k1
              have := w4 i (le_refl _) (by omega)
              omega
          subst hki
          rw [rd_at #[] (by have := h.shape.1; omega), ok_bind, rd_at 0 (by have := h.shape.2 k (by omega); omega), ok_bind, wr_eq (by omega), ok_bind]
          refine Tot.pure ⟨by simpa using w1, k1, fun k' hk' => ?_, fun k' q1 q2 => ?_, fun k' hk' => ?_, fun c hc hn => ?_⟩
          · dsimp only at hk'
            by_cases e1 : k' = k
            · rw [e1]; omega
            · have := w3 k' (by omega); omega
          · dsimp only at q1
            have := h.pmono k k' (by omega) q2
            omega
          · dsimp only at hk' ⊢
            rw [Graph.at_set' 0 (by omega)]
            by_cases e1 : k' = k
            · rw [e1, if_pos k2]
              rfl
            · have := w3 k' (by omega)
              rw [if_neg (by omega)]
              exact w5 k' (by omega)
          · dsimp only
            rw [Graph.at_set' 0 (by omega), if_neg (fun e1 => hn k k1 (by omega))]
            exact w6 c (by have := hn k k1; omega) hn
        · rw [if_neg hd, wr_eq (by omega), ok_bind]
          have hnd : ∀ k < R, p k ≠ j := fun k hk e1 => hd ((h.down j hj).2 ⟨k, Nat.zero_le _, hk, e1⟩)
          refine Tot.pure ⟨by simpa using w1, w2, fun k' hk' => ?_, fun k' q1 q2 => ?_, fun k' hk' => ?_, fun c hc hn => ?_⟩
          · have := w3 k' hk'; omega
          · have := w4 k' q1 q2
            have := hnd k' q2
            omega
          · dsimp only at hk' ⊢
            rw [Graph.at_set' 0 (by omega), if_neg (hnd k' (by omega))]
            exact w5 k' hk'
          · dsimp only
            rw [Graph.at_set' 0 (by omega)]
            by_cases e1 : c = j
            · rw [if_pos e1]
              rfl
            · rw [if_neg e1]
              exact w6 c (by omega) hn
    · rintro ⟨i, w⟩ ⟨w1, w2, w3, w4, w5, w6⟩
      dsimp only at w1 w2 w3 w4 w5 w6 ⊢
      have : i = R := by
        by_contra hne
        have := w4 i (le_refl _) (by omega)
        have := h.plt i (by omega)
        omega
      subst this
      exact ⟨w1, w5, w6⟩
  · rintro ⟨i, w⟩ ⟨w1, w2, w3⟩
    dsimp only at w1 w2 w3 ⊢
    rw [wr_eq (by omega)]
    refine Tot.pure ⟨by simpa using w1, fun k hk => ?_, fun c hc hn => ?_⟩
    · rw [Graph.at_set' 0 (by omega), if_neg (hfree k hk)]
      exact w2 k hk
    · rw [Graph.at_set' 0 (by omega)]
      by_cases e1 : c = f
      · rw [if_pos e1, if_pos e1]
        show (0 : F) - 1 = -1
        rw [zero_sub]
      · rw [if_neg e1, if_neg e1]
        exact w3 c hc hn

/-- The columns without pivot. -/
def Free (R : Nat) (p : Nat → Nat) (c : Nat) : Prop := ∀ k < R, p k ≠ c

instance (R : Nat) (p : Nat → Nat) : DecidablePred (Free R p) := fun c => inferInstanceAs (Decidable (∀ k < R, p k ≠ c))

theorem count_free {m R : Nat} {p : Nat → Nat} (hlt : ∀ k < R, p k < m) (hmono : ∀ k k', k < k' → k' < R → p k < p k') : Nat.count (Free R p) m + R = m := by
  rw [Nat.count_eq_card_filter_range]
  have h1 : (Finset.range m).filter (fun c => ¬ Free R p c) = (Finset.range R).image p := by
    ext c
    simp only [Finset.mem_filter, Finset.mem_range, Finset.mem_image, Free, not_forall, not_not]
    constructor
    · rintro ⟨-, k, hk, e⟩
      exact ⟨k, hk, e⟩
    · rintro ⟨k, hk, e⟩
      exact ⟨by rw [← e]; exact hlt k hk, k, hk, e⟩
  have h2 := Finset.card_filter_add_card_filter_not (s := Finset.range m) (Free R p)
  rw [h1, Finset.card_image_of_injOn, Finset.card_range, Finset.card_range] at h2
  · exact h2
  · intro a ha b hb hab
    simp only [Finset.coe_range, Set.mem_Iio] at ha hb
    rcases Nat.lt_trichotomy a b with h | h | h
    · have := hmono a b h hb; omega
    · exact h
    · have := hmono b a h ha; omega

/-- The outcome of `solve`. -/
def Outcome (n m : Nat) (S : (Nat → F) → Prop) (r : Result F) : Prop :=
  if r.empty then (¬ ∃ x, S x) ∧ r.basis.size = 0
  else ∃ R L p q, ∃ e : Nat → Nat → F, (∀ x, Sol n m e x ↔ S x) ∧ Rref n m R L p q e ∧ r.x0.size = m ∧ r.basis.size = L ∧ (∀ t < L, (at' #[] r.basis t).size = m) ∧
    Param m R L p q e (at' 0 r.x0) (fun t j => at' 0 (at' #[] r.basis t) j)

theorem finish_tot {n m R : Nat} {p : Nat → Nat} {S : (Nat → F) → Prop} {s : Back F} (h : Good n m R p S 0 s) (hR : R ≤ n) :
    Tot (finish (o F) m s) (Outcome n m S) := by
  rw [finish]
  by_cases he : s.empty = true
  · rw [if_pos he]
    refine Tot.pure ?_
    rw [Outcome, if_pos rfl]
    rw [Good, if_pos he] at h
    exact ⟨h, rfl⟩
  rw [if_neg he]
  rw [Good, if_neg he] at h
  have hcnt := count_free h.plt h.pmono
  have hnum : s.basisNum = (Nat.count (Free R p) m : Int) := by rw [h.num]; omega
  rw [if_neg (by omega), hnum, Int.toNat_natCast]
  obtain ⟨L, hL⟩ : ∃ L, L = Nat.count (Free R p) m := ⟨_, rfl⟩
  rw [← hL] at hcnt ⊢
  refine Tot.bind (P := fun (w : Nat × Array (Array F)) => w.2.size = L ∧ ∃ q : Nat → Nat, (∀ t < L, q t < m ∧ Free R p (q t) ∧ Vec m R p (ent s.Ab) (q t) (at' #[] w.2 t)) ∧
      (∀ t t', t < t' → t' < L → q t < q t') ∧ ∀ c < m, Free R p c → ∃ t < L, q t = c) ?_ ?_
  · refine Tot.mono (P := fun (w : Nat × Array (Array F)) => w.2.size = L ∧ (∀ t < L, (at' #[] w.2 t).size = m) ∧ w.1 = Nat.count (Free R p) m ∧
        ∃ q : Nat → Nat, (∀ t < w.1, q t < m ∧ Free R p (q t) ∧ Vec m R p (ent s.Ab) (q t) (at' #[] w.2 t)) ∧
        (∀ t t', t < t' → t' < w.1 → q t < q t') ∧ ∀ c < m, Free R p c → ∃ t < w.1, q t = c) ?_ ?_
    · refine Tot.forUp (P := fun j (w : Nat × Array (Array F)) => w.2.size = L ∧ (∀ t < L, (at' #[] w.2 t).size = m) ∧ w.1 = Nat.count (Free R p) j ∧
        ∃ q : Nat → Nat, (∀ t < w.1, q t < j ∧ Free R p (q t) ∧ Vec m R p (ent s.Ab) (q t) (at' #[] w.2 t)) ∧
        (∀ t t', t < t' → t' < w.1 → q t < q t') ∧ ∀ c < j, Free R p c → ∃ t < w.1, q t = c) (Nat.zero_le _) ?_ ?_
      · refine ⟨by simp, fun t ht => ?_, by simp, id, fun t ht => by omega, fun t t' h1 h2 => by omega, fun c hc => by omega⟩
        dsimp only
        rw [show at' #[] (Array.replicate L (Array.replicate m (o F).zero)) t = Array.replicate m (o F).zero by simp [at', ht]]
        simp
      · rintro j ⟨id', bs⟩ - hj ⟨w1, w2, w3, q, w4, w5, w6⟩
        dsimp only at w1 w2 w3 w4 w5 w6
        rw [basisStep]
        dsimp only
        rw [rd_at false (by have := h.dsize; omega), ok_bind]
        by_cases hd : at' false s.down j = true
        · rw [if_pos hd]
          obtain ⟨k, -, k1, k2⟩ := (h.down j hj).1 hd
          have hnf : ¬ Free R p j := fun hf => hf k k1 k2
          refine Tot.pure ⟨w1, w2, by dsimp only; rw [Nat.count_succ, if_neg hnf, add_zero, w3], q, fun t ht => ?_, w5, fun c hc hf => ?_⟩
          · obtain ⟨a1, a2⟩ := w4 t ht
            exact ⟨by omega, a2⟩
          · refine w6 c ?_ hf
            by_contra hc'
            exact hnf ((show c = j by omega) ▸ hf)
        · rw [if_neg hd]
          have hf : Free R p j := fun k hk e1 => hd ((h.down j hj).2 ⟨k, Nat.zero_le _, hk, e1⟩)
          have hidL : id' < L := by
            have : Nat.count (Free R p) (j + 1) ≤ Nat.count (Free R p) m := Nat.count_monotone _ (by omega)
            rw [Nat.count_succ, if_pos hf] at this
            omega
          rw [rd_at #[] (by omega), ok_bind]
          refine Tot.bind (basisVector_tot h hR hj hf (w2 id' hidL)) ?_
          intro v hv
          rw [wr_eq (by omega), ok_bind]
          have hset : ∀ t, at' #[] (bs.setIfInBounds id' v) t = if t = id' then v else at' #[] bs t := fun t => Graph.at_set' #[] (by omega) v t
          have hup1 : ∀ t < id', Function.update q id' j t = q t := fun t ht => Function.update_of_ne (by omega) _ _
          have hup2 : Function.update q id' j id' = j := Function.update_self _ _ _
          refine Tot.pure ⟨by simpa using w1, fun t ht => ?_, by dsimp only; rw [Nat.count_succ, if_pos hf, w3], Function.update q id' j, fun t ht => ?_, fun t t' h1 h2 => ?_, fun c hc hf' => ?_⟩
          · dsimp only
            rw [hset]
            split
            · exact hv.1
            · exact w2 t ht
          · dsimp only at ht ⊢
            rw [hset]
            by_cases e1 : t = id'
            · rw [if_pos e1, e1, hup2]
              exact ⟨by omega, hf, hv⟩
            · rw [if_neg e1, hup1 t (by omega)]
              obtain ⟨a1, a2⟩ := w4 t (by omega)
              exact ⟨by omega, a2⟩
          · dsimp only at h2
            rw [hup1 t (by omega)]
            by_cases e1 : t' = id'
            · rw [e1, hup2]
              exact (w4 t (by omega)).1
            · rw [hup1 t' (by omega)]
              exact w5 t t' h1 (by omega)
          · dsimp only
            by_cases e1 : c = j
            · exact ⟨id', by omega, by rw [hup2, e1]⟩
            · obtain ⟨t, t1, t2⟩ := w6 c (by omega) hf'
              exact ⟨t, by omega, by rw [hup1 t t1]; exact t2⟩
    · rintro ⟨id', bs⟩ ⟨w1, w2, w3, q, w4, w5, w6⟩
      dsimp only at w1 w2 w3 w4 w5 w6 ⊢
      rw [w3, ← hL] at w4 w5 w6
      exact ⟨w1, q, w4, w5, w6⟩
  · rintro ⟨id', bs⟩ ⟨w1, q, w4, w5, w6⟩
    dsimp only at w1 w4 w5 w6 ⊢
    refine Tot.pure ?_
    rw [Outcome, if_neg (by simp)]
    have pinj : ∀ k < R, ∀ k' < R, p k = p k' → k = k' := by
      intro a ha b hb hab
      rcases Nat.lt_trichotomy a b with h' | h' | h'
      · have := h.pmono a b h' hb; omega
      · exact h'
      · have := h.pmono b a h' ha; omega
    have qinj : ∀ k < L, ∀ k' < L, q k = q k' → k = k' := by
      intro a ha b hb hab
      rcases Nat.lt_trichotomy a b with h' | h' | h'
      · have := w5 a b h' hb; omega
      · exact h'
      · have := w5 b a h' ha; omega
    refine ⟨R, L, p, q, ent s.Ab, h.sol, ⟨hR, h.plt, fun t ht => (w4 t ht).1, pinj, qinj, fun k hk t ht => (w4 t ht).2.1 k hk, fun j hj => ?_, fun k hk => h.one k (Nat.zero_le _) hk, fun k hk r hr hne => ?_, fun r q1 q2 c hc => ?_⟩,
      h.xsize, w1, fun t ht => (w4 t ht).2.2.1, ⟨fun k hk => h.xp k (Nat.zero_le _) hk, fun t ht => h.xq _ (w4 t ht).1 fun k _ hk => (w4 t ht).2.1 k hk, fun t ht k hk => (w4 t ht).2.2.2.1 k hk, fun t ht t' ht' => ?_⟩⟩
    · by_cases hf : Free R p j
      · obtain ⟨t, t1, t2⟩ := w6 j hj hf
        exact Or.inr ⟨t, t1, t2.symm⟩
      · simp only [Free, not_forall, not_not] at hf
        obtain ⟨k, k1, k2⟩ := hf
        exact Or.inl ⟨k, k1, k2.symm⟩
    · rcases Nat.lt_trichotomy r k with h' | h' | h'
      · exact h.up k (Nat.zero_le _) hk r h'
      · exact absurd h' hne
      · exact h.zero r hr _ (h.pmono k r h' hr)
    · by_cases e1 : c = m
      · rw [e1]; exact h.rhs r q1 (Nat.zero_le _) q2
      · exact h.rest r q1 q2 c (by omega)
    · have := (w4 t ht).2.2.2.2 (q t') (w4 t' ht').1 (w4 t' ht').2.1
      dsimp only
      rw [this]
      by_cases e1 : t = t'
      · rw [if_pos (by rw [e1]), if_pos e1]
      · rw [if_neg (fun e2 => e1 (qinj t ht t' ht' e2.symm)), if_neg e1]

theorem solve_tot {n m : Nat} {Ab : Array (Array F)} (hs : Shape n m Ab) (hn : 0 < n) : Tot (solve (o F) Ab) (Outcome n m (Sol n m (ent Ab))) := by
  have h0 := hs.2 0 hn
  rw [solve, rd_at #[] (by have := hs.1; omega), ok_bind, if_neg (by omega)]
  dsimp only
  rw [show (at' #[] Ab 0).size - 1 = m by omega]
  refine Tot.bind (forward_tot hs) ?_
  rintro ⟨i, B⟩ ⟨h1, h2, R, p, hR, h3, h4⟩
  dsimp only at h1 h2 h3 h4 ⊢
  refine Tot.bind (P := Good n m R p (Sol n m (ent Ab)) 0) ?_ (fun s h => finish_tot h hR)
  rw [hs.1]
  refine Tot.forDown (P := Good n m R p (Sol n m (ent Ab))) (Nat.zero_le _) ?_ (fun j s _ hj h => backStep_tot h hj hR)
  rw [Good, if_neg (by simp)]
  exact { shape := h1, sol := h2, plt := h3.lt, pmono := h3.mono, piv := h3.piv, zero := h3.zero, rest := h4
          rhs := fun r _ q1 q2 => by omega
          one := fun k q1 q2 => by omega
          up := fun k q1 q2 => by omega
          xsize := by simp
          xp := fun k q1 q2 => by omega
          xq := fun c hc _ => by dsimp only; rw [ozero]; simp [at', hc]
          dsize := by simp
          down := fun c hc => by
            dsimp only
            constructor
            · intro h; simp [at', hc] at h
            · rintro ⟨k, k1, k2, k3⟩; omega
          num := by dsimp only; omega }

theorem at_push_lt {α : Type} (d : α) {a : Array α} {x : α} {i : Nat} (h : i < a.size) : at' d (a.push x) i = at' d a i := by
  rw [at', at', Array.getElem?_push_lt h, Array.getElem?_eq_getElem h]

theorem at_push_eq {α : Type} (d : α) {a : Array α} {x : α} : at' d (a.push x) a.size = x := by
  rw [at', Array.getElem?_push_size]
  rfl

theorem augment_tot {n m : Nat} {A : Array (Array F)} {b : Array F} (hn : A.size = n) (hb : b.size = n) (hA : ∀ r < n, (at' #[] A r).size = m) :
    Tot (forUp 0 A.size A (augment b)) fun Ab => Shape n m Ab ∧ ∀ r < n, (∀ c < m, ent Ab r c = ent A r c) ∧ ent Ab r m = at' 0 b r := by
  refine Tot.mono (P := fun (B : Array (Array F)) => B.size = n ∧ ∀ r < n, at' #[] B r = if r < A.size then (at' #[] A r).push (at' 0 b r) else at' #[] A r) ?_ ?_
  · refine Tot.forUp (P := fun j (B : Array (Array F)) => B.size = n ∧ ∀ r < n, at' #[] B r = if r < j then (at' #[] A r).push (at' 0 b r) else at' #[] A r) (Nat.zero_le _) ?_ ?_
    · exact ⟨hn, fun r _ => by rw [if_neg (by omega)]⟩
    · rintro j B - hj ⟨h1, h2⟩
      rw [augment, rd_at #[] (by omega), ok_bind, rd_at 0 (by omega), ok_bind, wr_eq (by omega)]
      refine Tot.pure ⟨by simpa using h1, fun r hr => ?_⟩
      rw [Graph.at_set' #[] (by omega)]
      by_cases e1 : r = j
      · rw [if_pos e1, if_pos (by omega), h2 j (by omega), if_neg (by omega), e1]
      · rw [if_neg e1, h2 r hr]
        by_cases e2 : r < j
        · rw [if_pos e2, if_pos (by omega)]
        · rw [if_neg e2, if_neg (by omega)]
  · rintro B ⟨h1, h2⟩
    refine ⟨⟨h1, fun r hr => ?_⟩, fun r hr => ⟨fun c hc => ?_, ?_⟩⟩
    · rw [h2 r hr, if_pos (by omega), Array.size_push, hA r hr]
    · rw [ent, h2 r hr, if_pos (by omega), ent]
      have := hA r hr
      exact at_push_lt 0 (by omega)
    · rw [ent, h2 r hr, if_pos (by omega)]
      have := hA r hr
      have e1 : m = (at' #[] A r).size := this.symm
      rw [e1]
      simp [at']

end Gauss
