import Verif.Model.IntervalHeap
import Verif.Proof.HeapArray

/-! # IntervalHeap: helper lemmas -/

namespace IntervalHeap
open Cxx HeapArray

variable {T : Type} {lt : T → T → Bool}

theorem dn (hw : StrictWeak lt) {x p c : T} (h : lt x p = true) (h' : lt c p = false) : lt c x = false := by
  by_contra hc
  rw [Bool.not_eq_false] at hc
  rw [hw.trans _ _ _ hc h] at h'
  cases h'

theorem upw (hw : StrictWeak lt) {q x z : T} (h : lt q x = true) (h' : lt q z = false) : lt x z = false := by
  by_contra hc
  rw [Bool.not_eq_false] at hc
  rw [hw.trans _ _ _ h hc] at h'
  cases h'

/-- What a swap does. -/
structure Swapped (d : T) (a b : Array T) (i j : Nat) : Prop where
  size : b.size = a.size
  mset : ms b = ms a
  eq_i : at' d b i = at' d a j
  eq_j : at' d b j = at' d a i
  other : ∀ k, k ≠ i → k ≠ j → at' d b k = at' d a k

theorem swap_tot (d : T) {a : Array T} {i j : Nat} (hi : i < a.size) (hj : j < a.size) : Tot (swap a i j) fun b => Swapped d a b i j := by
  unfold swap
  rw [rd_at d hi, ok_bind, rd_at d hj, ok_bind, wr_eq hi, ok_bind, wr_eq (by simpa using hj)]
  by_cases hij : i = j
  · subst hij
    have e : (a.setIfInBounds i (at' d a i)).setIfInBounds i (at' d a i) = a := by
      apply Array.ext
      · simp
      · intro k hk1 hk2
        simp only [at', hi, getElem?_pos, Option.getD_some, Array.setIfInBounds_setIfInBounds]
        rw [Array.getElem_setIfInBounds hk2]
        split
        next e => subst e; rfl
        next => rfl
    rw [e]
    exact Tot.pure ⟨rfl, rfl, rfl, rfl, fun _ _ _ => rfl⟩
  · refine Tot.pure ⟨by simp, ?_, ?_, ?_, fun k h1 h2 => ?_⟩
    · rw [ms_hole d hi hj hij, ms_self d hi]
    · rw [at_set d (by simpa using hj), if_neg (Ne.symm hij), at_set d hi, if_pos rfl]
    · rw [at_set d (by simpa using hj), if_pos rfl]
    · rw [at_set d (by simpa using hj), if_neg (Ne.symm h2), at_set d hi, if_neg (Ne.symm h1)]

def Low (lt : T → T → Bool) (n : Nat) (A : Nat → T) (e : Nat) : Prop := ∀ i, 2 ≤ i → i < n → i ≠ e → lt (A i) (A (minParent i)) = false
def Up (lt : T → T → Bool) (n : Nat) (A : Nat → T) (e : Nat) : Prop := ∀ i, 2 ≤ i → i < n → i ≠ e → lt (A (maxParent i)) (A i) = false
def Pair (lt : T → T → Bool) (n : Nat) (A : Nat → T) : Prop := ∀ i, i % 2 = 0 → i + 1 < n → lt (A (i + 1)) (A i) = false

/-- The intervals of the children are contained in the interval of the parent. -/
structure Good (lt : T → T → Bool) (n : Nat) (A : Nat → T) : Prop where
  low : Low lt n A 0
  up : Up lt n A 0
  pair : Pair lt n A

theorem Low.full {n : Nat} {A : Nat → T} {e : Nat} (h : Low lt n A e) (he : e < 2 ∨ lt (A e) (A (minParent e)) = false) : Low lt n A 0 := by
  intro i h1 h2 _
  by_cases hi : i = e
  · subst hi
    rcases he with he | he
    · omega
    · exact he
  · exact h i h1 h2 hi

theorem Up.full {n : Nat} {A : Nat → T} {e : Nat} (h : Up lt n A e) (he : e < 2 ∨ lt (A (maxParent e)) (A e) = false) : Up lt n A 0 := by
  intro i h1 h2 _
  by_cases hi : i = e
  · subst hi
    rcases he with he | he
    · omega
    · exact he
  · exact h i h1 h2 hi

theorem Low.weaken {n : Nat} {A : Nat → T} (h : Low lt n A 0) (e : Nat) : Low lt n A e := fun i h1 h2 _ => h i h1 h2 (by omega)
theorem Up.weaken {n : Nat} {A : Nat → T} (h : Up lt n A 0) (e : Nat) : Up lt n A e := fun i h1 h2 _ => h i h1 h2 (by omega)

/-- Postcondition of the repair loops. -/
def Fixed (lt : T → T → Bool) (d : T) (a b : Array T) : Prop := b.size = a.size ∧ ms b = ms a ∧ Good lt a.size (at' d b)

theorem fixMinUp_tot (hw : StrictWeak lt) (d : T) {a : Array T} {idx : Nat} (hi : idx < a.size) (he : idx % 2 = 0)
    (hL : Low lt a.size (at' d a) idx) (hU : Up lt a.size (at' d a) 0) (hP : Pair lt a.size (at' d a))
    (hbr : ∀ c, 2 ≤ c → c < a.size → minParent c = idx → 2 ≤ idx → lt (at' d a c) (at' d a (minParent idx)) = false) :
    Tot (fixMinUp lt a idx) (Fixed lt d a) := by
  unfold fixMinUp
  refine Tot.bind (Tot.loop
    (P := fun s : Array T × Nat => s.1.size = a.size ∧ ms s.1 = ms a ∧ s.2 < a.size ∧ s.2 % 2 = 0 ∧ Low lt a.size (at' d s.1) s.2 ∧
      Up lt a.size (at' d s.1) 0 ∧ Pair lt a.size (at' d s.1) ∧
      ∀ c, 2 ≤ c → c < a.size → minParent c = s.2 → 2 ≤ s.2 → lt (at' d s.1 c) (at' d s.1 (minParent s.2)) = false)
    (Q := fun s : Array T × Nat => Fixed lt d a s.1)
    (fun s => s.2) ?_ ⟨rfl, rfl, hi, he, hL, hU, hP, hbr⟩ le_rfl) (fun s hs => Tot.pure hs)
  rintro ⟨b, idx⟩ ⟨h1, h2, h3, h4, hL, hU, hP, hbr⟩
  dsimp only at h1 h2 h3 h4 hL hU hP hbr
  unfold minUpStep
  dsimp only
  split
  next hc =>
    obtain ⟨par, hpar⟩ : ∃ p, p = minParent idx := ⟨_, rfl⟩
    rw [← hpar] at hbr ⊢
    have hpar' : par = (idx - 2) / 4 * 2 := hpar
    rw [rd_at d (by omega), ok_bind, rd_at d (by omega), ok_bind]
    split
    next hlt =>
      refine Tot.bind (swap_tot d (by omega) (by omega)) fun b' hb => Tot.pure ⟨⟨hb.size.trans h1, hb.mset.trans h2, by om, by om, ?_, ?_, ?_, ?_⟩, by om⟩
      · dsimp only
        intro i i1 i2 i3
        by_cases e : i = idx
        · rw [e, ← hpar, hb.eq_i, hb.eq_j]
          exact hw.asymm hlt
        · rw [hb.other i e i3]
          by_cases e2 : minParent i = idx
          · rw [e2, hb.eq_i]; exact hbr i i1 i2 e2 hc
          · have hold := hL i i1 i2 e
            by_cases e3 : minParent i = par
            · rw [e3, hb.eq_j]; rw [e3] at hold; exact dn hw hlt hold
            · rw [hb.other _ e2 e3]; exact hold
      · dsimp only
        intro i i1 i2 i3
        have hm : maxParent i = (i - 2) / 4 * 2 + 1 := rfl
        rw [hb.other (maxParent i) (by omega) (by omega)]
        by_cases e : i = par
        · rw [e, hb.eq_j]
          exact dn hw hlt (by rw [← e]; exact hU i i1 i2 i3)
        · by_cases e2 : i = idx
          · rw [e2, hb.eq_i]
            have := hP par (by omega) (by omega)
            rwa [show maxParent idx = par + 1 by rw [hpar]; rfl]
          · rw [hb.other i e2 e]; exact hU i i1 i2 i3
      · dsimp only
        intro i i1 i2
        rw [hb.other (i + 1) (by omega) (by omega)]
        by_cases e : i = par
        · rw [e, hb.eq_j]
          exact dn hw hlt (by rw [← e]; exact hP i i1 i2)
        · by_cases e2 : i = idx
          · rw [e2, hb.eq_i]
            have := hL (idx + 1) (by omega) (by omega) (by omega)
            rwa [show minParent (idx + 1) = par by rw [hpar']; unfold minParent; omega] at this
          · rw [hb.other i e2 e]; exact hP i i1 i2
      · dsimp only
        intro c c1 c2 c3 c4
        have hm : minParent par = (par - 2) / 4 * 2 := rfl
        have hc : minParent c = (c - 2) / 4 * 2 := rfl
        rw [hb.other (minParent par) (by omega) (by omega)]
        have hpp := hL par c4 (by omega) (by omega)
        by_cases e : c = idx
        · rw [e, hb.eq_i]; exact hpp
        · rw [hb.other c e (by omega)]
          have := hL c c1 c2 e
          rw [c3] at this
          exact hw.neg _ _ _ this hpp
    next hlt =>
      exact Tot.pure ⟨h1, h2, hL.full (Or.inr (by rw [← hpar]; simpa using hlt)), hU, hP⟩
  next hc => exact Tot.pure ⟨h1, h2, hL.full (Or.inl (by omega)), hU, hP⟩

theorem fixMinUp_noop (d : T) {a : Array T} {idx : Nat} (hi : idx < a.size) (h : 2 ≤ idx → lt (at' d a idx) (at' d a (minParent idx)) = false) :
    fixMinUp lt a idx = .ok a := by
  have : minUpStep lt (a, idx) = .ok none := by
    unfold minUpStep
    dsimp only
    split
    next hc =>
      have hm : minParent idx = (idx - 2) / 4 * 2 := rfl
      rw [rd_at d (by omega), ok_bind, rd_at d (by omega), ok_bind, h hc]
      rfl
    next => rfl
  unfold fixMinUp
  cases idx <;> simp [loop, this]

theorem fixMaxUp_tot (hw : StrictWeak lt) (d : T) {a : Array T} {idx : Nat} (hi : idx < a.size) (he : idx % 2 = 1 ∨ idx + 1 = a.size)
    (hL : Low lt a.size (at' d a) 0) (hU : Up lt a.size (at' d a) idx) (hP : Pair lt a.size (at' d a))
    (hbr : ∀ c, 2 ≤ c → c < a.size → maxParent c = idx → 2 ≤ idx → lt (at' d a (maxParent idx)) (at' d a c) = false) :
    Tot (fixMaxUp lt a idx) (Fixed lt d a) := by
  unfold fixMaxUp
  refine Tot.bind (Tot.loop
    (P := fun s : Array T × Nat => s.1.size = a.size ∧ ms s.1 = ms a ∧ s.2 < a.size ∧ (s.2 % 2 = 1 ∨ s.2 + 1 = a.size) ∧ Low lt a.size (at' d s.1) 0 ∧
      Up lt a.size (at' d s.1) s.2 ∧ Pair lt a.size (at' d s.1) ∧
      ∀ c, 2 ≤ c → c < a.size → maxParent c = s.2 → 2 ≤ s.2 → lt (at' d s.1 (maxParent s.2)) (at' d s.1 c) = false)
    (Q := fun s : Array T × Nat => Fixed lt d a s.1)
    (fun s => s.2) ?_ ⟨rfl, rfl, hi, he, hL, hU, hP, hbr⟩ le_rfl) (fun s hs => Tot.pure hs)
  rintro ⟨b, idx⟩ ⟨h1, h2, h3, h4, hL, hU, hP, hbr⟩
  dsimp only at h1 h2 h3 h4 hL hU hP hbr
  unfold maxUpStep
  dsimp only
  split
  next hc =>
    obtain ⟨par, hpar⟩ : ∃ p, p = maxParent idx := ⟨_, rfl⟩
    rw [← hpar] at hbr ⊢
    have hpar' : par = (idx - 2) / 4 * 2 + 1 := hpar
    rw [rd_at d (by omega), ok_bind, rd_at d (by omega), ok_bind]
    split
    next hlt =>
      refine Tot.bind (swap_tot d (by omega) (by omega)) fun b' hb => Tot.pure ⟨⟨hb.size.trans h1, hb.mset.trans h2, by om, by om, ?_, ?_, ?_, ?_⟩, by om⟩
      · dsimp only
        intro i i1 i2 i3
        have hm : minParent i = (i - 2) / 4 * 2 := rfl
        rw [hb.other (minParent i) (by omega) (by omega)]
        by_cases e : i = par
        · rw [e, hb.eq_j]
          exact upw hw hlt (by rw [← e]; exact hL i i1 i2 i3)
        · by_cases e2 : i = idx
          · rw [e2, hb.eq_i]
            have := hP (par - 1) (by omega) (by omega)
            rw [show par - 1 + 1 = par by omega] at this
            rwa [show minParent idx = par - 1 by rw [hpar]; rfl]
          · rw [hb.other i e2 e]; exact hL i i1 i2 i3
      · dsimp only
        intro i i1 i2 i3
        by_cases e : i = idx
        · rw [e, ← hpar, hb.eq_i, hb.eq_j]
          exact hw.asymm hlt
        · rw [hb.other i e i3]
          by_cases e2 : maxParent i = idx
          · rw [e2, hb.eq_i]; exact hbr i i1 i2 e2 hc
          · have hold := hU i i1 i2 e
            by_cases e3 : maxParent i = par
            · rw [e3, hb.eq_j]; rw [e3] at hold; exact upw hw hlt hold
            · rw [hb.other _ e2 e3]; exact hold
      · dsimp only
        intro i i1 i2
        rw [hb.other i (by omega) (by omega)]
        by_cases e : i + 1 = par
        · rw [e, hb.eq_j]
          exact upw hw hlt (by rw [← e]; exact hP i i1 i2)
        · by_cases e2 : i + 1 = idx
          · rw [e2, hb.eq_i]
            have := hU i (by omega) (by omega) (by omega)
            rwa [show maxParent i = par by rw [hpar']; unfold maxParent minParent; omega] at this
          · rw [hb.other (i + 1) e2 e]; exact hP i i1 i2
      · dsimp only
        intro c c1 c2 c3 c4
        have hm : maxParent par = (par - 2) / 4 * 2 + 1 := rfl
        have hc : maxParent c = (c - 2) / 4 * 2 + 1 := rfl
        rw [hb.other (maxParent par) (by omega) (by omega)]
        have hpp := hU par c4 (by omega) (by omega)
        by_cases e : c = idx
        · rw [e, hb.eq_i]; exact hpp
        · rw [hb.other c e (by omega)]
          have := hU c c1 c2 e
          rw [c3] at this
          exact hw.neg _ _ _ hpp this
    next hlt =>
      exact Tot.pure ⟨h1, h2, hL, hU.full (Or.inr (by rw [← hpar]; simpa using hlt)), hP⟩
  next hc => exact Tot.pure ⟨h1, h2, hL, hU.full (Or.inl (by omega)), hP⟩

/-- All constraints that do not mention position `h`. -/
structure Hole (lt : T → T → Bool) (n : Nat) (A : Nat → T) (h : Nat) : Prop where
  low : ∀ i, 2 ≤ i → i < n → i ≠ h → minParent i ≠ h → lt (A i) (A (minParent i)) = false
  up : ∀ i, 2 ≤ i → i < n → i ≠ h → maxParent i ≠ h → lt (A (maxParent i)) (A i) = false
  pair : ∀ i, i % 2 = 0 → i + 1 < n → i ≠ h → i + 1 ≠ h → lt (A (i + 1)) (A i) = false

theorem fixUp_tot (hw : StrictWeak lt) (d : T) {a : Array T} {h : Nat} (hh : h < a.size) (hleaf : a.size ≤ 2 * (h / 2 * 2) + 2)
    (H : Hole lt a.size (at' d a) h) : Tot (fixUp lt a h) (Fixed lt d a) := by
  unfold fixUp
  dsimp only
  obtain ⟨l, hl⟩ : ∃ l, l = h / 2 * 2 := ⟨_, rfl⟩
  rw [← hl] at hleaf ⊢
  have mp : ∀ i, minParent i = (i - 2) / 4 * 2 := fun _ => rfl
  have xp : ∀ i, maxParent i = (i - 2) / 4 * 2 + 1 := fun _ => rfl
  split
  next hr =>
    -- after ordering the pair
    refine Tot.bind (P := fun b : Array T => b.size = a.size ∧ ms b = ms a ∧ Pair lt a.size (at' d b) ∧
      ((Low lt a.size (at' d b) l ∧ Up lt a.size (at' d b) 0) ∨ (Low lt a.size (at' d b) 0 ∧ Up lt a.size (at' d b) (l + 1)))) ?_ ?_
    · -- both orders, for an array `b` that agrees with `a` outside of the pair
      have caseL : ∀ b : Array T, b.size = a.size → (∀ k, k ≠ l → k ≠ l + 1 → at' d b k = at' d a k) →
          lt (at' d b (l + 1)) (at' d b l) = false →
          (2 ≤ l → lt (at' d b (l + 1)) (at' d a (minParent l)) = false ∧ lt (at' d a (maxParent l)) (at' d b (l + 1)) = false) →
          Pair lt a.size (at' d b) ∧ Low lt a.size (at' d b) l ∧ Up lt a.size (at' d b) 0 := by
        intro b hb ho hp hm
        refine ⟨?_, ?_, ?_⟩
        · intro i i1 i2
          by_cases e : i = l
          · rw [e]; exact hp
          · rw [ho i e (by omega), ho (i + 1) (by omega) (by omega)]
            exact H.pair i i1 i2 (by omega) (by omega)
        · intro i i1 i2 i3
          have := mp i
          rw [ho (minParent i) (by omega) (by omega)]
          by_cases e : i = l + 1
          · rw [e, show minParent (l + 1) = minParent l by rw [mp, mp]; omega]
            exact (hm (by omega)).1
          · rw [ho i i3 e]
            exact H.low i i1 i2 (by omega) (by omega)
        · intro i i1 i2 i3
          have := xp i
          rw [ho (maxParent i) (by omega) (by omega)]
          by_cases e : i = l + 1
          · rw [e, show maxParent (l + 1) = maxParent l by rw [xp, xp]; omega]
            exact (hm (by omega)).2
          · by_cases e2 : i = l
            · rw [e2]
              exact hw.neg _ _ _ (hm (by omega)).2 hp
            · rw [ho i e2 e]
              exact H.up i i1 i2 (by omega) (by omega)
      have caseR : ∀ b : Array T, b.size = a.size → (∀ k, k ≠ l → k ≠ l + 1 → at' d b k = at' d a k) →
          lt (at' d b (l + 1)) (at' d b l) = false →
          (2 ≤ l → lt (at' d b l) (at' d a (minParent l)) = false ∧ lt (at' d a (maxParent l)) (at' d b l) = false) →
          Pair lt a.size (at' d b) ∧ Low lt a.size (at' d b) 0 ∧ Up lt a.size (at' d b) (l + 1) := by
        intro b hb ho hp hm
        refine ⟨?_, ?_, ?_⟩
        · intro i i1 i2
          by_cases e : i = l
          · rw [e]; exact hp
          · rw [ho i e (by omega), ho (i + 1) (by omega) (by omega)]
            exact H.pair i i1 i2 (by omega) (by omega)
        · intro i i1 i2 i3
          have := mp i
          rw [ho (minParent i) (by omega) (by omega)]
          by_cases e : i = l + 1
          · rw [e, show minParent (l + 1) = minParent l by rw [mp, mp]; omega]
            exact hw.neg _ _ _ hp (hm (by omega)).1
          · by_cases e2 : i = l
            · rw [e2]; exact (hm (by omega)).1
            · rw [ho i e2 e]
              exact H.low i i1 i2 (by omega) (by omega)
        · intro i i1 i2 i3
          have := xp i
          rw [ho (maxParent i) (by omega) (by omega)]
          by_cases e2 : i = l
          · rw [e2]; exact (hm (by omega)).2
          · rw [ho i e2 i3]
            exact H.up i i1 i2 (by omega) (by omega)
      unfold order2
      rw [rd_at d hr, ok_bind, rd_at d (by omega), ok_bind]
      have hcase : h = l ∨ h = l + 1 := by omega
      -- the value that was in place respects the parent's interval
      have mL : h = l + 1 → 2 ≤ l → lt (at' d a l) (at' d a (minParent l)) = false ∧ lt (at' d a (maxParent l)) (at' d a l) = false := by
        intro e e2
        have := mp l; have := xp l
        exact ⟨H.low l e2 (by omega) (by omega) (by omega), H.up l e2 (by omega) (by omega) (by omega)⟩
      have mR : h = l → 2 ≤ l → lt (at' d a (l + 1)) (at' d a (minParent l)) = false ∧ lt (at' d a (maxParent l)) (at' d a (l + 1)) = false := by
        intro e e2
        have h1 := mp (l + 1); have h2 := xp (l + 1)
        have e1 : minParent (l + 1) = minParent l := by rw [mp, mp]; omega
        have e3 : maxParent (l + 1) = maxParent l := by rw [xp, xp]; omega
        have := H.low (l + 1) (by omega) (by omega) (by omega) (by omega)
        have := H.up (l + 1) (by omega) (by omega) (by omega) (by omega)
        rw [e1] at *; rw [e3] at *
        exact ⟨by assumption, by assumption⟩
      split
      next hlt =>
        refine (swap_tot d (by omega) (by omega)).mono fun b hb => ⟨hb.size, hb.mset, ?_⟩
        have hp : lt (at' d b (l + 1)) (at' d b l) = false := by rw [hb.eq_i, hb.eq_j]; exact hw.asymm hlt
        rcases hcase with e | e
        · have := caseR b hb.size hb.other hp (by rw [hb.eq_i]; exact mR e)
          exact ⟨this.1, Or.inr this.2⟩
        · have := caseL b hb.size hb.other hp (by rw [hb.eq_j]; exact mL e)
          exact ⟨this.1, Or.inl this.2⟩
      next hlt =>
        have hp : lt (at' d a (l + 1)) (at' d a l) = false := by simpa using hlt
        refine Tot.pure ⟨rfl, rfl, ?_⟩
        rcases hcase with e | e
        · have := caseL a rfl (fun _ _ _ => rfl) hp (mR e)
          exact ⟨this.1, Or.inl this.2⟩
        · have := caseR a rfl (fun _ _ _ => rfl) hp (mL e)
          exact ⟨this.1, Or.inr this.2⟩
    · rintro b ⟨b1, b2, b3, b4⟩
      rw [← b1] at b3 b4
      have noc : ∀ c, 2 ≤ c → c < b.size → maxParent c = l + 1 → 2 ≤ l + 1 → lt (at' d b (maxParent (l + 1))) (at' d b c) = false := by
        intro c c1 c2 c3 c4
        have := xp c
        omega
      rcases b4 with ⟨hL, hU⟩ | ⟨hL, hU⟩
      · refine Tot.bind (fixMinUp_tot hw d (by omega) (by omega) hL hU b3 ?_) ?_
        · intro c c1 c2 c3 c4
          have := mp c
          omega
        · rintro c ⟨c1, c2, c3⟩
          rw [← c1] at c3
          refine (fixMaxUp_tot hw d (idx := l + 1) (by omega) (Or.inl (by omega)) c3.low (c3.up.weaken _) c3.pair ?_).mono fun e he =>
            ⟨he.1.trans (c1.trans b1), he.2.1.trans (c2.trans b2), by have := he.2.2; rwa [c1, b1] at this⟩
          intro c' c1' c2' c3'
          have := xp c'
          omega
      · rw [fixMinUp_noop d (by omega) (fun h2 => hL l h2 (by omega) (by omega)), ok_bind]
        exact (fixMaxUp_tot hw d (idx := l + 1) (by omega) (Or.inl (by omega)) hL hU b3 noc).mono fun e he =>
            ⟨he.1.trans b1, he.2.1.trans b2, by have := he.2.2; rwa [b1] at this⟩
  next hr =>
    have hhl : h = l := by omega
    have hP : Pair lt a.size (at' d a) := fun i i1 i2 => H.pair i i1 i2 (by omega) (by omega)
    have hL : Low lt a.size (at' d a) l := fun i i1 i2 i3 => H.low i i1 i2 (by omega) (by have := mp i; omega)
    have hU : Up lt a.size (at' d a) l := fun i i1 i2 i3 => H.up i i1 i2 (by omega) (by have := xp i; omega)
    have fin : ∀ b : Array T, b.size = a.size → ms b = ms a → Pair lt a.size (at' d b) → Low lt a.size (at' d b) 0 → Up lt a.size (at' d b) l →
        Tot (fixMaxUp lt b l) (Fixed lt d a) := by
      intro b b1 b2 b3 b4 b5
      rw [← b1] at b3 b4 b5
      refine (fixMaxUp_tot hw d (idx := l) (by omega) (Or.inr (by omega)) b4 b5 b3 ?_).mono fun e he =>
            ⟨he.1.trans b1, he.2.1.trans b2, by have := he.2.2; rwa [b1] at this⟩
      intro c c1 c2 c3
      have := xp c
      omega
    by_cases hv : 2 ≤ l → lt (at' d a l) (at' d a (minParent l)) = false
    · rw [fixMinUp_noop d (by omega) hv, ok_bind]
      refine fin a rfl rfl hP (hL.full ?_) hU
      by_cases h2 : 2 ≤ l
      · exact Or.inr (hv h2)
      · exact Or.inl (by omega)
    · push Not at hv
      obtain ⟨h2, hv⟩ := hv
      rw [ne_eq, Bool.not_eq_false] at hv
      have hU' : Up lt a.size (at' d a) 0 := by
        refine hU.full (Or.inr ?_)
        have := mp l; have := xp l
        have := hP (minParent l) (by omega) (by omega)
        exact dn hw hv this
      refine Tot.bind (fixMinUp_tot hw d (by omega) (by omega) hL hU' hP ?_) ?_
      · intro c c1 c2 c3 c4
        have := mp c
        omega
      · rintro b ⟨b1, b2, b3⟩
        exact fin b b1 b2 b3.pair b3.low (b3.up.weaken _)

theorem pick_tot (hw : StrictWeak lt) (d : T) {a : Array T} {l r : Nat} (hl : l < a.size) :
    Tot (pick lt a l r) fun ch => ch < a.size ∧ (ch = l ∨ ch = r) ∧ lt (at' d a l) (at' d a ch) = false ∧ (r < a.size → lt (at' d a r) (at' d a ch) = false) := by
  unfold pick
  split
  next hr =>
    rw [rd_at d hr, ok_bind, rd_at d hl, ok_bind]
    split
    next hlt => exact Tot.pure ⟨hr, Or.inr rfl, hw.asymm hlt, fun _ => hw.irrefl _⟩
    next hlt => exact Tot.pure ⟨hl, Or.inl rfl, hw.irrefl _, fun _ => by simpa using hlt⟩
  next hr => exact Tot.pure ⟨hl, Or.inl rfl, hw.irrefl _, fun h => absurd h hr⟩

theorem fixMinDown_tot (hw : StrictWeak lt) (d : T) {a : Array T} (h0 : 0 < a.size) (H : Hole lt a.size (at' d a) 0) :
    Tot (fixMinDown lt a 0) (Fixed lt d a) := by
  have mp : ∀ i, minParent i = (i - 2) / 4 * 2 := fun _ => rfl
  have xp : ∀ i, maxParent i = (i - 2) / 4 * 2 + 1 := fun _ => rfl
  unfold fixMinDown
  refine Tot.bind (Tot.loop
    (P := fun s : Array T × Nat × Bool => s.1.size = a.size ∧ ms s.1 = ms a ∧
      ((s.2.2 = true ∧ Good lt a.size (at' d s.1)) ∨
       (s.2.2 = false ∧ s.2.1 < a.size ∧ s.2.1 % 2 = 0 ∧ Hole lt a.size (at' d s.1) s.2.1 ∧
        (2 ≤ s.2.1 → lt (at' d s.1 s.2.1) (at' d s.1 (minParent s.2.1)) = false) ∧
        ∀ c, 2 ≤ c → c < a.size → minParent c = s.2.1 → 2 ≤ s.2.1 → lt (at' d s.1 c) (at' d s.1 (minParent s.2.1)) = false)))
    (Q := fun s : Array T × Nat × Bool => Fixed lt d a s.1)
    (fun s => if s.2.2 then 0 else a.size - s.2.1 + 1) ?_ ⟨rfl, rfl, Or.inr ⟨rfl, h0, rfl, H, by simp, by simp⟩⟩ (by simp)) (fun s hs => Tot.pure hs)
  rintro ⟨b, idx, flag⟩ ⟨h1, h2, h3⟩
  dsimp only at h1 h2 h3
  unfold minDownStep
  dsimp only
  rcases h3 with ⟨rfl, hg⟩ | ⟨rfl, h3, h4, hH, hlo, hbr⟩
  · rw [if_pos rfl]; exact Tot.pure ⟨h1, h2, hg⟩
  rw [if_neg (by simp)]
  split
  next hleaf =>
    rw [← h1] at hH
    refine Tot.bind (fixUp_tot hw d (by omega) (by omega) hH) ?_
    rintro c ⟨c1, c2, c3⟩
    exact Tot.pure ⟨⟨c1.trans h1, c2.trans h2, Or.inl ⟨rfl, h1 ▸ c3⟩⟩, by simp⟩
  next hleaf =>
    refine Tot.bind (pick_tot hw d (by omega)) ?_
    rintro ch ⟨c1, c2, c3, c4⟩
    rw [rd_at d c1, ok_bind, rd_at d (by omega), ok_bind]
    have hmc : minParent ch = idx := by rw [mp]; omega
    -- `ch` is minimal among all positions below `idx`
    have hmin : ∀ c, 2 ≤ c → c < a.size → minParent c = idx → lt (at' d b c) (at' d b ch) = false := by
      intro c hc1 hc2 hc3
      have e := mp c
      have heven : ∀ c, 2 ≤ c → c < a.size → minParent c = idx → c % 2 = 0 → lt (at' d b c) (at' d b ch) = false := by
        intro c hc1 hc2 hc3 hc4
        have e := mp c
        obtain rfl | rfl : c = (idx + 1) * 2 ∨ c = (idx + 2) * 2 := by omega
        · exact c3
        · exact c4 (by omega)
      rcases Nat.mod_two_eq_zero_or_one c with h0 | h0
      · exact heven c hc1 hc2 hc3 h0
      · have h5 := heven (c - 1) (by omega) (by omega) (by rw [mp] at *; omega) (by omega)
        have h6 := hH.pair (c - 1) (by omega) (by omega) (by omega) (by omega)
        rw [show c - 1 + 1 = c by omega] at h6
        exact hw.neg _ _ _ h6 h5
    split
    next hlt =>
      refine Tot.bind (swap_tot d (by omega) (by omega)) fun b' hb => Tot.pure ⟨⟨hb.size.trans h1, hb.mset.trans h2, Or.inr ⟨rfl, by om, by om, ⟨?_, ?_, ?_⟩, ?_, ?_⟩⟩, ?_⟩
      · dsimp only
        intro i i1 i2 i3 i4
        have ei := mp i
        by_cases e : i = idx
        · rw [e, hb.eq_i, hb.other _ (by rw [mp]; omega) (by rw [mp]; omega)]
          exact hbr ch (by omega) (by omega) hmc (by omega)
        · rw [hb.other i e i3]
          by_cases e2 : minParent i = idx
          · rw [e2, hb.eq_i]; exact hmin i i1 i2 e2
          · rw [hb.other _ e2 i4]; exact hH.low i i1 i2 e e2
      · dsimp only
        intro i i1 i2 i3 i4
        have ei := xp i
        rw [hb.other (maxParent i) (by omega) i4]
        by_cases e : i = idx
        · -- the child's value fits below the maximum above `idx`
          rw [e, hb.eq_i]
          have p1 := hH.up (idx + 1) (by omega) (by omega) (by omega) (by rw [xp]; omega)
          rw [show maxParent (idx + 1) = maxParent idx by rw [xp, xp]; omega] at p1
          have p2 := hH.up ch (by omega) (by omega) (by omega) (by rw [xp]; omega)
          rw [show maxParent ch = idx + 1 by rw [xp]; rw [mp] at hmc; omega] at p2
          exact hw.neg _ _ _ p1 p2
        · rw [hb.other i e i3]; exact hH.up i i1 i2 e (by omega)
      · dsimp only
        intro i i1 i2 i3 i4
        rw [hb.other (i + 1) (by omega) i4]
        by_cases e : i = idx
        · rw [e, hb.eq_i]
          have p2 := hH.up ch (by omega) (by omega) (by omega) (by rw [xp]; omega)
          rwa [show maxParent ch = idx + 1 by rw [xp]; rw [mp] at hmc; omega] at p2
        · rw [hb.other i e i3]; exact hH.pair i i1 i2 e (by omega)
      · dsimp only
        intro _
        rw [hmc, hb.eq_i, hb.eq_j]
        exact hw.asymm hlt
      · dsimp only
        intro c hc1 hc2 hc3 _
        have e := mp c
        rw [hmc, hb.eq_i, hb.other c (by omega) (by omega), ← hc3]
        exact hH.low c hc1 hc2 (by omega) (by omega)
      · simp
        omega
    next hlt =>
      have hx : lt (at' d b ch) (at' d b idx) = false := by simpa using hlt
      have hub : lt (at' d b (idx + 1)) (at' d b idx) = false := by
        have p2 := hH.up ch (by omega) (by omega) (by omega) (by rw [xp]; omega)
        rw [show maxParent ch = idx + 1 by rw [xp]; rw [mp] at hmc; omega] at p2
        exact hw.neg _ _ _ p2 hx
      refine Tot.pure ⟨h1, h2, ?_, ?_, ?_⟩
      · intro i i1 i2 i3
        by_cases e : i = idx
        · rw [e]; exact hlo (by omega)
        · by_cases e2 : minParent i = idx
          · rw [e2]; exact hw.neg _ _ _ (hmin i i1 i2 e2) hx
          · exact hH.low i i1 i2 e e2
      · intro i i1 i2 i3
        by_cases e : i = idx
        · rw [e]
          have p1 := hH.up (idx + 1) (by omega) (by omega) (by omega) (by rw [xp]; omega)
          rw [show maxParent (idx + 1) = maxParent idx by rw [xp, xp]; omega] at p1
          exact hw.neg _ _ _ p1 hub
        · exact hH.up i i1 i2 e (by rw [xp]; omega)
      · intro i i1 i2
        by_cases e : i = idx
        · rw [e]; exact hub
        · exact hH.pair i i1 i2 e (by omega)

theorem clip_le {n ch : Nat} (h : n ≤ ch) : clip n ch = ch - 1 := if_pos h
theorem clip_gt {n ch : Nat} (h : ch < n) : clip n ch = ch := if_neg (by omega)

theorem fixMaxDown_tot (hw : StrictWeak lt) (d : T) {a : Array T} (h0 : 2 ≤ a.size) (H : Hole lt a.size (at' d a) 1) :
    Tot (fixMaxDown lt a 1) (Fixed lt d a) := by
  have mp : ∀ i, minParent i = (i - 2) / 4 * 2 := fun _ => rfl
  have xp : ∀ i, maxParent i = (i - 2) / 4 * 2 + 1 := fun _ => rfl
  unfold fixMaxDown
  refine Tot.bind (Tot.loop
    (P := fun s : Array T × Nat × Bool => s.1.size = a.size ∧ ms s.1 = ms a ∧
      ((s.2.2 = true ∧ Good lt a.size (at' d s.1)) ∨
       (s.2.2 = false ∧ 1 ≤ s.2.1 ∧ s.2.1 < a.size ∧ (s.2.1 % 2 = 1 ∨ s.2.1 + 1 = a.size) ∧ Hole lt a.size (at' d s.1) s.2.1 ∧
        (2 ≤ s.2.1 → lt (at' d s.1 (maxParent s.2.1)) (at' d s.1 s.2.1) = false) ∧
        ∀ c, 2 ≤ c → c < a.size → maxParent c = s.2.1 → 2 ≤ s.2.1 → lt (at' d s.1 (maxParent s.2.1)) (at' d s.1 c) = false)))
    (Q := fun s : Array T × Nat × Bool => Fixed lt d a s.1)
    (fun s => if s.2.2 then 0 else a.size - s.2.1 + 1) ?_ ⟨rfl, rfl, Or.inr ⟨rfl, le_rfl, h0, Or.inl rfl, H, by simp, by simp⟩⟩ (by simp)) (fun s hs => Tot.pure hs)
  rintro ⟨b, idx, flag⟩ ⟨h1, h2, h3⟩
  dsimp only at h1 h2 h3
  unfold maxDownStep
  dsimp only
  rcases h3 with ⟨rfl, hg⟩ | ⟨rfl, h3', h3, h4, hH, hlo, hbr⟩
  · rw [if_pos rfl]; exact Tot.pure ⟨h1, h2, hg⟩
  rw [if_neg (by simp)]
  obtain ⟨lch, hlch⟩ : ∃ c, c = clip b.size (2 * idx + 1) := ⟨_, rfl⟩
  obtain ⟨rch, hrch⟩ : ∃ c, c = clip b.size (2 * idx + 3) := ⟨_, rfl⟩
  rw [← hlch, ← hrch]
  unfold clip at hlch hrch
  split
  next hleaf =>
    have hle : b.size ≤ 2 * idx := by split at hlch <;> omega
    rw [← h1] at hH
    refine Tot.bind (fixUp_tot hw d (by omega) (by omega) hH) ?_
    rintro c ⟨c1, c2, c3⟩
    exact Tot.pure ⟨⟨c1.trans h1, c2.trans h2, Or.inl ⟨rfl, h1 ▸ c3⟩⟩, by simp⟩
  next hleaf =>
    have hl : lch < a.size ∧ (lch = 2 * idx + 1 ∨ (lch = 2 * idx ∧ 2 * idx + 1 = a.size)) := by split at hlch <;> omega
    have hr : rch < a.size → (rch = 2 * idx + 3 ∨ (rch = 2 * idx + 2 ∧ 2 * idx + 3 = a.size)) := by split at hrch <;> omega
    have hr' : 2 * idx + 2 < a.size → rch < a.size := by split at hrch <;> omega
    clear hlch hrch
    have hodd : idx % 2 = 1 := by omega
    refine Tot.bind (pick_tot hw.swap d (by omega)) ?_
    rintro ch ⟨c1, c2, c3, c4⟩
    rw [rd_at d (by omega), ok_bind, rd_at d c1, ok_bind]
    have hch : ch = 2 * idx + 1 ∨ ch = 2 * idx + 3 ∨ ((ch = 2 * idx ∨ ch = 2 * idx + 2) ∧ ch + 1 = a.size) := by
      rcases c2 with rfl | rfl
      · omega
      · have := hr (by omega); omega
    have hmc : maxParent ch = idx := by rw [xp]; omega
    have hmc' : minParent ch = idx - 1 := by rw [mp]; omega
    -- `ch` is maximal among all positions below `idx`
    have hmax : ∀ c, 2 ≤ c → c < a.size → maxParent c = idx → lt (at' d b ch) (at' d b c) = false := by
      intro c hc1 hc2 hc3
      have e := xp c
      obtain rfl | rfl | rfl | rfl : c = 2 * idx ∨ c = 2 * idx + 1 ∨ c = 2 * idx + 2 ∨ c = 2 * idx + 3 := by omega
      · rcases hl.2 with h5 | h5
        · have h6 := hH.pair (2 * idx) (by omega) (by omega) (by omega) (by omega)
          rw [← h5] at h6
          exact hw.neg _ _ _ c3 h6
        · rw [← h5.1]; exact c3
      · rcases hl.2 with h5 | h5
        · rw [← h5]; exact c3
        · omega
      · rcases hr (hr' (by omega)) with h5 | h5
        · have h6 := hH.pair (2 * idx + 2) (by omega) (by have := hr' (by omega); omega) (by omega) (by omega)
          rw [show 2 * idx + 2 + 1 = rch by omega] at h6
          exact hw.neg _ _ _ (c4 (by have := hr' (by omega); omega)) h6
        · rw [← h5.1]; exact c4 (by have := hr' (by omega); omega)
      · rcases hr (hr' (by omega)) with h5 | h5
        · rw [← h5]; exact c4 (by have := hr' (by omega); omega)
        · omega
    have hlow : lt (at' d b ch) (at' d b (idx - 1)) = false := by
      have := hH.low ch (by omega) (by omega) (by omega) (by omega)
      rwa [hmc'] at this
    have hlow2 : 2 ≤ idx → lt (at' d b (idx - 1)) (at' d b (minParent idx)) = false := by
      intro h
      have := hH.low (idx - 1) (by omega) (by omega) (by omega) (by rw [mp]; omega)
      rwa [show minParent (idx - 1) = minParent idx by rw [mp, mp]; omega] at this
    split
    next hlt =>
      refine Tot.bind (swap_tot d (by omega) (by omega)) fun b' hb => Tot.pure ⟨⟨hb.size.trans h1, hb.mset.trans h2, Or.inr ⟨rfl, by om, by om, by om, ⟨?_, ?_, ?_⟩, ?_, ?_⟩⟩, ?_⟩
      · dsimp only
        intro i i1 i2 i3 i4
        have ei := mp i
        rw [hb.other (minParent i) (by omega) i4]
        by_cases e : i = idx
        · rw [e, hb.eq_i]
          exact hw.neg _ _ _ hlow (hlow2 (by omega))
        · rw [hb.other i e i3]; exact hH.low i i1 i2 e (by omega)
      · dsimp only
        intro i i1 i2 i3 i4
        have ei := xp i
        by_cases e : i = idx
        · rw [e, hb.eq_i, hb.other _ (by rw [xp]; omega) (by rw [xp]; omega)]
          exact hbr ch (by omega) (by omega) hmc (by omega)
        · rw [hb.other i e i3]
          by_cases e2 : maxParent i = idx
          · rw [e2, hb.eq_i]; exact hmax i i1 i2 e2
          · rw [hb.other _ e2 i4]; exact hH.up i i1 i2 e e2
      · dsimp only
        intro i i1 i2 i3 i4
        rw [hb.other i (by omega) i3]
        by_cases e : i + 1 = idx
        · rw [e, hb.eq_i, show i = idx - 1 by omega]; exact hlow
        · rw [hb.other (i + 1) e i4]; exact hH.pair i i1 i2 (by omega) e
      · dsimp only
        intro _
        rw [hmc, hb.eq_i, hb.eq_j]
        exact hw.asymm hlt
      · dsimp only
        intro c hc1 hc2 hc3 _
        have e := xp c
        rw [hmc, hb.eq_i, hb.other c (by omega) (by omega), ← hc3]
        exact hH.up c hc1 hc2 (by omega) (by omega)
      · simp
        omega
    next hlt =>
      have hx : lt (at' d b idx) (at' d b ch) = false := by simpa using hlt
      refine Tot.pure ⟨h1, h2, ?_, ?_, ?_⟩
      · intro i i1 i2 i3
        by_cases e : i = idx
        · rw [e]; exact hw.neg _ _ _ (hw.neg _ _ _ hx hlow) (hlow2 (by omega))
        · exact hH.low i i1 i2 e (by rw [mp]; omega)
      · intro i i1 i2 i3
        by_cases e : i = idx
        · rw [e]; exact hlo (by omega)
        · by_cases e2 : maxParent i = idx
          · rw [e2]; exact hw.neg _ _ _ hx (hmax i i1 i2 e2)
          · exact hH.up i i1 i2 e e2
      · intro i i1 i2
        by_cases e : i + 1 = idx
        · rw [e, show i = idx - 1 by omega]; exact hw.neg _ _ _ hx hlow
        · exact hH.pair i i1 i2 (by omega) e

/-! ### The public operations -/

/-- The invariant, without a default value. -/
def Inv (lt : T → T → Bool) (a : Array T) : Prop := ∀ d : T, Good lt a.size (at' d a)

theorem inv_of (d : T) {a : Array T} (h : Good lt a.size (at' d a)) : Inv lt a := by
  intro d'
  have mp : ∀ i, minParent i = (i - 2) / 4 * 2 := fun _ => rfl
  have xp : ∀ i, maxParent i = (i - 2) / 4 * 2 + 1 := fun _ => rfl
  refine ⟨fun i i1 i2 i3 => ?_, fun i i1 i2 i3 => ?_, fun i i1 i2 => ?_⟩
  · rw [at_default d' d i2, at_default d' d (by rw [mp]; omega)]; exact h.low i i1 i2 i3
  · rw [at_default d' d i2, at_default d' d (by rw [xp]; omega)]; exact h.up i i1 i2 i3
  · rw [at_default d' d i2, at_default d' d (by omega)]; exact h.pair i i1 i2

theorem inv_of_fixed {d : T} {a b : Array T} (h : Fixed lt d a b) : Inv lt b := inv_of d (by rw [h.1]; exact h.2.2)

theorem inv_small {a : Array T} (h : a.size ≤ 1) : Inv lt a :=
  fun _ => ⟨fun i i1 i2 _ => by omega, fun i i1 i2 _ => by omega, fun i _ i2 => by omega⟩

theorem min_le (hw : StrictWeak lt) {n : Nat} {A : Nat → T} (h : Good lt n A) : ∀ i, i < n → lt (A i) (A 0) = false := by
  intro i
  induction i using Nat.strong_induction_on with
  | _ i ih =>
    intro hi
    have mp : minParent i = (i - 2) / 4 * 2 := rfl
    by_cases h2 : 2 ≤ i
    · exact hw.neg _ _ _ (h.low i h2 hi (by omega)) (ih _ (by omega) (by omega))
    · obtain rfl | rfl : i = 0 ∨ i = 1 := by omega
      · exact hw.irrefl _
      · exact h.pair 0 rfl hi

theorem le_max (hw : StrictWeak lt) {n : Nat} {A : Nat → T} (h : Good lt n A) (hn : 2 ≤ n) : ∀ i, i < n → lt (A 1) (A i) = false := by
  intro i
  induction i using Nat.strong_induction_on with
  | _ i ih =>
    intro hi
    have xp : maxParent i = (i - 2) / 4 * 2 + 1 := rfl
    by_cases h2 : 2 ≤ i
    · exact hw.neg _ _ _ (ih _ (by omega) (by omega)) (h.up i h2 hi (by omega))
    · obtain rfl | rfl : i = 0 ∨ i = 1 := by omega
      · exact h.pair 0 rfl hn
      · exact hw.irrefl _

theorem push_tot (hw : StrictWeak lt) {a : Array T} (h : Inv lt a) (v : T) : Tot (push lt a v) fun b => ms b = v ::ₘ ms a ∧ Inv lt b := by
  unfold push
  have mp : ∀ i, minParent i = (i - 2) / 4 * 2 := fun _ => rfl
  have xp : ∀ i, maxParent i = (i - 2) / 4 * 2 + 1 := fun _ => rfl
  have g := h v
  refine (fixUp_tot hw v (by simp) (by simp; omega) ⟨?_, ?_, ?_⟩).mono fun b hb => ⟨hb.2.1.trans (ms_push a v), inv_of_fixed hb⟩
  · intro i i1 i2 i3 i4
    simp only [Array.size_push] at i2
    rw [at_push, at_push, if_neg i3, if_neg i4]
    exact g.low i i1 (by omega) (by omega)
  · intro i i1 i2 i3 i4
    simp only [Array.size_push] at i2
    rw [at_push, at_push, if_neg i3, if_neg i4]
    exact g.up i i1 (by omega) (by omega)
  · intro i i1 i2 i3 i4
    simp only [Array.size_push] at i2
    rw [at_push, at_push, if_neg i3, if_neg i4]
    exact g.pair i i1 (by omega)

theorem maxTop_spec (hw : StrictWeak lt) {d : T} {a : Array T} (h : Good lt a.size (at' d a)) (hs : 0 < a.size) :
    maxTop a < a.size ∧ ∀ i, i < a.size → lt (at' d a (maxTop a)) (at' d a i) = false := by
  unfold maxTop
  split
  next h2 => exact ⟨by omega, le_max hw h h2⟩
  next h2 =>
    refine ⟨hs, fun i hi => ?_⟩
    rw [show i = 0 by omega]
    exact hw.irrefl _

theorem max_tot (hw : StrictWeak lt) {a : Array T} (h : Inv lt a) (hs : 0 < a.size) :
    Tot (max a) fun x => x ∈ ms a ∧ ∀ y ∈ ms a, lt x y = false := by
  unfold max
  obtain ⟨d, hd⟩ : ∃ d, d = a[0] := ⟨_, rfl⟩
  obtain ⟨h1, h2⟩ := maxTop_spec hw (h d) hs
  rw [decide_eq_true (by omega), check_true, ok_bind, rd_at d h1]
  refine Tot.pure ⟨(ms_mem d).2 ⟨_, h1, rfl⟩, fun y hy => ?_⟩
  obtain ⟨i, hi, rfl⟩ := (ms_mem d).1 hy
  exact h2 i hi

theorem min_tot (hw : StrictWeak lt) {a : Array T} (h : Inv lt a) (hs : 0 < a.size) :
    Tot (min a) fun x => x ∈ ms a ∧ ∀ y ∈ ms a, lt y x = false := by
  unfold min
  obtain ⟨d, hd⟩ : ∃ d, d = a[0] := ⟨_, rfl⟩
  rw [decide_eq_true (by omega), check_true, ok_bind, rd_at d hs]
  refine Tot.pure ⟨(ms_mem d).2 ⟨_, hs, rfl⟩, fun y hy => ?_⟩
  obtain ⟨i, hi, rfl⟩ := (ms_mem d).1 hy
  exact min_le hw (h d) i hi

theorem hole_pop {d : T} {a b : Array T} (g : Good lt a.size (at' d a)) {h : Nat} (hb : Swapped d a b h (a.size - 1)) :
    Hole lt b.pop.size (at' d b.pop) h := by
  have mp : ∀ i, minParent i = (i - 2) / 4 * 2 := fun _ => rfl
  have xp : ∀ i, maxParent i = (i - 2) / 4 * 2 + 1 := fun _ => rfl
  have sz : b.pop.size = a.size - 1 := by rw [Array.size_pop, hb.size]
  have key : ∀ i, i < a.size - 1 → i ≠ h → at' d b.pop i = at' d a i := by
    intro i hi hih
    rw [at_pop d (by rw [hb.size]; omega), hb.other i hih (by omega)]
  rw [sz]
  refine ⟨fun i i1 i2 i3 i4 => ?_, fun i i1 i2 i3 i4 => ?_, fun i i1 i2 i3 i4 => ?_⟩
  · rw [key i i2 i3, key _ (by rw [mp]; omega) i4]; exact g.low i i1 (by omega) (by omega)
  · rw [key i i2 i3, key _ (by rw [xp]; omega) i4]; exact g.up i i1 (by omega) (by omega)
  · rw [key i (by omega) i3, key _ i2 i4]; exact g.pair i i1 (by omega)

theorem popMin_tot (hw : StrictWeak lt) {a : Array T} (h : Inv lt a) (hs : 0 < a.size) :
    Tot (popMin lt a) fun r => ms a = r.2 ::ₘ ms r.1 ∧ Inv lt r.1 ∧ ∀ y ∈ ms a, lt y r.2 = false := by
  obtain ⟨d, hd⟩ : ∃ d, d = a[0] := ⟨_, rfl⟩
  unfold popMin
  rw [decide_eq_true (by omega), check_true, ok_bind]
  refine Tot.bind (swap_tot d hs (by omega)) fun b hb => ?_
  have e : at' d b (b.size - 1) = at' d a 0 := by rw [hb.size, hb.eq_j]
  rw [rd_at d (by rw [hb.size]; omega), ok_bind, e]
  have hm : ms a = at' d a 0 ::ₘ ms b.pop := by rw [← hb.mset, ms_pop d (by rw [hb.size]; omega), e]
  have hmin : ∀ y ∈ ms a, lt y (at' d a 0) = false := by
    intro y hy
    obtain ⟨i, hi, rfl⟩ := (ms_mem d).1 hy
    exact min_le hw (h d) i hi
  have sz : b.pop.size = a.size - 1 := by rw [Array.size_pop, hb.size]
  rcases Nat.lt_or_ge 1 a.size with h1 | h1
  · refine Tot.bind (fixMinDown_tot hw d (by omega) (hole_pop (h d) hb)) fun c hc => Tot.pure ⟨?_, inv_of_fixed hc, hmin⟩
    rw [hm, hc.2.1]
  · have e0 : b.pop = #[] := by apply Array.eq_empty_of_size_eq_zero; omega
    rw [e0] at hm ⊢
    have e1 : fixMinDown lt #[] 0 = .ok #[] := by
      simp [fixMaxDown, fixMinDown, loop, maxDownStep, minDownStep, clip, fixUp, fixMinUp, fixMaxUp, minUpStep, maxUpStep]
    rw [e1]
    exact Tot.pure ⟨hm, inv_small (by simp), hmin⟩

theorem popMax_tot (hw : StrictWeak lt) {a : Array T} (h : Inv lt a) (hs : 0 < a.size) :
    Tot (popMax lt a) fun r => ms a = r.2 ::ₘ ms r.1 ∧ Inv lt r.1 ∧ ∀ y ∈ ms a, lt r.2 y = false := by
  obtain ⟨d, hd⟩ : ∃ d, d = a[0] := ⟨_, rfl⟩
  obtain ⟨ht1, ht2⟩ := maxTop_spec hw (h d) hs
  unfold popMax
  rw [decide_eq_true (by omega), check_true, ok_bind]
  dsimp only
  refine Tot.bind (swap_tot d ht1 (by omega)) fun b hb => ?_
  have e : at' d b (b.size - 1) = at' d a (maxTop a) := by rw [hb.size, hb.eq_j]
  rw [rd_at d (by rw [hb.size]; omega), ok_bind, e]
  have hm : ms a = at' d a (maxTop a) ::ₘ ms b.pop := by rw [← hb.mset, ms_pop d (by rw [hb.size]; omega), e]
  have hmax : ∀ y ∈ ms a, lt (at' d a (maxTop a)) y = false := by
    intro y hy
    obtain ⟨i, hi, rfl⟩ := (ms_mem d).1 hy
    exact ht2 i hi
  have sz : b.pop.size = a.size - 1 := by rw [Array.size_pop, hb.size]
  rcases Nat.lt_or_ge 2 a.size with h1 | h1
  · have et : maxTop a = 1 := by unfold maxTop; rw [if_pos (by omega)]
    rw [et] at hm hmax hb ⊢
    refine Tot.bind (fixMaxDown_tot hw d (by omega) (hole_pop (h d) hb)) fun c hc => Tot.pure ⟨?_, inv_of_fixed hc, hmax⟩
    rw [hm, hc.2.1]
  · have e0 : fixMaxDown lt b.pop (maxTop a) = .ok b.pop := by
      unfold maxTop
      rcases Nat.lt_or_ge 1 a.size with h2 | h2
      · obtain ⟨x, hx⟩ : ∃ x, b.pop = #[x] := Array.size_eq_one_iff.1 (by omega)
        rw [hx, if_pos (by omega)]; simp [fixMaxDown, fixMinDown, loop, maxDownStep, minDownStep, clip, fixUp, fixMinUp, fixMaxUp, minUpStep, maxUpStep]
      · have hx : b.pop = #[] := by apply Array.eq_empty_of_size_eq_zero; omega
        rw [hx, if_neg (by omega)]; simp [fixMaxDown, fixMinDown, loop, maxDownStep, minDownStep, clip, fixUp, fixMinUp, fixMaxUp, minUpStep, maxUpStep]
    rw [e0]
    exact Tot.pure ⟨hm, inv_small (by om), hmax⟩

end IntervalHeap
