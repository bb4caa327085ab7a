import Verif.Model.BinaryHeap
import Verif.Proof.HeapArray

/-! # BinaryHeap: helper lemmas -/

namespace BinaryHeap
open Cxx HeapArray

variable {T : Type} {lt : T → T → Bool}

/-- Logical view of an array with a hole at `cur` to be filled with `val`. -/
def V (a : Array T) (cur : Nat) (val : T) (i : Nat) : T := if i = cur then val else at' val a i

theorem V_set (d : T) {a : Array T} {cur : Nat} (h : cur < a.size) (val : T) {i : Nat} (hi : i < a.size) :
    at' d (a.setIfInBounds cur val) i = V a cur val i := by
  rw [at_set d h]
  unfold V
  by_cases e : cur = i
  · rw [if_pos e, if_pos e.symm]
  · rw [if_neg e, if_neg (Ne.symm e), at_default d val hi]

/-- Heap order below `root` (parents `≥ root`). -/
def Heap (lt : T → T → Bool) (n root : Nat) (B : Nat → T) : Prop :=
  ∀ i, 0 < i → i < n → root ≤ (i - 1) / 2 → lt (B i) (B ((i - 1) / 2)) = false

theorem heapifyUp_tot (hw : StrictWeak lt) (d : T) {a : Array T} {leaf : Nat} (hl : leaf < a.size) (hlast : leaf + 1 = a.size)
    (hh : ∀ i, 0 < i → i < leaf → lt (at' d a i) (at' d a ((i - 1) / 2)) = false) :
    Tot (heapifyUp lt a leaf) fun b => b.size = a.size ∧ ms b = ms a ∧ Heap lt b.size 0 (at' d b) := by
  unfold heapifyUp
  rw [rd_at d hl, ok_bind]
  obtain ⟨val, hv⟩ : ∃ v, v = at' d a leaf := ⟨_, rfl⟩
  rw [← hv]
  refine Tot.bind (Tot.loop
    (P := fun s : Array T × Nat => s.1.size = a.size ∧ s.2 < a.size ∧ ms (s.1.setIfInBounds s.2 val) = ms a ∧
      (∀ i, 0 < i → i < a.size → i ≠ s.2 → lt (V s.1 s.2 val i) (V s.1 s.2 val ((i - 1) / 2)) = false) ∧
      (∀ i, 0 < i → i < a.size → (i - 1) / 2 = s.2 → 0 < s.2 → lt (V s.1 s.2 val i) (V s.1 s.2 val ((s.2 - 1) / 2)) = false))
    (Q := fun s : Array T × Nat => s.1.size = a.size ∧ s.2 < a.size ∧ ms (s.1.setIfInBounds s.2 val) = ms a ∧ Heap lt a.size 0 (V s.1 s.2 val))
    (fun s => s.2) ?_ ⟨rfl, hl, ?_, ?_, ?_⟩ le_rfl) ?_
  · rintro ⟨b, cur⟩ ⟨h1, h2, h3, h4, h5⟩
    dsimp only at h1 h2 h3 h4 h5
    unfold upStep
    dsimp only
    split
    next hc =>
      have hc' : 0 < cur := by omega
      have hp : (cur - 1) / 2 < cur := by omega
      rw [rd_at val (by omega), ok_bind]
      split
      next hlt =>
        refine Tot.pure ⟨h1, h2, h3, fun i i1 i2 _ => ?_⟩
        by_cases e : i = cur
        · subst e
          rw [V, if_pos rfl, V, if_neg (by omega)]
          simpa using hlt
        · exact h4 i i1 i2 e
      next hlt =>
        have hlt' : lt val (at' val b ((cur - 1) / 2)) = true := by simpa using hlt
        rw [wr_eq (by omega), ok_bind]
        obtain ⟨par, hpar⟩ : ∃ p, p = (cur - 1) / 2 := ⟨_, rfl⟩
        rw [← hpar] at hlt' hp ⊢
        have key : ∀ i, i < a.size → V (b.setIfInBounds cur (at' val b par)) par val i = if i = par then val else if i = cur then at' val b par else at' val b i := by
          intro i hi
          unfold V
          rw [at_set val (by omega)]
          by_cases e : i = par
          · simp [e]
          · by_cases e' : i = cur
            · simp [e, e']
            · simp [e, e', Ne.symm e']
        refine Tot.pure ⟨⟨by simpa using h1, by om, ?_, ?_, ?_⟩, hp⟩
        · rw [ms_hole val (by omega) (by omega) (by omega), h3]
        · dsimp only
          intro i i1 i2 i3
          rw [key i i2, key _ (by omega), if_neg i3]
          by_cases e : i = cur
          · subst e
            rw [if_pos rfl, if_pos hpar.symm]
            exact hw.asymm hlt'
          · rw [if_neg e]
            have hold := h4 i i1 i2 e
            simp only [V, if_neg e] at hold
            by_cases e2 : (i - 1) / 2 = cur
            · rw [if_neg (by omega), if_pos e2]
              have := h5 i i1 i2 e2 hc'
              rw [← hpar] at this
              simpa only [V, if_neg e, if_neg (show par ≠ cur by omega)] using this
            · rw [if_neg e2] at hold
              by_cases e3 : (i - 1) / 2 = par
              · rw [if_pos e3]
                rw [e3] at hold
                by_contra hcon
                rw [Bool.not_eq_false] at hcon
                rw [hw.trans _ _ _ hcon hlt'] at hold
                cases hold
              · rw [if_neg e3, if_neg e2]; exact hold
        · dsimp only
          intro i i1 i2 i3 i4
          rw [key i i2, key _ (by omega), if_neg (show i ≠ par by omega), if_neg (show (par - 1) / 2 ≠ par by omega),
            if_neg (show (par - 1) / 2 ≠ cur by omega)]
          have hpp := h4 par i4 (by omega) (by omega)
          simp only [V, if_neg (show par ≠ cur by omega), if_neg (show (par - 1) / 2 ≠ cur by omega)] at hpp
          by_cases e : i = cur
          · rw [if_pos e]; exact hpp
          · rw [if_neg e]
            have hold := h4 i i1 i2 e
            simp only [V, if_neg e, i3, if_neg (show par ≠ cur by omega)] at hold
            exact hw.neg _ _ _ hold hpp
    next hc =>
      refine Tot.pure ⟨h1, h2, h3, fun i i1 i2 _ => h4 i i1 i2 (by omega)⟩
  · dsimp only
    rw [hv, ms_self d hl]
  · dsimp only
    intro i i1 i2 i3
    simp only [V, if_neg i3, if_neg (show (i - 1) / 2 ≠ leaf by omega)]
    rw [at_default val d i2, at_default val d (by omega)]
    exact hh i i1 (by omega)
  · dsimp only
    intro i i1 i2 i3
    omega
  · rintro ⟨b, cur⟩ ⟨h1, h2, h3, h4⟩
    dsimp only at h1 h2 h3 h4 ⊢
    rw [wr_eq (by omega)]
    refine Tot.pure ⟨by simpa using h1, h3, ?_⟩
    intro i i1 i2 i3
    simp only [Array.size_setIfInBounds] at i2
    rw [V_set d (by omega) val i2, V_set d (by omega) val (by omega)]
    exact h4 i i1 (by omega) i3

theorem pickChild_tot (hw : StrictWeak lt) (d : T) {a : Array T} {cur : Nat} (h : cur < a.size / 2) :
    Tot (pickChild lt a cur) fun ch => ch < a.size ∧ (ch - 1) / 2 = cur ∧ cur < ch ∧
      ∀ i, 0 < i → i < a.size → (i - 1) / 2 = cur → lt (at' d a i) (at' d a ch) = false := by
  unfold pickChild
  dsimp only
  split
  next h2 =>
    rw [rd_at d (by omega), ok_bind, rd_at d (by omega), ok_bind]
    split
    next hlt =>
      refine Tot.pure ⟨by omega, by omega, by omega, fun i i1 i2 i3 => ?_⟩
      obtain rfl | rfl : i = 2 * cur + 1 ∨ i = 2 * cur + 1 + 1 := by omega
      · exact hw.asymm hlt
      · exact hw.irrefl _
    next hlt =>
      refine Tot.pure ⟨by omega, by omega, by omega, fun i i1 i2 i3 => ?_⟩
      obtain rfl | rfl : i = 2 * cur + 1 ∨ i = 2 * cur + 1 + 1 := by omega
      · exact hw.irrefl _
      · simpa using hlt
  next h2 =>
    refine Tot.pure ⟨by omega, by omega, by omega, fun i i1 i2 i3 => ?_⟩
    obtain rfl : i = 2 * cur + 1 := by omega
    exact hw.irrefl _

theorem heapifyDown_tot (hw : StrictWeak lt) (d : T) {a : Array T} {root : Nat} (hr : root < a.size) (hh : Heap lt a.size (root + 1) (at' d a)) :
    Tot (heapifyDown lt a root) fun b => b.size = a.size ∧ ms b = ms a ∧ Heap lt b.size root (at' d b) := by
  unfold heapifyDown
  rw [rd_at d hr, ok_bind]
  obtain ⟨val, hv⟩ : ∃ v, v = at' d a root := ⟨_, rfl⟩
  rw [← hv]
  refine Tot.bind (Tot.loop
    (P := fun s : Array T × Nat => s.1.size = a.size ∧ s.2 < a.size ∧ ms (s.1.setIfInBounds s.2 val) = ms a ∧ root ≤ s.2 ∧
      (s.2 ≠ root → root ≤ (s.2 - 1) / 2) ∧
      (∀ i, 0 < i → i < a.size → root ≤ (i - 1) / 2 → (i - 1) / 2 ≠ s.2 → lt (V s.1 s.2 val i) (V s.1 s.2 val ((i - 1) / 2)) = false) ∧
      (∀ i, 0 < i → i < a.size → (i - 1) / 2 = s.2 → s.2 ≠ root → lt (V s.1 s.2 val i) (V s.1 s.2 val ((s.2 - 1) / 2)) = false))
    (Q := fun s : Array T × Nat => s.1.size = a.size ∧ s.2 < a.size ∧ ms (s.1.setIfInBounds s.2 val) = ms a ∧ Heap lt a.size root (V s.1 s.2 val))
    (fun s => a.size - s.2) ?_ ⟨rfl, hr, ?_, le_rfl, ?_, ?_, ?_⟩ (by om)) ?_
  · rintro ⟨b, cur⟩ ⟨h1, h2, h3, h6, h7, h4, h5⟩
    dsimp only at h1 h2 h3 h4 h5 h6 h7
    unfold downStep
    dsimp only
    split
    next hc =>
      refine Tot.bind (pickChild_tot hw val hc) ?_
      rintro ch ⟨c1, c2, c3, c4⟩
      rw [rd_at val c1, ok_bind]
      split
      next hlt =>
        refine Tot.pure ⟨h1, h2, h3, fun i i1 i2 i3 => ?_⟩
        by_cases e : (i - 1) / 2 = cur
        · simp only [V, if_pos e, if_neg (show i ≠ cur by omega)]
          exact hw.neg _ _ _ (c4 i i1 (by omega) e) (by simpa using hlt)
        · exact h4 i i1 i2 i3 e
      next hlt =>
        have hlt' : lt (at' val b ch) val = true := by simpa using hlt
        rw [wr_eq (by omega), ok_bind]
        have key : ∀ i, i < a.size → V (b.setIfInBounds cur (at' val b ch)) ch val i = if i = ch then val else if i = cur then at' val b ch else at' val b i := by
          intro i hi
          unfold V
          rw [at_set val (by omega)]
          by_cases e : i = ch
          · simp [e]
          · by_cases e' : i = cur
            · simp [e, e']
            · simp [e, e', Ne.symm e']
        refine Tot.pure ⟨⟨by simpa using h1, by om, ?_, by om, by om, ?_, ?_⟩, by om⟩
        · rw [ms_hole val (by omega) (by omega) (by omega), h3]
        · dsimp only
          intro i i1 i2 i3 i4
          rw [key i i2, key _ (by omega), if_neg i4]
          by_cases e : i = ch
          · rw [if_pos e, if_pos (by omega)]
            exact hw.asymm hlt'
          · rw [if_neg e]
            by_cases e2 : (i - 1) / 2 = cur
            · rw [if_pos e2, if_neg (by omega)]
              exact c4 i i1 (by omega) e2
            · rw [if_neg e2]
              by_cases e3 : i = cur
              · rw [if_pos e3]
                have := h5 ch (by omega) (by omega) c2 (by omega)
                simp only [V, if_neg (show ch ≠ cur by omega), if_neg (show (cur - 1) / 2 ≠ cur by omega)] at this
                rw [e3]; exact this
              · rw [if_neg e3]
                have := h4 i i1 i2 i3 e2
                simpa only [V, if_neg e3, if_neg e2] using this
        · dsimp only
          intro i i1 i2 i3 i4
          rw [key i i2, key _ (by omega), if_neg (by omega), if_neg (by omega), if_neg (by omega), if_pos c2]
          have := h4 i i1 i2 (by omega) (by omega)
          simpa only [V, if_neg (show i ≠ cur by omega), i3, if_neg (show ch ≠ cur by omega)] using this
    next hc =>
      refine Tot.pure ⟨h1, h2, h3, fun i i1 i2 i3 => h4 i i1 i2 i3 (by omega)⟩
  · dsimp only
    rw [hv, ms_self d hr]
  · intro h; exact absurd rfl h
  · dsimp only
    intro i i1 i2 i3 i4
    simp only [V, if_neg i4, if_neg (show i ≠ root by omega)]
    rw [at_default val d i2, at_default val d (by omega)]
    exact hh i i1 i2 (by omega)
  · dsimp only
    intro i i1 i2 i3 i4
    exact absurd rfl i4
  · rintro ⟨b, cur⟩ ⟨h1, h2, h3, h4⟩
    dsimp only at h1 h2 h3 h4 ⊢
    rw [wr_eq (by omega)]
    refine Tot.pure ⟨by simpa using h1, h3, ?_⟩
    intro i i1 i2 i3
    simp only [Array.size_setIfInBounds] at i2
    rw [V_set d (by omega) val i2, V_set d (by omega) val (by omega)]
    exact h4 i i1 (by omega) i3

/-- The heap invariant, without a default value. -/
def Inv (lt : T → T → Bool) (a : Array T) : Prop := ∀ d : T, Heap lt a.size 0 (at' d a)

theorem inv_of (d : T) {a : Array T} (h : Heap lt a.size 0 (at' d a)) : Inv lt a := by
  intro d' i i1 i2 i3
  rw [at_default d' d i2, at_default d' d (by omega)]
  exact h i i1 i2 i3

theorem inv_root (hw : StrictWeak lt) {d : T} {a : Array T} (h : Heap lt a.size 0 (at' d a)) : ∀ i, i < a.size → lt (at' d a i) (at' d a 0) = false := by
  intro i
  induction i using Nat.strong_induction_on with
  | _ i ih =>
    intro hi
    rcases Nat.eq_zero_or_pos i with rfl | hp
    · exact hw.irrefl _
    · exact hw.neg _ _ _ (h i hp hi (Nat.zero_le _)) (ih ((i - 1) / 2) (by omega) (by omega))

theorem constructHeap_tot (hw : StrictWeak lt) (a : Array T) : Tot (constructHeap lt a) fun b => ms b = ms a ∧ Inv lt b := by
  rcases Nat.eq_zero_or_pos a.size with h0 | h0
  · unfold constructHeap
    rw [h0]
    exact Tot.pure ⟨rfl, fun d i i1 i2 => by omega⟩
  · have d : T := a[0]
    unfold constructHeap
    refine (Tot.forDown (P := fun j (b : Array T) => b.size = a.size ∧ ms b = ms a ∧ Heap lt b.size j (at' d b)) (Nat.zero_le _) ⟨rfl, rfl, ?_⟩ ?_).mono
      fun b h => ⟨h.2.1, inv_of d h.2.2⟩
    · intro i i1 i2 i3; omega
    · rintro j b - hj ⟨e1, e2, e3⟩
      exact (heapifyDown_tot hw d (by omega) e3).mono fun c hc => ⟨hc.1.trans e1, hc.2.1.trans e2, hc.2.2⟩

theorem push_tot (hw : StrictWeak lt) {a : Array T} (h : Inv lt a) (v : T) : Tot (push lt a v) fun b => ms b = v ::ₘ ms a ∧ Inv lt b := by
  unfold push
  refine (heapifyUp_tot hw v (by simp) (by simp) ?_).mono fun b hb => ⟨hb.2.1.trans (ms_push a v), inv_of v hb.2.2⟩
  intro i i1 i2
  rw [at_push, at_push, if_neg (by omega), if_neg (by omega)]
  exact h v i i1 i2 (Nat.zero_le _)

theorem top_tot (hw : StrictWeak lt) {a : Array T} (h : Inv lt a) (hs : 0 < a.size) :
    Tot (top a) fun x => x ∈ ms a ∧ ∀ y ∈ ms a, lt y x = false := by
  unfold top
  rw [decide_eq_true (by omega), check_true, ok_bind, rd_eq hs]
  obtain ⟨d, hd⟩ : ∃ d, d = a[0] := ⟨_, rfl⟩
  have e : at' d a 0 = a[0] := by simp [at', hs]
  refine Tot.pure ⟨(ms_mem d).2 ⟨0, hs, e⟩, fun y hy => ?_⟩
  obtain ⟨i, hi, rfl⟩ := (ms_mem d).1 hy
  have := inv_root hw (h d) i hi
  rwa [e] at this

theorem pop_tot (hw : StrictWeak lt) {a : Array T} (h : Inv lt a) (hs : 2 ≤ a.size) :
    Tot (pop lt a) fun r => ms a = r.2 ::ₘ ms r.1 ∧ Inv lt r.1 ∧ ∀ y ∈ ms a, lt y r.2 = false := by
  obtain ⟨d, hd⟩ : ∃ d, d = a[0] := ⟨_, rfl⟩
  unfold pop
  rw [decide_eq_true (by omega), check_true, ok_bind, rd_at d (by omega), ok_bind, rd_at d (by omega), ok_bind, wr_eq (by omega), ok_bind,
    wr_eq (by simp; omega), ok_bind]
  obtain ⟨b, hb⟩ : ∃ b, b = (a.setIfInBounds 0 (at' d a (a.size - 1))).setIfInBounds ((a.setIfInBounds 0 (at' d a (a.size - 1))).size - 1) (at' d a 0) := ⟨_, rfl⟩
  rw [← hb]
  have hbs : b.size = a.size := by simp [hb]
  have hbm : ms b = ms a := by
    rw [hb, Array.size_setIfInBounds, ms_hole d (by omega) (by omega) (by omega), ms_self d (by omega)]
  have hbv : ∀ i, at' d b i = if i = a.size - 1 then at' d a 0 else if i = 0 then at' d a (a.size - 1) else at' d a i := by
    intro i
    rw [hb, Array.size_setIfInBounds, at_set d (by simp; omega), at_set d (by omega)]
    simp only [eq_comm]
  rw [hbs, rd_at d (by rw [hbs]; omega), ok_bind, hbv, if_pos rfl]
  refine Tot.bind (heapifyDown_tot hw d (by rw [Array.size_pop]; omega) ?_) ?_
  · intro i i1 i2 i3
    rw [Array.size_pop] at i2
    rw [at_pop d (by omega), at_pop d (by omega), hbv, hbv, if_neg (by omega), if_neg (by omega), if_neg (by omega), if_neg (by omega)]
    exact h d i i1 (by omega) (Nat.zero_le _)
  · rintro c ⟨c1, c2, c3⟩
    refine Tot.pure ⟨?_, inv_of d c3, fun y hy => ?_⟩
    · dsimp only
      rw [c2, ← hbm, ms_pop d (by omega), hbs, hbv, if_pos rfl]
    · obtain ⟨i, hi, rfl⟩ := (ms_mem d).1 hy
      exact inv_root hw (h d) i hi

end BinaryHeap
