import Verif.Spec.SlopeTrick
import Mathlib.Tactic.Ring
import Mathlib.Algebra.BigOperators.Group.List.Basic
import Mathlib.Tactic.Linarith

/-! # Proofs about `SlopeTrick` -/

namespace SlopeTrick
open Cxx

/-! ### Sums of hinge functions -/

/-- `Σ max(0, p - x)`. -/
def hl (L : List Int) (x : Int) : Int := (L.map fun p => max 0 (p - x)).sum

/-- `Σ max(0, x - q)`. -/
def hr (R : List Int) (x : Int) : Int := (R.map fun q => max 0 (x - q)).sum

theorem hl_cons (p : Int) (L : List Int) (x : Int) : hl (p :: L) x = max 0 (p - x) + hl L x := by simp [hl]

theorem hr_cons (p : Int) (L : List Int) (x : Int) : hr (p :: L) x = max 0 (x - p) + hr L x := by simp [hr]

theorem hl_nil (x : Int) : hl [] x = 0 := rfl

theorem hr_nil (x : Int) : hr [] x = 0 := rfl

theorem hl_perm {L L' : List Int} (h : L.Perm L') (x : Int) : hl L x = hl L' x := (h.map _).sum_eq

theorem hr_perm {L L' : List Int} (h : L.Perm L') (x : Int) : hr L x = hr L' x := (h.map _).sum_eq

theorem hl_nonneg (L : List Int) (x : Int) : 0 ≤ hl L x := by
  induction L with
  | nil => exact le_refl _
  | cons p L ih => rw [hl_cons]; omega

theorem hr_nonneg (L : List Int) (x : Int) : 0 ≤ hr L x := by
  induction L with
  | nil => exact le_refl _
  | cons p L ih => rw [hr_cons]; omega

theorem hl_anti (L : List Int) {x y : Int} (h : x ≤ y) : hl L y ≤ hl L x := by
  induction L with
  | nil => exact le_refl _
  | cons p L ih => rw [hl_cons, hl_cons]; omega

theorem hr_mono (L : List Int) {x y : Int} (h : x ≤ y) : hr L x ≤ hr L y := by
  induction L with
  | nil => exact le_refl _
  | cons p L ih => rw [hr_cons, hr_cons]; omega

theorem hl_zero {L : List Int} {x : Int} : hl L x = 0 ↔ ∀ p ∈ L, p ≤ x := by
  induction L with
  | nil => simp [hl_nil]
  | cons p L ih =>
    rw [hl_cons, List.forall_mem_cons, ← ih]
    have := hl_nonneg L x
    omega

theorem hr_zero {L : List Int} {x : Int} : hr L x = 0 ↔ ∀ p ∈ L, x ≤ p := by
  induction L with
  | nil => simp [hr_nil]
  | cons p L ih =>
    rw [hr_cons, List.forall_mem_cons, ← ih]
    have := hr_nonneg L x
    omega

theorem hl_shift (L : List Int) (d x : Int) : hl (L.map (· + d)) x = hl L (x - d) := by
  induction L with
  | nil => rfl
  | cons p L ih => rw [List.map_cons, hl_cons, hl_cons, ih]; omega

theorem hr_shift (L : List Int) (d x : Int) : hr (L.map (· + d)) x = hr L (x - d) := by
  induction L with
  | nil => rfl
  | cons p L ih => rw [List.map_cons, hr_cons, hr_cons, ih]; omega

/-- The function of the data structure. -/
def F (b : Int) (L R : List Int) (x : Int) : Int := b + hl L x + hr R x

/-- There is a point between the left and the right breakpoints. -/
theorem centre {L R : List Int} (h : ∀ p ∈ L, ∀ q ∈ R, p ≤ q) : ∃ c, (∀ p ∈ L, p ≤ c) ∧ ∀ q ∈ R, c ≤ q := by
  induction L with
  | nil =>
    clear h
    induction R with
    | nil => exact ⟨0, by simp, by simp⟩
    | cons q R ih =>
      obtain ⟨c, -, hc⟩ := ih
      refine ⟨min c q, by simp, ?_⟩
      intro q' hq'
      rcases List.mem_cons.mp hq' with rfl | hq'
      · omega
      · have := hc _ hq'; omega
  | cons p L ih =>
    obtain ⟨c, h1, h2⟩ := ih fun p hp q hq => h p (List.mem_cons_of_mem _ hp) q hq
    refine ⟨max c p, ?_, ?_⟩
    · intro p' hp'
      rcases List.mem_cons.mp hp' with rfl | hp'
      · omega
      · have := h1 _ hp'; omega
    · intro q hq
      have := h2 _ hq
      have := h p List.mem_cons_self q hq
      omega

theorem F_ge (b : Int) (L R : List Int) (x : Int) : b ≤ F b L R x := by
  have := hl_nonneg L x
  have := hr_nonneg R x
  unfold F; omega

theorem F_eq {b : Int} {L R : List Int} {x : Int} : F b L R x = b ↔ (∀ p ∈ L, p ≤ x) ∧ ∀ q ∈ R, x ≤ q := by
  rw [← hl_zero, ← hr_zero]
  have := hl_nonneg L x
  have := hr_nonneg R x
  unfold F; omega

theorem isLeast_F {b : Int} {L R : List Int} (h : ∀ p ∈ L, ∀ q ∈ R, p ≤ q) : IsLeast (Set.range (F b L R)) b := by
  obtain ⟨c, h1, h2⟩ := centre h
  refine ⟨⟨c, F_eq.mpr ⟨h1, h2⟩⟩, ?_⟩
  rintro _ ⟨x, rfl⟩
  exact F_ge ..

theorem sInf_F {b : Int} {L R : List Int} (h : ∀ p ∈ L, ∀ q ∈ R, p ≤ q) : sInf (Set.range (F b L R)) = b :=
  (isLeast_F h).csInf_eq

theorem inf_left {b : Int} {L R : List Int} (h : ∀ p ∈ L, ∀ q ∈ R, p ≤ q) (x : Int) :
    sInf (F b L R '' {y | y ≤ x}) = F b L [] x := by
  apply IsLeast.csInf_eq
  obtain ⟨c, h1, h2⟩ := centre h
  constructor
  · by_cases hx : x ≤ c
    · refine ⟨x, le_refl x, ?_⟩
      have : hr R x = 0 := hr_zero.mpr fun q hq => le_trans hx (h2 q hq)
      unfold F; rw [this, hr_nil]
    · refine ⟨c, by show c ≤ x; omega, ?_⟩
      rw [F_eq.mpr ⟨h1, h2⟩, F_eq.mpr ⟨fun p hp => by have := h1 p hp; omega, by simp⟩]
  · rintro _ ⟨y, hy, rfl⟩
    have hy : y ≤ x := hy
    have := hl_anti L hy
    have := hr_nonneg R y
    unfold F; rw [hr_nil]; omega

theorem inf_right {b : Int} {L R : List Int} (h : ∀ p ∈ L, ∀ q ∈ R, p ≤ q) (x : Int) :
    sInf (F b L R '' {y | x ≤ y}) = F b [] R x := by
  apply IsLeast.csInf_eq
  obtain ⟨c, h1, h2⟩ := centre h
  constructor
  · by_cases hx : c ≤ x
    · refine ⟨x, le_refl x, ?_⟩
      have : hl L x = 0 := hl_zero.mpr fun q hq => le_trans (h1 q hq) hx
      unfold F; rw [this, hl_nil]
    · refine ⟨c, by show x ≤ c; omega, ?_⟩
      rw [F_eq.mpr ⟨h1, h2⟩, F_eq.mpr ⟨by simp, fun p hp => by have := h2 p hp; omega⟩]
  · rintro _ ⟨y, hy, rfl⟩
    have hy : x ≤ y := hy
    have := hr_mono R hy
    have := hl_nonneg L y
    unfold F; rw [hl_nil]; omega

theorem inf_window {b : Int} {L R : List Int} (h : ∀ p ∈ L, ∀ q ∈ R, p ≤ q) {u v : Int} (huv : u ≤ v) (x : Int) :
    sInf (F b L R '' {y | x - v ≤ y ∧ y ≤ x - u}) = F b (L.map (· + u)) (R.map (· + v)) x := by
  apply IsLeast.csInf_eq
  obtain ⟨c, h1, h2⟩ := centre h
  have e : F b (L.map (· + u)) (R.map (· + v)) x = b + hl L (x - u) + hr R (x - v) := by unfold F; rw [hl_shift, hr_shift]
  have z1 : ∀ y, c ≤ y → hl L y = 0 := fun y hy => hl_zero.mpr fun p hp => le_trans (h1 p hp) hy
  have z2 : ∀ y, y ≤ c → hr R y = 0 := fun y hy => hr_zero.mpr fun p hp => le_trans hy (h2 p hp)
  rw [e]
  constructor
  · by_cases ha : x - u ≤ c
    · refine ⟨x - u, ⟨by omega, by omega⟩, ?_⟩
      unfold F; rw [z2 _ ha, z2 (x - v) (by omega)]
    · by_cases hb : c ≤ x - v
      · refine ⟨x - v, ⟨by omega, by omega⟩, ?_⟩
        unfold F; rw [z1 _ hb, z1 (x - u) (by omega)]
      · refine ⟨c, ⟨by omega, by omega⟩, ?_⟩
        unfold F; rw [z1 c (le_refl _), z2 c (le_refl _), z1 (x - u) (by omega), z2 (x - v) (by omega)]
  · rintro _ ⟨y, ⟨hy1, hy2⟩, rfl⟩
    have := hl_anti L hy2
    have := hr_mono R hy1
    unfold F; omega

/-! ### The queues -/

/-- The top of an ordered list that holds a sentinel and other elements. -/
theorem heap_top {le : Int → Int → Prop} {l M : List Int} {s : Int} (hs : l.Pairwise le) (hp : l.Perm (s :: M)) (hM : ∀ m ∈ M, ¬ le s m) :
    (M = [] ∧ l = [s]) ∨ ∃ m M' l', M.Perm (m :: M') ∧ l = m :: l' ∧ l'.Perm (s :: M') ∧ ∀ x ∈ M', le m x := by
  rcases l with _ | ⟨m, l'⟩
  · have := hp.length_eq; simp at this
  rw [List.pairwise_cons] at hs
  have hm : m ∈ s :: M := hp.subset List.mem_cons_self
  rcases List.mem_cons.mp hm with rfl | hm
  · have h1 : l'.Perm M := (List.perm_cons _).mp hp
    have : M = [] := by
      rcases M with _ | ⟨x, M⟩
      · rfl
      · exact absurd (hs.1 x (h1.symm.subset List.mem_cons_self)) (hM x List.mem_cons_self)
    subst this
    exact .inl ⟨rfl, by rw [h1.eq_nil]⟩
  · refine .inr ⟨m, M.erase m, l', List.perm_cons_erase hm, rfl, ?_, ?_⟩
    · have h1 : (m :: l').Perm (m :: s :: M.erase m) := hp.trans (((List.perm_cons_erase hm).cons s).trans (List.Perm.swap ..))
      exact (List.perm_cons _).mp h1
    · intro x hx
      have h1 : (m :: l').Perm (m :: s :: M.erase m) := hp.trans (((List.perm_cons_erase hm).cons s).trans (List.Perm.swap ..))
      exact hs.1 x (((List.perm_cons _).mp h1).symm.subset (List.mem_cons_of_mem _ hx))

theorem dsc_sorted {l : List Int} (h : l.Pairwise (· ≥ ·)) (x : Int) : (pushDsc x l).Pairwise (· ≥ ·) := h.orderedInsert x l

theorem asc_sorted {l : List Int} (h : l.Pairwise (· ≤ ·)) (x : Int) : (pushAsc x l).Pairwise (· ≤ ·) := h.orderedInsert x l

theorem dsc_perm (l : List Int) (x : Int) : (pushDsc x l).Perm (x :: l) := List.perm_orderedInsert ..

theorem asc_perm (l : List Int) (x : Int) : (pushAsc x l).Perm (x :: l) := List.perm_orderedInsert ..

/-! ### The invariant -/

/-- The state stores the function `F base L R`. -/
structure Rep (s : State) (L R : List Int) (k : Int) : Prop where
  k0 : 0 ≤ k
  k1 : k ≤ 2 ^ 59
  al : |s.addL| ≤ k
  ar : |s.addR| ≤ k
  sl : s.l.Pairwise (· ≥ ·)
  sr : s.r.Pairwise (· ≤ ·)
  pl : s.l.Perm (-inf :: L.map (· - s.addL))
  pr : s.r.Perm (inf :: R.map (· - s.addR))
  bl : ∀ p ∈ L, |p| ≤ 2 ^ 59 + k
  br : ∀ p ∈ R, |p| ≤ 2 ^ 59 + k
  lr : ∀ p ∈ L, ∀ q ∈ R, p ≤ q
  fits : -2 ^ 63 ≤ s.base ∧ s.base < 2 ^ 63

/-- The invariant for histories. -/
def Sim (s : State) (t : Fun) : Prop := ∃ L R, Rep s L R t.moved ∧ t.f = F s.base L R

theorem rep_top_l {s : State} {L R : List Int} {k : Int} (h : Rep s L R k) :
    (L = [] ∧ s.l = [-inf]) ∨ ∃ p L' l', L.Perm (p :: L') ∧ s.l = (p - s.addL) :: l' ∧ l'.Perm (-inf :: L'.map (· - s.addL)) ∧
      ∀ q ∈ L', q ≤ p := by
  have ha := abs_le.mp h.al
  have hk := h.k1
  rcases heap_top h.sl h.pl (by
      intro m hm
      obtain ⟨p, hp, rfl⟩ := List.mem_map.mp hm
      have := abs_le.mp (h.bl p hp)
      show ¬ (-inf ≥ p - s.addL)
      unfold inf; omega) with ⟨e, e'⟩ | ⟨m, M', l', h1, h2, h3, h4⟩
  · exact .inl ⟨List.map_eq_nil_iff.mp e, e'⟩
  · right
    have hL : (L.map (· - s.addL)).map (· + s.addL) = L := by
      rw [List.map_map]; conv_rhs => rw [← List.map_id L]
      apply List.map_congr_left; intro a _; show a - s.addL + s.addL = a; omega
    have hM : (M'.map (· + s.addL)).map (· - s.addL) = M' := by
      rw [List.map_map]; conv_rhs => rw [← List.map_id M']
      apply List.map_congr_left; intro a _; show a + s.addL - s.addL = a; omega
    refine ⟨m + s.addL, M'.map (· + s.addL), l', ?_, ?_, ?_, ?_⟩
    · have := h1.map (· + s.addL)
      rw [hL] at this
      exact this
    · rw [h2]; congr 1; omega
    · rw [hM]; exact h3
    · intro q hq
      obtain ⟨x, hx, rfl⟩ := List.mem_map.mp hq
      have := h4 x hx
      show x + s.addL ≤ m + s.addL
      omega

theorem rep_top_r {s : State} {L R : List Int} {k : Int} (h : Rep s L R k) :
    (R = [] ∧ s.r = [inf]) ∨ ∃ p L' l', R.Perm (p :: L') ∧ s.r = (p - s.addR) :: l' ∧ l'.Perm (inf :: L'.map (· - s.addR)) ∧
      ∀ q ∈ L', p ≤ q := by
  have ha := abs_le.mp h.ar
  have hk := h.k1
  rcases heap_top h.sr h.pr (by
      intro m hm
      obtain ⟨p, hp, rfl⟩ := List.mem_map.mp hm
      have := abs_le.mp (h.br p hp)
      show ¬ (inf ≤ p - s.addR)
      unfold inf; omega) with ⟨e, e'⟩ | ⟨m, M', l', h1, h2, h3, h4⟩
  · exact .inl ⟨List.map_eq_nil_iff.mp e, e'⟩
  · right
    have hL : (R.map (· - s.addR)).map (· + s.addR) = R := by
      rw [List.map_map]; conv_rhs => rw [← List.map_id R]
      apply List.map_congr_left; intro a _; show a - s.addR + s.addR = a; omega
    have hM : (M'.map (· + s.addR)).map (· - s.addR) = M' := by
      rw [List.map_map]; conv_rhs => rw [← List.map_id M']
      apply List.map_congr_left; intro a _; show a + s.addR - s.addR = a; omega
    refine ⟨m + s.addR, M'.map (· + s.addR), l', ?_, ?_, ?_, ?_⟩
    · have := h1.map (· + s.addR)
      rw [hL] at this
      exact this
    · rw [h2]; congr 1; omega
    · rw [hM]; exact h3
    · intro q hq
      obtain ⟨x, hx, rfl⟩ := List.mem_map.mp hq
      have := h4 x hx
      show m + s.addR ≤ x + s.addR
      omega

/-! ### `add_right` -/

theorem far_tot {s : State} {L R : List Int} {k a : Int} (h : Rep s L R k) (ha : |a| ≤ 2 ^ 59) (hL : ∀ p ∈ L, p ≤ a) :
    Tot (addRightFar s a) fun s' => s'.base = s.base ∧ Rep s' L (a :: R) k := by
  have h0 := h.k0
  have h1 := h.k1
  have h2 := abs_le.mp h.al
  have h3 := abs_le.mp h.ar
  have h4 := abs_le.mp ha
  unfold addRightFar
  rw [i64_ok ⟨by omega, by omega⟩, ok_bind]
  refine Tot.pure ⟨rfl, h.k0, h.k1, h.al, h.ar, h.sl, asc_sorted h.sr _, h.pl, ?_, h.bl, ?_, ?_, h.fits⟩
  · exact ((asc_perm ..).trans (h.pr.cons _)).trans (List.Perm.swap ..)
  · intro p hp
    rcases List.mem_cons.mp hp with rfl | hp
    · omega
    · exact h.br p hp
  · intro p hp q hq
    rcases List.mem_cons.mp hq with rfl | hq
    · exact hL p hp
    · exact h.lr p hp q hq

theorem near_tot {s : State} {L R L' l' : List Int} {k a p : Int} (h : Rep s L R k) (ha : |a| ≤ 2 ^ 59) (hp : L.Perm (p :: L'))
    (hl : s.l = (p - s.addL) :: l') (hl' : l'.Perm (-inf :: L'.map (· - s.addL))) (hm : ∀ q ∈ L', q ≤ p) (hap : a < p)
    (hb : -2 ^ 63 ≤ s.base + (p - a) ∧ s.base + (p - a) < 2 ^ 63) :
    Tot (addRightNear s a p) fun s' => s'.base = s.base + (p - a) ∧ Rep s' (a :: L') (p :: R) k := by
  have h0 := h.k0
  have h1 := h.k1
  have h2 := abs_le.mp h.al
  have h3 := abs_le.mp h.ar
  have h4 := abs_le.mp ha
  have hpL : p ∈ L := hp.symm.subset List.mem_cons_self
  have h5 := abs_le.mp (h.bl p hpL)
  have hsl := h.sl
  rw [hl, List.pairwise_cons] at hsl
  have e1 : pushDsc (a - s.addL) s.l = (p - s.addL) :: pushDsc (a - s.addL) l' := by
    rw [hl]; unfold pushDsc
    rw [List.orderedInsert_cons, if_neg (by show ¬ (a - s.addL ≥ p - s.addL); omega)]
  unfold addRightNear
  rw [i64_ok ⟨by omega, by omega⟩, ok_bind, i64_ok ⟨by omega, by omega⟩, ok_bind, i64_ok ⟨by omega, by omega⟩, ok_bind]
  dsimp only
  rw [e1]
  unfold top pop
  dsimp only
  rw [ok_bind, i64_ok ⟨by omega, by omega⟩, ok_bind, i64_ok ⟨by omega, by omega⟩, ok_bind, ok_bind]
  refine Tot.pure ⟨rfl, h.k0, h.k1, h.al, h.ar, dsc_sorted hsl.2 _, asc_sorted h.sr _, ?_, ?_, ?_, ?_, ?_, hb⟩
  · exact ((dsc_perm ..).trans (hl'.cons _)).trans (List.Perm.swap ..)
  · refine ((asc_perm ..).trans (h.pr.cons _)).trans ((List.Perm.swap ..).trans ?_)
    rw [List.map_cons, show p - s.addL + s.addL - s.addR = p - s.addR by omega]
  · intro q hq
    rcases List.mem_cons.mp hq with rfl | hq
    · omega
    · exact h.bl q (hp.symm.subset (List.mem_cons_of_mem _ hq))
  · intro q hq
    rcases List.mem_cons.mp hq with rfl | hq
    · exact h.bl _ hpL
    · exact h.br q hq
  · intro u hu v hv
    have hu' : u ≤ p := by
      rcases List.mem_cons.mp hu with rfl | hu
      · omega
      · exact hm u hu
    rcases List.mem_cons.mp hv with rfl | hv
    · exact hu'
    · exact le_trans hu' (h.lr p hpL v hv)

theorem addRight_tot {s : State} {t : Fun} {a : Int} (h : Sim s t) (ha : |a| ≤ 2 ^ 59)
    (hb : sInf (Set.range fun x => t.f x + max 0 (x - a)) < 2 ^ 63) :
    Tot (addRight s a) fun s' => Sim s' { t with f := fun x => t.f x + max 0 (x - a) } := by
  obtain ⟨L, R, h, hf⟩ := h
  have h0 := h.k0
  have h1 := h.k1
  have h2 := abs_le.mp h.al
  have h3 := abs_le.mp h.ar
  have h4 := abs_le.mp ha
  have far : (∀ p ∈ L, p ≤ a) → Tot (addRightFar s a) fun s' => Sim s' { t with f := fun x => t.f x + max 0 (x - a) } := by
    intro hL
    refine (far_tot h ha hL).mono fun s' hs' => ?_
    refine ⟨L, a :: R, hs'.2, ?_⟩
    funext x
    show t.f x + max 0 (x - a) = _
    rw [hf, hs'.1]
    unfold F
    rw [hr_cons]; omega
  rcases rep_top_l h with ⟨e, e'⟩ | ⟨p, L', l', hp, hl, hl', hm⟩
  · unfold addRight
    rw [e']
    unfold top
    dsimp only
    rw [ok_bind, i64_ok ⟨by unfold inf; omega, by unfold inf; omega⟩, ok_bind, if_pos (by unfold inf; omega)]
    exact far (by rw [e]; simp)
  · have hpL : p ∈ L := hp.symm.subset List.mem_cons_self
    have h5 := abs_le.mp (h.bl p hpL)
    unfold addRight
    have et : top s.l = .ok (p - s.addL) := by rw [hl]; rfl
    rw [et, ok_bind, i64_ok ⟨by omega, by omega⟩, ok_bind, show p - s.addL + s.addL = p by omega]
    by_cases hap : p ≤ a
    · rw [if_pos hap]
      refine far fun q hq => ?_
      rcases List.mem_cons.mp (hp.subset hq) with rfl | hq
      · exact hap
      · exact le_trans (hm q hq) hap
    · rw [if_neg hap]
      have ef : (fun x => t.f x + max 0 (x - a)) = F (s.base + (p - a)) (a :: L') (p :: R) := by
        funext x
        rw [hf]
        unfold F
        rw [hl_perm hp, hl_cons, hl_cons, hr_cons]
        omega
      have hlr : ∀ u ∈ a :: L', ∀ v ∈ p :: R, u ≤ v := by
        intro u hu v hv
        have hu' : u ≤ p := by
          rcases List.mem_cons.mp hu with rfl | hu
          · omega
          · exact hm u hu
        rcases List.mem_cons.mp hv with rfl | hv
        · exact hu'
        · exact le_trans hu' (h.lr p hpL v hv)
      rw [ef, sInf_F hlr] at hb
      have := h.fits
      refine (near_tot h ha hp hl hl' hm (by omega) ⟨by omega, hb⟩).mono fun s' hs' => ?_
      refine ⟨a :: L', p :: R, hs'.2, ?_⟩
      rw [hs'.1]
      exact ef

/-! ### `add_left` -/

theorem far_tot' {s : State} {L R : List Int} {k a : Int} (h : Rep s L R k) (ha : |a| ≤ 2 ^ 59) (hR : ∀ p ∈ R, a ≤ p) :
    Tot (addLeftFar s a) fun s' => s'.base = s.base ∧ Rep s' (a :: L) R k := by
  have h0 := h.k0
  have h1 := h.k1
  have h2 := abs_le.mp h.al
  have h3 := abs_le.mp h.ar
  have h4 := abs_le.mp ha
  unfold addLeftFar
  rw [i64_ok ⟨by omega, by omega⟩, ok_bind]
  refine Tot.pure ⟨rfl, h.k0, h.k1, h.al, h.ar, dsc_sorted h.sl _, h.sr, ?_, h.pr, ?_, h.br, ?_, h.fits⟩
  · exact ((dsc_perm ..).trans (h.pl.cons _)).trans (List.Perm.swap ..)
  · intro p hp
    rcases List.mem_cons.mp hp with rfl | hp
    · omega
    · exact h.bl p hp
  · intro p hp q hq
    rcases List.mem_cons.mp hp with rfl | hp
    · exact hR q hq
    · exact h.lr p hp q hq

theorem near_tot' {s : State} {L R R' r' : List Int} {k a p : Int} (h : Rep s L R k) (ha : |a| ≤ 2 ^ 59) (hp : R.Perm (p :: R'))
    (hl : s.r = (p - s.addR) :: r') (hl' : r'.Perm (inf :: R'.map (· - s.addR))) (hm : ∀ q ∈ R', p ≤ q) (hap : p < a)
    (hb : -2 ^ 63 ≤ s.base + (a - p) ∧ s.base + (a - p) < 2 ^ 63) :
    Tot (addLeftNear s a p) fun s' => s'.base = s.base + (a - p) ∧ Rep s' (p :: L) (a :: R') k := by
  have h0 := h.k0
  have h1 := h.k1
  have h2 := abs_le.mp h.al
  have h3 := abs_le.mp h.ar
  have h4 := abs_le.mp ha
  have hpR : p ∈ R := hp.symm.subset List.mem_cons_self
  have h5 := abs_le.mp (h.br p hpR)
  have hsl := h.sr
  rw [hl, List.pairwise_cons] at hsl
  have e1 : pushAsc (a - s.addR) s.r = (p - s.addR) :: pushAsc (a - s.addR) r' := by
    rw [hl]; unfold pushAsc
    rw [List.orderedInsert_cons, if_neg (by omega)]
  unfold addLeftNear
  rw [i64_ok ⟨by omega, by omega⟩, ok_bind, i64_ok ⟨by omega, by omega⟩, ok_bind, i64_ok ⟨by omega, by omega⟩, ok_bind]
  dsimp only
  rw [e1]
  unfold top pop
  dsimp only
  rw [ok_bind, i64_ok ⟨by omega, by omega⟩, ok_bind, i64_ok ⟨by omega, by omega⟩, ok_bind, ok_bind]
  refine Tot.pure ⟨rfl, h.k0, h.k1, h.al, h.ar, dsc_sorted h.sl _, asc_sorted hsl.2 _, ?_, ?_, ?_, ?_, ?_, hb⟩
  · refine ((dsc_perm ..).trans (h.pl.cons _)).trans ((List.Perm.swap ..).trans ?_)
    rw [List.map_cons, show p - s.addR + s.addR - s.addL = p - s.addL by omega]
  · exact ((asc_perm ..).trans (hl'.cons _)).trans (List.Perm.swap ..)
  · intro q hq
    rcases List.mem_cons.mp hq with rfl | hq
    · exact h.br _ hpR
    · exact h.bl q hq
  · intro q hq
    rcases List.mem_cons.mp hq with rfl | hq
    · omega
    · exact h.br q (hp.symm.subset (List.mem_cons_of_mem _ hq))
  · intro u hu v hv
    have hv' : p ≤ v := by
      rcases List.mem_cons.mp hv with rfl | hv
      · omega
      · exact hm v hv
    rcases List.mem_cons.mp hu with rfl | hu
    · exact hv'
    · exact le_trans (h.lr u hu p hpR) hv'

theorem addLeft_tot {s : State} {t : Fun} {a : Int} (h : Sim s t) (ha : |a| ≤ 2 ^ 59)
    (hb : sInf (Set.range fun x => t.f x + max 0 (a - x)) < 2 ^ 63) :
    Tot (addLeft s a) fun s' => Sim s' { t with f := fun x => t.f x + max 0 (a - x) } := by
  obtain ⟨L, R, h, hf⟩ := h
  have h0 := h.k0
  have h1 := h.k1
  have h2 := abs_le.mp h.al
  have h3 := abs_le.mp h.ar
  have h4 := abs_le.mp ha
  have far : (∀ p ∈ R, a ≤ p) → Tot (addLeftFar s a) fun s' => Sim s' { t with f := fun x => t.f x + max 0 (a - x) } := by
    intro hL
    refine (far_tot' h ha hL).mono fun s' hs' => ?_
    refine ⟨a :: L, R, hs'.2, ?_⟩
    funext x
    show t.f x + max 0 (a - x) = _
    rw [hf, hs'.1]
    unfold F
    rw [hl_cons]; omega
  rcases rep_top_r h with ⟨e, e'⟩ | ⟨p, R', r', hp, hl, hl', hm⟩
  · unfold addLeft
    rw [e']
    unfold top
    dsimp only
    rw [ok_bind, i64_ok ⟨by unfold inf; omega, by unfold inf; omega⟩, ok_bind, if_pos (by unfold inf; omega)]
    exact far (by rw [e]; simp)
  · have hpR : p ∈ R := hp.symm.subset List.mem_cons_self
    have h5 := abs_le.mp (h.br p hpR)
    unfold addLeft
    have et : top s.r = .ok (p - s.addR) := by rw [hl]; rfl
    rw [et, ok_bind, i64_ok ⟨by omega, by omega⟩, ok_bind, show p - s.addR + s.addR = p by omega]
    by_cases hap : a ≤ p
    · rw [if_pos hap]
      refine far fun q hq => ?_
      rcases List.mem_cons.mp (hp.subset hq) with rfl | hq
      · exact hap
      · exact le_trans hap (hm q hq)
    · rw [if_neg hap]
      have ef : (fun x => t.f x + max 0 (a - x)) = F (s.base + (a - p)) (p :: L) (a :: R') := by
        funext x
        rw [hf]
        unfold F
        rw [hr_perm hp, hl_cons, hr_cons, hr_cons]
        omega
      have hlr : ∀ u ∈ p :: L, ∀ v ∈ a :: R', u ≤ v := by
        intro u hu v hv
        have hv' : p ≤ v := by
          rcases List.mem_cons.mp hv with rfl | hv
          · omega
          · exact hm v hv
        rcases List.mem_cons.mp hu with rfl | hu
        · exact hv'
        · exact le_trans (h.lr u hu p hpR) hv'
      rw [ef, sInf_F hlr] at hb
      have := h.fits
      refine (near_tot' h ha hp hl hl' hm (by omega) ⟨by omega, hb⟩).mono fun s' hs' => ?_
      refine ⟨p :: L, a :: R', hs'.2, ?_⟩
      rw [hs'.1]
      exact ef

/-! ### The other operations -/

theorem sim_bdd {s : State} {t : Fun} (h : Sim s t) : ∃ b, ∀ x, b ≤ t.f x := by
  obtain ⟨L, R, h, hf⟩ := h
  exact ⟨s.base, fun x => by rw [hf]; exact F_ge ..⟩

theorem sInf_mono {f g : Int → Int} (hb : ∃ b, ∀ x, b ≤ f x) (h : ∀ x, f x ≤ g x) : sInf (Set.range f) ≤ sInf (Set.range g) := by
  obtain ⟨b, hb⟩ := hb
  apply le_csInf (Set.range_nonempty g)
  rintro _ ⟨x, rfl⟩
  refine le_trans (csInf_le ⟨b, ?_⟩ ⟨x, rfl⟩) (h x)
  rintro _ ⟨y, rfl⟩
  exact hb y

theorem addAbs_tot {s : State} {t : Fun} {a : Int} (h : Sim s t) (ha : |a| ≤ 2 ^ 59)
    (hb : sInf (Set.range fun x => t.f x + |x - a|) < 2 ^ 63) :
    Tot (addAbs s a) fun s' => Sim s' { t with f := fun x => t.f x + |x - a| } := by
  have e : ∀ x, |x - a| = max 0 (a - x) + max 0 (x - a) := by
    intro x
    rcases abs_cases (x - a) with h | h <;> omega
  obtain ⟨b, hbd⟩ := sim_bdd h
  unfold addAbs
  refine Tot.bind (addLeft_tot h ha (lt_of_le_of_lt (sInf_mono ⟨b, fun x => ?_⟩ fun x => ?_) hb)) fun s' hs' => ?_
  · have := hbd x; omega
  · rw [e]; omega
  · have e2 : (fun x => t.f x + |x - a|) = fun x => t.f x + max 0 (a - x) + max 0 (x - a) := by
      funext x; rw [e]; omega
    rw [e2] at hb ⊢
    exact addRight_tot hs' ha hb

theorem argmin_tot {s : State} {t : Fun} (h : Sim s t) :
    Tot (argminRange s) fun p => p.1 ≤ p.2 ∧ ∀ x, |x| ≤ 2 ^ 60 → ((p.1 ≤ x ∧ x ≤ p.2) ↔ ∀ y, t.f x ≤ t.f y) := by
  obtain ⟨L, R, h, hf⟩ := h
  have h0 := h.k0
  have h1 := h.k1
  have h2 := abs_le.mp h.al
  have h3 := abs_le.mp h.ar
  have hl : ∃ x, top s.l = .ok x ∧ -2 ^ 63 ≤ x + s.addL ∧ x + s.addL ≤ 2 ^ 60 ∧
      (∀ q ∈ R, x + s.addL ≤ q) ∧ ∀ z, |z| ≤ 2 ^ 60 → (x + s.addL ≤ z ↔ ∀ p ∈ L, p ≤ z) := by
    rcases rep_top_l h with ⟨e, e'⟩ | ⟨p, L', l', hp, hl, hl', hm⟩
    · refine ⟨-inf, by rw [e']; rfl, by unfold inf; omega, by unfold inf; omega, ?_, ?_⟩
      · intro q hq
        have := abs_le.mp (h.br q hq)
        unfold inf; omega
      · intro z hz
        have := abs_le.mp hz
        rw [e]
        refine ⟨fun _ => by simp, fun _ => ?_⟩
        unfold inf; omega
    · have hpL : p ∈ L := hp.symm.subset List.mem_cons_self
      have h5 := abs_le.mp (h.bl p hpL)
      refine ⟨p - s.addL, by rw [hl]; rfl, by omega, by omega, ?_, ?_⟩
      · intro q hq
        have := h.lr p hpL q hq
        omega
      · intro z _
        rw [show p - s.addL + s.addL = p by omega]
        refine ⟨fun hz q hq => ?_, fun hz => hz p hpL⟩
        rcases List.mem_cons.mp (hp.subset hq) with rfl | hq
        · exact hz
        · exact le_trans (hm q hq) hz
  have hr : ∃ x, top s.r = .ok x ∧ -2 ^ 60 ≤ x + s.addR ∧ x + s.addR < 2 ^ 63 ∧
      (x = inf ∨ x + s.addR ∈ R) ∧ ∀ z, |z| ≤ 2 ^ 60 → (z ≤ x + s.addR ↔ ∀ p ∈ R, z ≤ p) := by
    rcases rep_top_r h with ⟨e, e'⟩ | ⟨p, L', l', hp, hl, hl', hm⟩
    · refine ⟨inf, by rw [e']; rfl, by unfold inf; omega, by unfold inf; omega, .inl rfl, ?_⟩
      · intro z hz
        have := abs_le.mp hz
        rw [e]
        refine ⟨fun _ => by simp, fun _ => ?_⟩
        unfold inf; omega
    · have hpL : p ∈ R := hp.symm.subset List.mem_cons_self
      have h5 := abs_le.mp (h.br p hpL)
      refine ⟨p - s.addR, by rw [hl]; rfl, by omega, by omega, .inr ?_, ?_⟩
      · rw [show p - s.addR + s.addR = p by omega]; exact hpL
      · intro z _
        rw [show p - s.addR + s.addR = p by omega]
        refine ⟨fun hz q hq => ?_, fun hz => hz p hpL⟩
        rcases List.mem_cons.mp (hp.subset hq) with rfl | hq
        · exact hz
        · exact le_trans hz (hm q hq)
  obtain ⟨x, ex, hx1, hx2, hx3, hx4⟩ := hl
  obtain ⟨y, ey, hy1, hy2, hy3, hy4⟩ := hr
  unfold argminRange
  rw [ex, ok_bind, i64_ok ⟨by omega, by omega⟩, ok_bind, ey, ok_bind, i64_ok ⟨by omega, by omega⟩, ok_bind]
  refine Tot.pure ⟨?_, ?_⟩
  · show x + s.addL ≤ y + s.addR
    rcases hy3 with rfl | hy3
    · unfold inf; omega
    · exact hx3 _ hy3
  · intro z hz
    show (x + s.addL ≤ z ∧ z ≤ y + s.addR) ↔ _
    rw [hx4 z hz, hy4 z hz, ← F_eq (b := s.base), hf]
    constructor
    · intro e w
      rw [e]; exact F_ge ..
    · intro hw
      obtain ⟨⟨c, hc⟩, -⟩ := isLeast_F (b := s.base) h.lr
      have := hw c
      rw [hc] at this
      exact le_antisymm this (F_ge ..)

theorem map_shift (L : List Int) (a d : Int) : (L.map (· + d)).map (· - (a + d)) = L.map (· - a) := by
  rw [List.map_map]
  apply List.map_congr_left
  intro p _
  show p + d - (a + d) = p - a
  omega

/-- Moving the two halves of the function apart or together with the whole. -/
theorem move_rep {s : State} {L R : List Int} {k u v : Int} (h : Rep s L R k) (huv : u ≤ v) (hk : k + max |u| |v| ≤ 2 ^ 59) :
    Rep { s with addL := s.addL + u, addR := s.addR + v } (L.map (· + u)) (R.map (· + v)) (k + max |u| |v|) := by
  have h0 := h.k0
  have hu := abs_nonneg u
  have au : |u| ≤ max |u| |v| := le_max_left ..
  have av : |v| ≤ max |u| |v| := le_max_right ..
  obtain ⟨K, hK⟩ : ∃ K, K = max |u| |v| := ⟨_, rfl⟩
  rw [← hK] at au av hk ⊢
  have bu := abs_le.mp au
  have bv := abs_le.mp av
  have h2 := abs_le.mp h.al
  have h3 := abs_le.mp h.ar
  refine ⟨by omega, hk, ?_, ?_, h.sl, h.sr, ?_, ?_, ?_, ?_, ?_, h.fits⟩
  · show |s.addL + u| ≤ k + K
    rw [abs_le]; omega
  · show |s.addR + v| ≤ k + K
    rw [abs_le]; omega
  · show s.l.Perm (-inf :: (L.map (· + u)).map (· - (s.addL + u)))
    rw [map_shift]; exact h.pl
  · show s.r.Perm (inf :: (R.map (· + v)).map (· - (s.addR + v)))
    rw [map_shift]; exact h.pr
  · intro p hp
    obtain ⟨q, hq, rfl⟩ := List.mem_map.mp hp
    have := abs_le.mp (h.bl q hq)
    rw [abs_le]; omega
  · intro p hp
    obtain ⟨q, hq, rfl⟩ := List.mem_map.mp hp
    have := abs_le.mp (h.br q hq)
    rw [abs_le]; omega
  · intro p hp q hq
    obtain ⟨p', hp', rfl⟩ := List.mem_map.mp hp
    obtain ⟨q', hq', rfl⟩ := List.mem_map.mp hq
    have := h.lr p' hp' q' hq'
    show p' + u ≤ q' + v
    omega

theorem shr_tot {s : State} {t : Fun} {d : Int} (h : Sim s t) (hk : t.moved + |d| ≤ 2 ^ 59) :
    Tot (shr s d) fun s' => Sim s' ⟨fun x => t.f (x - d), t.moved + |d|⟩ := by
  obtain ⟨L, R, h, hf⟩ := h
  have hm := move_rep h (le_refl d) (by rw [max_self]; exact hk)
  rw [max_self] at hm
  have h0 := abs_le.mp hm.al
  have h1 := abs_le.mp hm.ar
  dsimp only at h0 h1
  unfold shr
  rw [i64_ok ⟨by omega, by omega⟩, ok_bind, i64_ok ⟨by omega, by omega⟩, ok_bind]
  refine Tot.pure ⟨_, _, hm, ?_⟩
  funext x
  show t.f (x - d) = F s.base _ _ x
  rw [hf]
  unfold F
  rw [hl_shift, hr_shift]

theorem shl_tot {s : State} {t : Fun} {d : Int} (h : Sim s t) (hk : t.moved + |d| ≤ 2 ^ 59) :
    Tot (shl s d) fun s' => Sim s' ⟨fun x => t.f (x + d), t.moved + |d|⟩ := by
  have e : shl s d = shr s (-d) := by
    unfold shl shr
    rw [Int.sub_eq_add_neg, Int.sub_eq_add_neg]
  rw [e]
  have := shr_tot h (d := -d) (by rw [abs_neg]; exact hk)
  rw [abs_neg] at this
  have e2 : (fun x => t.f (x - -d)) = fun x => t.f (x + d) := by funext x; congr 1; omega
  rw [e2] at this
  exact this

theorem translate_tot {s : State} {t : Fun} {d : Int} (h : Sim s t) (hk : t.moved + |d| ≤ 2 ^ 59) :
    Tot (translate s d) fun s' => Sim s' ⟨fun x => t.f (x - d), t.moved + |d|⟩ := by
  have h0 : 0 ≤ t.moved := by obtain ⟨L, R, h, hf⟩ := h; exact h.k0
  unfold translate
  by_cases hd : d ≥ 0
  · rw [if_pos hd]; exact shr_tot h hk
  · rw [if_neg hd]
    have := abs_le.mp (show |d| ≤ 2 ^ 59 by omega)
    rw [i64_ok ⟨by omega, by omega⟩, ok_bind]
    have := shl_tot h (d := -d) (by rw [abs_neg]; exact hk)
    rw [abs_neg] at this
    have e2 : (fun x => t.f (x + -d)) = fun x => t.f (x - d) := by funext x; congr 1
    rw [e2] at this
    exact this

theorem window_tot {s : State} {t : Fun} {a b : Int} (h : Sim s t) (hab : a ≤ b) (hk : t.moved + max |a| |b| ≤ 2 ^ 59) :
    Tot (window s a b) fun s' => Sim s' ⟨fun x => sInf (t.f '' {y | x - b ≤ y ∧ y ≤ x - a}), t.moved + max |a| |b|⟩ := by
  obtain ⟨L, R, h, hf⟩ := h
  have hm := move_rep h hab hk
  have h0 := abs_le.mp hm.al
  have h1 := abs_le.mp hm.ar
  dsimp only at h0 h1
  have hk' : t.moved + max |a| |b| ≤ 2 ^ 59 := hk
  obtain ⟨K, hK⟩ : ∃ K, K = t.moved + max |a| |b| := ⟨_, rfl⟩
  rw [← hK] at h0 h1 hk'
  unfold window
  rw [decide_eq_true hab, check_true, ok_bind, i64_ok ⟨by omega, by omega⟩, ok_bind, i64_ok ⟨by omega, by omega⟩, ok_bind]
  refine Tot.pure ⟨_, _, hm, ?_⟩
  funext x
  show sInf (t.f '' _) = F s.base _ _ x
  rw [hf]
  exact inf_window h.lr hab x

theorem left_sim {s : State} {t : Fun} (h : Sim s t) : Sim (cumMinLeft s) { t with f := fun x => sInf (t.f '' {y | y ≤ x}) } := by
  obtain ⟨L, R, h, hf⟩ := h
  refine ⟨L, [], ⟨h.k0, h.k1, h.al, h.ar, h.sl, List.pairwise_singleton .., h.pl, List.Perm.refl _, h.bl, by simp, by simp, h.fits⟩, ?_⟩
  funext x
  show sInf (t.f '' _) = F s.base _ _ x
  rw [hf]
  exact inf_left h.lr x

theorem right_sim {s : State} {t : Fun} (h : Sim s t) : Sim (cumMinRight s) { t with f := fun x => sInf (t.f '' {y | x ≤ y}) } := by
  obtain ⟨L, R, h, hf⟩ := h
  refine ⟨[], R, ⟨h.k0, h.k1, h.al, h.ar, List.pairwise_singleton .., h.sr, List.Perm.refl _, h.pr, by simp, h.br, by simp, h.fits⟩, ?_⟩
  funext x
  show sInf (t.f '' _) = F s.base _ _ x
  rw [hf]
  exact inf_right h.lr x

theorem addConst_tot {s : State} {t : Fun} {a : Int} (h : Sim s t)
    (hb : -2 ^ 63 ≤ sInf (Set.range fun x => t.f x + a) ∧ sInf (Set.range fun x => t.f x + a) < 2 ^ 63) :
    Tot (addConst s a) fun s' => Sim s' { t with f := fun x => t.f x + a } := by
  obtain ⟨L, R, h, hf⟩ := h
  have e : (fun x => t.f x + a) = F (s.base + a) L R := by
    funext x; rw [hf]; unfold F; omega
  rw [e] at hb ⊢
  rw [sInf_F h.lr] at hb
  unfold addConst
  rw [i64_ok hb, ok_bind]
  exact Tot.pure ⟨L, R, ⟨h.k0, h.k1, h.al, h.ar, h.sl, h.sr, h.pl, h.pr, h.bl, h.br, h.lr, hb⟩, rfl⟩

theorem sim_init : Sim init zero := by
  refine ⟨[], [], ⟨le_refl _, by decide, by decide, by decide, List.pairwise_singleton .., List.pairwise_singleton .., List.Perm.refl _, List.Perm.refl _,
    by simp, by simp, by simp, by decide, by decide⟩, ?_⟩
  funext x
  rfl

theorem step_tot {s : State} {t : Fun} (h : Sim s t) (o : Op) (hp : Pre t o) :
    Tot (step s o) fun r => Sim r.1 (next t o) ∧ Ans t o r.2 := by
  obtain ⟨h1, h2, h3, h4⟩ := hp
  have lift : ∀ {m : M State} {t' : Fun}, Tot m (fun s' => Sim s' t') →
      Tot (m >>= fun s' => (Except.ok (s', Out.unit) : M (State × Out))) fun r => Sim r.1 t' ∧ r.2 = Out.unit := by
    intro m t' hm
    exact Tot.bind hm fun s' hs' => ⟨_, rfl, hs', rfl⟩
  cases o with
  | min =>
    obtain ⟨L, R, h', hf⟩ := h
    refine ⟨_, rfl, ⟨L, R, h', hf⟩, s.base, rfl, ?_⟩
    rw [hf]
    exact isLeast_F h'.lr
  | argminRange =>
    refine Tot.bind (argmin_tot h) fun p hp => ?_
    exact ⟨_, rfl, h, p.1, p.2, rfl, hp.1, hp.2⟩
  | addConst a => exact lift (addConst_tot h ⟨h3, h4⟩)
  | addRight a => exact lift (addRight_tot h h1 h4)
  | addLeft a => exact lift (addLeft_tot h h1 h4)
  | addAbs a => exact lift (addAbs_tot h h1 h4)
  | cumMinLeft => exact ⟨_, rfl, left_sim h, rfl⟩
  | cumMinRight => exact ⟨_, rfl, right_sim h, rfl⟩
  | shl d => exact lift (shl_tot h h2)
  | shr d => exact lift (shr_tot h h2)
  | translate d => exact lift (translate_tot h h2)
  | window a b => exact lift (window_tot h h1 h2)

end SlopeTrick
