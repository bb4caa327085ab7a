import Verif.Model.LiChao
import Verif.Proof.Compressor
import Verif.Proof.SegTree
import Mathlib.Tactic.Linarith
import Mathlib.Tactic.Ring

namespace LiChao
open Cxx

/-! ## Lines -/

/-- The value of a line. -/
def val (f : Line) (x : Int) : Int := f.a * x + f.b

/-- The value can be computed. -/
def Fits (f : Line) (x : Int) : Prop := (-2 ^ 63 ≤ f.a * x ∧ f.a * x < 2 ^ 63) ∧ (-2 ^ 63 ≤ val f x ∧ val f x < 2 ^ 63)

theorem val_e (x : Int) : val e x = inf := by
  unfold val e
  dsimp only
  rw [zero_mul, zero_add]

theorem eval_ok {f : Line} {x : Int} (h : f = e ∨ Fits f x) : eval f x = .ok (val f x) := by
  unfold eval
  by_cases he : f = e
  · rw [if_pos he, he, val_e]
    rfl
  · rw [if_neg he]
    rcases h with h | h
    · exact absurd h he
    · rw [i64_ok h.1, ok_bind]
      exact i64_ok h.2

theorem after {f g : Line} {x1 x2 x : Int} (h1 : val f x1 < val g x1) (h2 : val g x2 ≤ val f x2) (h12 : x1 ≤ x2) (hx : x2 ≤ x) : val g x ≤ val f x := by
  unfold val at *
  have hd : 0 < f.a - g.a := by
    by_contra hc
    have : (f.a - g.a) * (x2 - x1) ≤ 0 := mul_nonpos_of_nonpos_of_nonneg (by omega) (by omega)
    linarith
  have : 0 ≤ (f.a - g.a) * (x - x2) := mul_nonneg (by omega) (by omega)
  linarith

theorem between {f g : Line} {x1 x2 x : Int} (h1 : val g x1 ≤ val f x1) (h2 : val g x2 ≤ val f x2) (hx1 : x1 ≤ x) (hx : x ≤ x2) : val g x ≤ val f x := by
  unfold val at *
  rcases le_total 0 (f.a - g.a) with h | h
  · have : 0 ≤ (f.a - g.a) * (x - x1) := mul_nonneg h (by omega)
    linarith
  · have : (f.a - g.a) * (x2 - x) ≤ 0 := mul_nonpos_of_nonpos_of_nonneg h (by omega)
    linarith

/-! ## The tree -/

/-- The fixed part of the object. -/
structure Geo (o : Obj) (L : Nat) : Prop where
  m_eq : o.m = 2 ^ L
  logm : o.logm = L
  size : o.pos.size = o.m
  mono : ∀ i j, i ≤ j → j < o.m → at' 0 o.pos i ≤ at' 0 o.pos j

/-- The coordinate of a leaf. -/
def X (o : Obj) (J : Nat) : Int := at' 0 o.pos (J - o.m)

theorem X_mono {o : Obj} {L : Nat} (hg : Geo o L) {J J' : Nat} (h : J ≤ J') (h2 : J' < 2 * o.m) : X o J ≤ X o J' := by
  have hm : 0 < o.m := by rw [hg.m_eq]; exact Nat.two_pow_pos _
  exact hg.mono _ _ (by omega) (by omega)

theorem level_unique {L J k s t : Nat} (h1 : 2 ^ L ≤ J) (h2 : J < 2 * 2 ^ L) (hs : J / 2 ^ s = k) (ht1 : 2 ^ L ≤ k * 2 ^ t) (ht2 : (k + 1) * 2 ^ t ≤ 2 * 2 ^ L) : s = t := by
  have hs0 : 0 < 2 ^ s := Nat.two_pow_pos s
  have e1 : k * 2 ^ s ≤ J := by rw [← hs]; exact Nat.div_mul_le_self _ _
  have e2 : J < (k + 1) * 2 ^ s := by
    rw [← hs]
    exact (Nat.div_lt_iff_lt_mul hs0).mp (Nat.lt_succ_self _)
  rcases lt_trichotomy s t with h | h | h
  · exfalso
    have : 2 ^ (s + 1) ≤ 2 ^ t := Nat.pow_le_pow_right (by omega) h
    rw [pow_succ] at this
    have : (k + 1) * (2 ^ s * 2) ≤ (k + 1) * 2 ^ t := Nat.mul_le_mul_left _ this
    rw [← mul_assoc] at this
    omega
  · exact h
  · exfalso
    have : 2 ^ (t + 1) ≤ 2 ^ s := Nat.pow_le_pow_right (by omega) h
    rw [pow_succ] at this
    have : k * (2 ^ t * 2) ≤ k * 2 ^ s := Nat.mul_le_mul_left _ this
    rw [← mul_assoc] at this
    omega

theorem div_eq_iff' {J k t : Nat} : J / 2 ^ t = k ↔ k * 2 ^ t ≤ J ∧ J < (k + 1) * 2 ^ t := by
  have h0 : 0 < 2 ^ t := Nat.two_pow_pos t
  constructor
  · rintro rfl
    exact ⟨Nat.div_mul_le_self _ _, (Nat.div_lt_iff_lt_mul h0).mp (Nat.lt_succ_self _)⟩
  · rintro ⟨h1, h2⟩
    refine Nat.div_eq_of_lt_le h1 h2

/-- A node above the leaf is at most `h`. -/
def Cov (o : Obj) (seg : Array Line) (J : Nat) (h : Line) : Prop := ∃ s, 1 ≤ J / 2 ^ s ∧ val (at' e seg (J / 2 ^ s)) (X o J) ≤ val h (X o J)

/-- Nodes hold lines of all leaves below. -/
def Sound (o : Obj) (A : Nat → Line → Prop) (seg : Array Line) : Prop :=
  ∀ J s, o.m ≤ J → J < 2 * o.m → 1 ≤ J / 2 ^ s → at' e seg (J / 2 ^ s) = e ∨ A J (at' e seg (J / 2 ^ s))

/-- The invariant: `A J f` says that the line `f` was added for the leaf `J`. -/
structure Inv (o : Obj) (A : Nat → Line → Prop) (seg : Array Line) : Prop where
  size : seg.size = 2 * o.m
  sound : Sound o A seg
  cov : ∀ J h, A J h → Cov o seg J h

/-- The invariant with a pending line at node `k` of width `2^t`. -/
structure Pend (o : Obj) (A : Nat → Line → Prop) (seg : Array Line) (k t : Nat) (f : Line) : Prop where
  size : seg.size = 2 * o.m
  sound : Sound o A seg
  line : f = e ∨ ∀ J, J / 2 ^ t = k → A J f
  lo : o.m ≤ k * 2 ^ t
  hi : (k + 1) * 2 ^ t ≤ 2 * o.m
  cov : ∀ J h, A J h → Cov o seg J h ∨ (J / 2 ^ t = k ∧ val f (X o J) ≤ val h (X o J))

theorem Inv.congr {o : Obj} {A B : Nat → Line → Prop} {seg : Array Line} (h : Inv o A seg) (hab : ∀ J f, o.m ≤ J → J < 2 * o.m → (A J f ↔ B J f)) (hB : ∀ J f, B J f → o.m ≤ J ∧ J < 2 * o.m) : Inv o B seg :=
  ⟨h.size, fun J s h1 h2 h3 => (h.sound J s h1 h2 h3).imp id fun h => (hab J _ h1 h2).mp h, fun J f hf => h.cov J f ((hab J f (hB J f hf).1 (hB J f hf).2).mpr hf)⟩

theorem insertStep_tot {o : Obj} {L : Nat} (hg : Geo o L) {A : Nat → Line → Prop} (hA : ∀ J f, A J f → Fits f (X o J)) (hAm : ∀ J f, A J f → o.m ≤ J ∧ J < 2 * o.m) {s : St} {t : Nat} (hw : s.w = 2 ^ t) (hl : s.l + o.m = s.k * 2 ^ t) (hr : s.r = s.l + 2 ^ t)
    (hp : Pend o A s.seg s.k t s.f) :
    Tot (insertStep o.pos s) (fun r => ∃ s', r = some s' ∧ s'.w < s.w ∧ ((s'.w = 0 ∧ Inv o A s'.seg) ∨
      ∃ t', s'.w = 2 ^ t' ∧ s'.l + o.m = s'.k * 2 ^ t' ∧ s'.r = s'.l + 2 ^ t' ∧ Pend o A s'.seg s'.k t' s'.f)) := by
  obtain ⟨k, l, r, w, f, seg⟩ := s
  dsimp only at hw hl hr hp ⊢
  subst hw hr
  have hm := hg.m_eq
  have h2t : 0 < 2 ^ t := Nat.two_pow_pos t
  have hlo := hp.lo
  have hhi := hp.hi
  have hk1 : (k + 1) * 2 ^ t = k * 2 ^ t + 2 ^ t := by ring
  have hkpos : 1 ≤ k := by
    rcases Nat.eq_zero_or_pos k with h | h
    · have := Nat.two_pow_pos L
      rw [h, zero_mul] at hlo
      omega
    · exact h
  have hklt : k < 2 * o.m := by
    have : k + 1 ≤ (k + 1) * 2 ^ t := Nat.le_mul_of_pos_right _ h2t
    omega
  unfold insertStep
  dsimp only
  rw [if_neg (by omega), rd_at e (by rw [hp.size]; exact hklt), ok_bind]
  obtain ⟨g, hgk⟩ : ∃ g, g = at' e seg k := ⟨_, rfl⟩
  rw [← hgk]
  have hgA : ∀ J, J / 2 ^ t = k → g = e ∨ A J g := by
    intro J hJ
    have hb := div_eq_iff'.mp hJ
    have := hp.sound J t (by omega) (by omega) (by omega)
    rw [hJ, ← hgk] at this
    exact this
  have hfA : ∀ J, J / 2 ^ t = k → f = e ∨ A J f := fun J hJ => hp.line.imp id fun h => h J hJ
  have hX : ∀ d, d < 2 ^ t → rd o.pos (l + d) = .ok (X o (k * 2 ^ t + d)) ∧ (k * 2 ^ t + d) / 2 ^ t = k := by
    intro d hd
    refine ⟨?_, div_eq_iff'.mpr ⟨by omega, by omega⟩⟩
    rw [rd_at 0 (by rw [hg.size]; omega)]
    unfold X
    congr 2
    omega
  obtain ⟨x0, j0⟩ := hX 0 h2t
  have hhalf : 2 ^ t / 2 < 2 ^ t := by omega
  obtain ⟨x1, j1⟩ := hX (2 ^ t / 2) hhalf
  obtain ⟨x2, j2⟩ := hX (2 ^ t - 1) (by omega)
  rw [Nat.add_zero, Nat.add_zero] at x0
  rw [Nat.add_zero] at j0
  rw [x0, ok_bind, show (l + (l + 2 ^ t)) / 2 = l + 2 ^ t / 2 by omega, x1, ok_bind, show l + 2 ^ t - 1 = l + (2 ^ t - 1) by omega, x2, ok_bind]
  have ev : ∀ h J, (h = e ∨ A J h) → eval h (X o J) = .ok (val h (X o J)) := fun h J hh => eval_ok (hh.imp id fun hh => hA J h hh)
  rw [ev f _ (hfA _ j0), ok_bind, ev f _ (hfA _ j1), ok_bind, ev f _ (hfA _ j2), ok_bind, ev g _ (hgA _ j0), ok_bind, ev g _ (hgA _ j1), ok_bind, ev g _ (hgA _ j2), ok_bind]
  rw [wr_eq (by rw [hp.size]; exact hklt), ok_bind]
  -- the lines after the exchange
  obtain ⟨f', g', hfg, hmid, hsw⟩ : ∃ f' g', ((f' = f ∧ g' = g) ∨ (f' = g ∧ g' = f)) ∧ val g' (X o (k * 2 ^ t + 2 ^ t / 2)) ≤ val f' (X o (k * 2 ^ t + 2 ^ t / 2)) ∧
      ((decide (val f (X o (k * 2 ^ t + 2 ^ t / 2)) < val g (X o (k * 2 ^ t + 2 ^ t / 2))) = true ∧ f' = g ∧ g' = f) ∨
       (decide (val f (X o (k * 2 ^ t + 2 ^ t / 2)) < val g (X o (k * 2 ^ t + 2 ^ t / 2))) = false ∧ f' = f ∧ g' = g)) := by
    by_cases h : val f (X o (k * 2 ^ t + 2 ^ t / 2)) < val g (X o (k * 2 ^ t + 2 ^ t / 2))
    · exact ⟨g, f, Or.inr ⟨rfl, rfl⟩, le_of_lt h, Or.inl ⟨decide_eq_true h, rfl, rfl⟩⟩
    · exact ⟨f, g, Or.inl ⟨rfl, rfl⟩, by omega, Or.inr ⟨decide_eq_false h, rfl, rfl⟩⟩
  generalize hb : decide (val f (X o (k * 2 ^ t + 2 ^ t / 2)) < val g (X o (k * 2 ^ t + 2 ^ t / 2))) = bsw at hsw ⊢
  have e1 : (if bsw = true then f else g) = g' := by
    rcases hsw with ⟨rfl, -, h⟩ | ⟨rfl, -, h⟩
    · rw [if_pos rfl, h]
    · rw [if_neg (by decide), h]
  have e2 : (if bsw = true then g else f) = f' := by
    rcases hsw with ⟨rfl, h, -⟩ | ⟨rfl, h, -⟩
    · rw [if_pos rfl, h]
    · rw [if_neg (by decide), h]
  have e3 : ∀ x, (if bsw = true then val g x else val f x) = val f' x := by
    intro x
    rw [← e2]
    split_ifs <;> rfl
  have e4 : ∀ x, (if bsw = true then val f x else val g x) = val g' x := by
    intro x
    rw [← e1]
    split_ifs <;> rfl
  rw [e1, e2, e3, e3, e4, e4]
  have hf'A : f' = e ∨ ∀ J, J / 2 ^ t = k → A J f' := by
    rcases hfg with ⟨h, -⟩ | ⟨h, -⟩
    · rw [h]; exact hp.line
    · rw [h]
      by_cases hge : g = e
      · exact Or.inl hge
      · exact Or.inr fun J hJ => (hgA J hJ).resolve_left hge
  have hg'A : ∀ J, J / 2 ^ t = k → g' = e ∨ A J g' := by
    intro J hJ
    rcases hfg with ⟨-, h⟩ | ⟨-, h⟩
    · rw [h]; exact hgA J hJ
    · rw [h]; exact hfA J hJ
  obtain ⟨seg', hseg'⟩ : ∃ seg', seg' = seg.setIfInBounds k g' := ⟨_, rfl⟩
  rw [← hseg']
  have hat : ∀ j, at' e seg' j = if k = j then g' else at' e seg j := by
    intro j
    rw [hseg', at_set e (by rw [hp.size]; exact hklt)]
  have hsz' : seg'.size = 2 * o.m := by rw [hseg', Array.size_setIfInBounds]; exact hp.size
  have hsound' : Sound o A seg' := by
    intro J s h1 h2 h3
    rw [hat]
    by_cases hk : k = J / 2 ^ s
    · rw [if_pos hk]
      have hst : s = t := level_unique (L := L) (by omega) (by omega) hk.symm (by omega) (by omega)
      rw [hst] at hk
      exact hg'A J hk.symm
    · rw [if_neg hk]
      exact hp.sound J s h1 h2 h3
  have hnode : ∀ J h, J / 2 ^ t = k → val g' (X o J) ≤ val h (X o J) → Cov o seg' J h := by
    intro J h hJ hle
    refine ⟨t, by omega, ?_⟩
    rw [hJ, hat, if_pos rfl]
    exact hle
  have hcov' : ∀ J h, A J h → Cov o seg' J h ∨ (J / 2 ^ t = k ∧ val f' (X o J) ≤ val h (X o J)) := by
    intro J h hh
    rcases hp.cov J h hh with ⟨s, c1, c2⟩ | ⟨c1, c2⟩
    · by_cases hk : k = J / 2 ^ s
      · rw [← hk, ← hgk] at c2
        have hJm := hAm J h hh
        have hst : s = t := level_unique (L := L) (by omega) (by omega) hk.symm (by omega) (by omega)
        rw [hst] at hk
        rcases hfg with ⟨-, h'⟩ | ⟨h', -⟩
        · exact Or.inl (hnode J h hk.symm (by rw [h']; exact c2))
        · exact Or.inr ⟨hk.symm, by rw [h']; exact c2⟩
      · exact Or.inl ⟨s, c1, by rw [hat, if_neg hk]; exact c2⟩
    · rcases hfg with ⟨h', -⟩ | ⟨-, h'⟩
      · exact Or.inr ⟨c1, by rw [h']; exact c2⟩
      · exact Or.inl (hnode J h c1 (by rw [h']; exact c2))
  have hmono : ∀ {J J'}, J ≤ J' → J' < 2 * o.m → X o J ≤ X o J' := fun h h2 => X_mono hg h h2
  by_cases hL : val f' (X o (k * 2 ^ t)) < val g' (X o (k * 2 ^ t))
  · rw [if_pos hL]
    have ht : t ≠ 0 := by
      rintro rfl
      simp only [pow_zero, mul_one, Nat.reduceDiv, Nat.add_zero] at hL hmid
      omega
    obtain ⟨u, rfl⟩ : ∃ u, t = u + 1 := ⟨t - 1, by omega⟩
    have hu : 2 ^ (u + 1) / 2 = 2 ^ u := by rw [pow_succ]; omega
    have hu2 : 2 ^ (u + 1) = 2 * 2 ^ u := by rw [pow_succ]; omega
    have hu0 : 0 < 2 ^ u := Nat.two_pow_pos u
    have ek : k * 2 * 2 ^ u = k * 2 ^ (u + 1) := by rw [pow_succ]; ring
    have ek1 : (k * 2 + 1) * 2 ^ u = k * 2 ^ (u + 1) + 2 ^ u := by rw [pow_succ]; ring
    refine tot_ok.mpr ⟨_, rfl, by dsimp only; omega, Or.inr ⟨u, hu, ?_, ?_, ?_⟩⟩
    · dsimp only
      omega
    · dsimp only
      omega
    · dsimp only
      refine ⟨hsz', hsound', hf'A.imp id ?_, by omega, by omega, ?_⟩
      · intro h J hJ
        apply h
        have := div_eq_iff'.mp hJ
        exact div_eq_iff'.mpr ⟨by omega, by omega⟩
      · intro J h hh
        rcases hcov' J h hh with c | ⟨c1, c2⟩
        · exact Or.inl c
        · have hb := div_eq_iff'.mp c1
          by_cases hleft : J < k * 2 ^ (u + 1) + 2 ^ u
          · exact Or.inr ⟨div_eq_iff'.mpr ⟨by omega, by omega⟩, c2⟩
          · refine Or.inl (hnode J h c1 (le_trans ?_ c2))
            rw [hu] at hmid
            exact after hL hmid (hmono (by omega) (by omega)) (hmono (by omega) (by omega))
  · rw [if_neg hL]
    by_cases hR : val f' (X o (k * 2 ^ t + (2 ^ t - 1))) < val g' (X o (k * 2 ^ t + (2 ^ t - 1)))
    · rw [if_pos hR]
      have ht : t ≠ 0 := by
        rintro rfl
        simp only [pow_zero, mul_one, Nat.reduceDiv, Nat.add_zero, Nat.sub_self] at hR hmid
        omega
      obtain ⟨u, rfl⟩ : ∃ u, t = u + 1 := ⟨t - 1, by omega⟩
      have hu : 2 ^ (u + 1) / 2 = 2 ^ u := by rw [pow_succ]; omega
      have hu2 : 2 ^ (u + 1) = 2 * 2 ^ u := by rw [pow_succ]; omega
      have hu0 : 0 < 2 ^ u := Nat.two_pow_pos u
      have ek1 : (k * 2 + 1) * 2 ^ u = k * 2 ^ (u + 1) + 2 ^ u := by rw [pow_succ]; ring
      have ek2 : (k * 2 + 1 + 1) * 2 ^ u = k * 2 ^ (u + 1) + 2 ^ (u + 1) := by rw [pow_succ]; ring
      refine tot_ok.mpr ⟨_, rfl, by dsimp only; omega, Or.inr ⟨u, hu, ?_, ?_, ?_⟩⟩
      · dsimp only
        omega
      · dsimp only
        omega
      · dsimp only
        refine ⟨hsz', hsound', hf'A.imp id ?_, by omega, by omega, ?_⟩
        · intro h J hJ
          apply h
          have := div_eq_iff'.mp hJ
          exact div_eq_iff'.mpr ⟨by omega, by omega⟩
        · intro J h hh
          rcases hcov' J h hh with c | ⟨c1, c2⟩
          · exact Or.inl c
          · have hb := div_eq_iff'.mp c1
            by_cases hleft : J < k * 2 ^ (u + 1) + 2 ^ u
            · refine Or.inl (hnode J h c1 (le_trans ?_ c2))
              rw [hu] at hmid
              exact between (not_lt.mp hL) hmid (hmono (by omega) (by omega)) (hmono (by omega) (by omega))
            · exact Or.inr ⟨div_eq_iff'.mpr ⟨by omega, by omega⟩, c2⟩
    · rw [if_neg hR]
      refine tot_ok.mpr ⟨_, rfl, h2t, Or.inl ⟨rfl, hsz', hsound', ?_⟩⟩
      intro J h hh
      rcases hcov' J h hh with c | ⟨c1, c2⟩
      · exact c
      · have hb := div_eq_iff'.mp c1
        refine hnode J h c1 (le_trans ?_ c2)
        exact between (not_lt.mp hL) (not_lt.mp hR) (hmono (by omega) (by omega)) (hmono (by omega) (by omega))

theorem insert_tot {o : Obj} {L : Nat} (hg : Geo o L) {A : Nat → Line → Prop} (hA : ∀ J f, A J f → Fits f (X o J)) (hAm : ∀ J f, A J f → o.m ≤ J ∧ J < 2 * o.m) {seg : Array Line} (hi : Inv o A seg)
    {k t : Nat} {f : Line} (h1 : o.m ≤ k * 2 ^ t) (h2 : (k + 1) * 2 ^ t ≤ 2 * o.m) (hf : ∀ J, J / 2 ^ t = k → Fits f (X o J)) :
    Tot (insert o seg k f) (Inv o (fun J h => A J h ∨ (h = f ∧ J / 2 ^ t = k))) := by
  have hm := hg.m_eq
  have h2t : 0 < 2 ^ t := Nat.two_pow_pos t
  have hk1 : (k + 1) * 2 ^ t = k * 2 ^ t + 2 ^ t := by ring
  have htL : t ≤ L := by
    by_contra hc
    have : 2 ^ (L + 1) ≤ 2 ^ t := Nat.pow_le_pow_right (by omega) (by omega)
    rw [pow_succ] at this
    have hk : k = 0 := by
      by_contra hk
      have : 2 ^ t ≤ k * 2 ^ t := Nat.le_mul_of_pos_left _ (by omega)
      omega
    rw [hk, zero_mul] at h1
    have := Nat.two_pow_pos L
    omega
  have hlog : k.log2 = L - t := by
    have e1 : 2 ^ L = 2 ^ (L - t) * 2 ^ t := by
      rw [← pow_add]
      congr 1
      omega
    have hk0 : k ≠ 0 := by
      rintro rfl
      rw [zero_mul] at h1
      have := Nat.two_pow_pos L
      omega
    rw [Nat.log2_eq_iff hk0]
    constructor
    · rw [hm, e1] at h1
      exact Nat.le_of_mul_le_mul_right h1 h2t
    · have : (k + 1) * 2 ^ t ≤ (2 * 2 ^ (L - t)) * 2 ^ t := by
        rw [mul_assoc, ← e1, ← hm]
        exact h2
      have := Nat.le_of_mul_le_mul_right this h2t
      rw [pow_succ]
      omega
  unfold insert
  rw [hg.logm, hlog, show L - (L - t) = t by omega]
  dsimp only
  have hA' : ∀ J h, (A J h ∨ (h = f ∧ J / 2 ^ t = k)) → Fits h (X o J) := by
    rintro J h (h' | ⟨rfl, h'⟩)
    · exact hA J h h'
    · exact hf J h'
  have hAm' : ∀ J h, (A J h ∨ (h = f ∧ J / 2 ^ t = k)) → o.m ≤ J ∧ J < 2 * o.m := by
    rintro J h (h' | ⟨rfl, h'⟩)
    · exact hAm J h h'
    · have := div_eq_iff'.mp h'
      omega
  refine (Tot.loop (P := fun s : St => (s.w = 0 ∧ Inv o (fun J h => A J h ∨ (h = f ∧ J / 2 ^ t = k)) s.seg) ∨
      ∃ t', s.w = 2 ^ t' ∧ s.l + o.m = s.k * 2 ^ t' ∧ s.r = s.l + 2 ^ t' ∧ Pend o (fun J h => A J h ∨ (h = f ∧ J / 2 ^ t = k)) s.seg s.k t' s.f)
    (Q := fun s => Inv o (fun J h => A J h ∨ (h = f ∧ J / 2 ^ t = k)) s.seg) (μ := fun s => s.w) ?_ (s := { k := k, l := k * 2 ^ t - o.m, r := k * 2 ^ t - o.m + 2 ^ t, w := 2 ^ t, f := f, seg := seg }) (Or.inr ⟨t, rfl, by dsimp only; omega, rfl, ?_⟩) (le_refl _)).bind ?_
  · rintro s (⟨h0, hinv⟩ | ⟨t', q1, q2, q3, q4⟩)
    · unfold insertStep
      rw [if_pos h0]
      exact tot_ok.mpr hinv
    · refine (insertStep_tot hg hA' hAm' q1 q2 q3 q4).mono ?_
      rintro _ ⟨s', rfl, hlt, hor⟩
      exact ⟨hor, hlt⟩
  · refine ⟨hi.size, ?_, Or.inr fun J hJ => Or.inr ⟨rfl, hJ⟩, h1, h2, ?_⟩
    · intro J s a1 a2 a3
      exact (hi.sound J s a1 a2 a3).imp id Or.inl
    · rintro J h (h' | ⟨rfl, h'⟩)
      · exact Or.inl (hi.cov J h h')
      · exact Or.inr ⟨h', le_refl _⟩
  · intro s hs
    exact tot_ok.mpr hs

/-- The loop of `add_segment`. -/
theorem addLoop_tot {o : Obj} {L : Nat} (hg : Geo o L) {A : Nat → Line → Prop} (hA : ∀ J f, A J f → Fits f (X o J)) (hAm : ∀ J f, A J f → o.m ≤ J ∧ J < 2 * o.m) (hi : Inv o A o.seg)
    {l r : Nat} {f : Line} (hl : o.m ≤ l) (hlr : l ≤ r) (hr : r ≤ 2 * o.m) (hf : ∀ J, l ≤ J → J < r → Fits f (X o J)) :
    Tot (loop (addStep o f) r (l, r, o.seg)) (fun s => Inv o (fun J h => A J h ∨ (h = f ∧ l ≤ J ∧ J < r)) s.2.2) := by
  have hm0 : 0 < o.m := by rw [hg.m_eq]; exact Nat.two_pow_pos _
  refine Tot.loop (P := fun s : Nat × Nat × Array Line => ∃ t, s.1 ≤ s.2.1 ∧ l ≤ s.1 * 2 ^ t ∧ s.2.1 * 2 ^ t ≤ r ∧
      Inv o (fun J h => A J h ∨ (h = f ∧ l ≤ J ∧ J < r ∧ (J < s.1 * 2 ^ t ∨ s.2.1 * 2 ^ t ≤ J))) s.2.2)
    (Q := fun s => Inv o (fun J h => A J h ∨ (h = f ∧ l ≤ J ∧ J < r)) s.2.2) (μ := fun s => s.2.1) ?_ (s := (l, r, o.seg)) ⟨0, hlr, by simp, by simp, ?_⟩ (le_refl _)
  · rintro ⟨a, b, seg⟩ ⟨t, q1, q2, q3, q4⟩
    dsimp only at q1 q2 q3 q4
    unfold addStep
    dsimp only
    have h2t : 0 < 2 ^ t := Nat.two_pow_pos t
    by_cases hab : a < b
    · rw [if_pos hab]
      have ha1 : (a + 1) * 2 ^ t = a * 2 ^ t + 2 ^ t := by ring
      have hab1 : (a + 1) * 2 ^ t ≤ b * 2 ^ t := Nat.mul_le_mul_right _ hab
      have hFitA : ∀ c d : Nat, ∀ J h, (A J h ∨ (h = f ∧ l ≤ J ∧ J < r ∧ (J < c * 2 ^ t ∨ d * 2 ^ t ≤ J))) → Fits h (X o J) := by
        rintro c d J h (h' | ⟨rfl, g1, g2, -⟩)
        · exact hA J h h'
        · exact hf J g1 g2
      have hAmA : ∀ c d : Nat, ∀ J h, (A J h ∨ (h = f ∧ l ≤ J ∧ J < r ∧ (J < c * 2 ^ t ∨ d * 2 ^ t ≤ J))) → o.m ≤ J ∧ J < 2 * o.m := by
        rintro c d J h (h' | ⟨rfl, g1, g2, -⟩)
        · exact hAm J h h'
        · omega
      -- the left end
      have left : Tot (if a % 2 = 1 then do
            let seg ← insert o seg a f
            return (a + 1, seg)
          else return (a, seg) : M (Nat × Array Line))
          (fun p => p.1 = (a + 1) / 2 * 2 ∧ Inv o (fun J h => A J h ∨ (h = f ∧ l ≤ J ∧ J < r ∧ (J < p.1 * 2 ^ t ∨ b * 2 ^ t ≤ J))) p.2) := by
        by_cases hodd : a % 2 = 1
        · rw [if_pos hodd]
          refine (insert_tot hg (hFitA a b) (hAmA a b) q4 (k := a) (t := t) (f := f) (by omega) (by omega) ?_).bind ?_
          · intro J hJ
            have := div_eq_iff'.mp hJ
            exact hf J (by omega) (by omega)
          · intro sg hs
            refine tot_ok.mpr ⟨by dsimp only; omega, hs.congr ?_ (hAmA _ _)⟩
            intro J h _ _
            dsimp only
            constructor
            · rintro ((h' | ⟨g1, g2, g3, g4⟩) | ⟨g1, g2⟩)
              · exact Or.inl h'
              · exact Or.inr ⟨g1, g2, g3, g4.imp (by omega) id⟩
              · have := div_eq_iff'.mp g2
                exact Or.inr ⟨g1, by omega, by omega, Or.inl (by omega)⟩
            · rintro (h' | ⟨g1, g2, g3, g4⟩)
              · exact Or.inl (Or.inl h')
              · by_cases hc : a * 2 ^ t ≤ J ∧ J < (a + 1) * 2 ^ t
                · exact Or.inr ⟨g1, div_eq_iff'.mpr hc⟩
                · exact Or.inl (Or.inr ⟨g1, g2, g3, by omega⟩)
        · rw [if_neg hodd]
          exact tot_ok.mpr ⟨by dsimp only; omega, q4⟩
      refine left.bind ?_
      rintro ⟨a', seg1⟩ ⟨ha', hi1⟩
      dsimp only at ha' hi1 ⊢
      have ha'ge : a * 2 ^ t ≤ a' * 2 ^ t := Nat.mul_le_mul_right _ (by omega)
      have ha'b : a' ≤ b / 2 * 2 ∨ b % 2 = 1 ∧ a' ≤ b - 1 := by omega
      have right : Tot (if b % 2 = 1 then do
            let seg ← insert o seg1 (b - 1) f
            return (b - 1, seg)
          else return (b, seg1) : M (Nat × Array Line))
          (fun p => p.1 = b / 2 * 2 ∧ Inv o (fun J h => A J h ∨ (h = f ∧ l ≤ J ∧ J < r ∧ (J < a' * 2 ^ t ∨ p.1 * 2 ^ t ≤ J))) p.2) := by
        by_cases hodd : b % 2 = 1
        · rw [if_pos hodd]
          have hb1 : (b - 1 + 1) * 2 ^ t = b * 2 ^ t := by
            congr 1
            omega
          have hb2 : (b - 1 + 1) * 2 ^ t = (b - 1) * 2 ^ t + 2 ^ t := by ring
          have hab2 : a * 2 ^ t ≤ (b - 1) * 2 ^ t := Nat.mul_le_mul_right _ (by omega)
          refine (insert_tot hg (hFitA a' b) (hAmA a' b) hi1 (k := b - 1) (t := t) (f := f) (by omega) (by omega) ?_).bind ?_
          · intro J hJ
            have := div_eq_iff'.mp hJ
            exact hf J (by omega) (by omega)
          · intro sg hs
            refine tot_ok.mpr ⟨by dsimp only; omega, hs.congr ?_ (hAmA _ _)⟩
            intro J h _ _
            dsimp only
            constructor
            · rintro ((h' | ⟨g1, g2, g3, g4⟩) | ⟨g1, g2⟩)
              · exact Or.inl h'
              · exact Or.inr ⟨g1, g2, g3, g4.imp id (by omega)⟩
              · have := div_eq_iff'.mp g2
                exact Or.inr ⟨g1, by omega, by omega, Or.inr (by omega)⟩
            · rintro (h' | ⟨g1, g2, g3, g4⟩)
              · exact Or.inl (Or.inl h')
              · by_cases hc : (b - 1) * 2 ^ t ≤ J ∧ J < (b - 1 + 1) * 2 ^ t
                · exact Or.inr ⟨g1, div_eq_iff'.mpr hc⟩
                · exact Or.inl (Or.inr ⟨g1, g2, g3, by omega⟩)
        · rw [if_neg hodd]
          exact tot_ok.mpr ⟨by dsimp only; omega, hi1⟩
      refine right.bind ?_
      rintro ⟨b', seg2⟩ ⟨hb', hi2⟩
      dsimp only at hb' hi2 ⊢
      have ea : a' / 2 * 2 ^ (t + 1) = a' * 2 ^ t := by
        have : a' / 2 * 2 = a' := by omega
        rw [pow_succ, mul_comm (2 ^ t), ← mul_assoc, this]
      have eb : b' / 2 * 2 ^ (t + 1) = b' * 2 ^ t := by
        have : b' / 2 * 2 = b' := by omega
        rw [pow_succ, mul_comm (2 ^ t), ← mul_assoc, this]
      have hb'b : b' * 2 ^ t ≤ b * 2 ^ t := Nat.mul_le_mul_right _ (by omega)
      refine tot_ok.mpr ⟨⟨t + 1, by dsimp only; omega, ?_, ?_, ?_⟩, by dsimp only; omega⟩
      · dsimp only
        rw [ea]
        omega
      · dsimp only
        rw [eb]
        omega
      · dsimp only
        rw [ea, eb]
        exact hi2
    · rw [if_neg hab]
      have : a = b := by omega
      refine tot_ok.mpr (q4.congr ?_ ?_)
      · intro J h _ _
        constructor
        · rintro (h' | ⟨g1, g2, g3, -⟩)
          · exact Or.inl h'
          · exact Or.inr ⟨g1, g2, g3⟩
        · rintro (h' | ⟨g1, g2, g3⟩)
          · exact Or.inl h'
          · exact Or.inr ⟨g1, g2, g3, by subst this; omega⟩
      · rintro J h (h' | ⟨rfl, g1, g2⟩)
        · exact hAm J h h'
        · omega
  · refine hi.congr ?_ ?_
    · intro J h _ _
      dsimp only
      constructor
      · exact Or.inl
      · rintro (h' | ⟨g1, g2, g3, g4⟩)
        · exact h'
        · rw [pow_zero, mul_one, mul_one] at g4
          omega
    · rintro J h (h' | ⟨g1, g2, g3, g4⟩)
      · exact hAm J h h'
      · omega

/-! ## Queries -/

theorem query_tot {o : Obj} {L : Nat} (hg : Geo o L) {A : Nat → Line → Prop} (hA : ∀ J f, A J f → Fits f (X o J)) (hi : Inv o A o.seg) {J : Nat} (h1 : o.m ≤ J) (h2 : J < 2 * o.m) :
    Tot (loop (queryStep o (X o J)) J (J, inf, true)) (fun s => s.2.1 ≤ inf ∧ (∀ h, A J h → s.2.1 ≤ val h (X o J)) ∧ (s.2.2 = false → ∃ h, A J h ∧ s.2.1 = min inf (val h (X o J))) ∧
      (s.2.2 = true → ∀ h, A J h → inf ≤ val h (X o J))) := by
  refine (Tot.loop (P := fun s : Nat × Int × Bool => ∃ t, s.1 = J / 2 ^ t ∧ s.2.1 ≤ inf ∧ (∀ u, u < t → 1 ≤ J / 2 ^ u → s.2.1 ≤ val (at' e o.seg (J / 2 ^ u)) (X o J)) ∧
      (s.2.1 = inf ∨ ∃ h, A J h ∧ s.2.1 = min inf (val h (X o J))) ∧
      (s.2.2 = true → ∀ u, u < t → 1 ≤ J / 2 ^ u → at' e o.seg (J / 2 ^ u) = e) ∧
      (s.2.2 = false → ∃ u, u < t ∧ 1 ≤ J / 2 ^ u ∧ at' e o.seg (J / 2 ^ u) ≠ e))
    (Q := fun s => s.2.1 ≤ inf ∧ (∀ h, A J h → s.2.1 ≤ val h (X o J)) ∧ (s.2.2 = false → ∃ h, A J h ∧ s.2.1 = min inf (val h (X o J))) ∧ (s.2.2 = true → ∀ h, A J h → inf ≤ val h (X o J)))
    (μ := fun s => s.1) ?_ (s := (J, inf, true)) ⟨0, by simp, le_refl _, fun u hu => absurd hu (by omega), Or.inl rfl, fun _ u hu => absurd hu (by omega), fun h => (by cases h)⟩ (le_refl _))
  rintro ⟨p, res, no⟩ ⟨t, q1, q2, q3, q4, q5, q6⟩
  dsimp only at q1 q2 q3 q4 q5 q6
  unfold queryStep
  dsimp only
  by_cases hp : p = 0
  · rw [if_pos hp]
    refine tot_ok.mpr ?_
    have hlt : ∀ u, 1 ≤ J / 2 ^ u → u < t := by
      intro u hu
      by_contra hc
      have : 2 ^ t ≤ 2 ^ u := Nat.pow_le_pow_right (by omega) (by omega)
      have := Nat.div_le_div_left this (Nat.two_pow_pos t) (a := J)
      omega
    refine ⟨q2, ?_, ?_, ?_⟩
    · intro h hh
      obtain ⟨u, c1, c2⟩ := hi.cov J h hh
      exact le_trans (q3 u (hlt u c1) c1) c2
    · intro hno
      rcases q4 with h | h
      · obtain ⟨u, u1, u2, u3⟩ := q6 hno
        have hs := (hi.sound J u h1 h2 u2).resolve_left u3
        refine ⟨_, hs, ?_⟩
        have := q3 u u1 u2
        rw [h] at this ⊢
        omega
      · exact h
    · intro hno h hh
      obtain ⟨u, c1, c2⟩ := hi.cov J h hh
      rw [q5 hno u (hlt u c1) c1, val_e] at c2
      exact c2
  · rw [if_neg hp]
    have hpJ : p ≤ J := by rw [q1]; exact Nat.div_le_self _ _
    have hsnd := hi.sound J t h1 h2 (by omega)
    rw [rd_at e (by rw [hi.size]; omega), ok_bind, q1]
    rw [eval_ok (hsnd.imp id fun h => hA J _ h), ok_bind]
    refine tot_ok.mpr ⟨⟨t + 1, ?_, ?_, ?_, ?_, ?_, ?_⟩, ?_⟩
    · dsimp only
      rw [Nat.div_div_eq_div_mul, pow_succ]
    · dsimp only
      omega
    · dsimp only
      intro u hu hu1
      by_cases hut : u = t
      · rw [hut]
        omega
      · have := q3 u (by omega) hu1
        omega
    · dsimp only
      rcases le_total res (val (at' e o.seg (J / 2 ^ t)) (X o J)) with h | h
      · rw [min_eq_left h]
        exact q4
      · rw [min_eq_right h]
        rcases hsnd with h' | h'
        · rw [h', val_e]
          exact Or.inl rfl
        · exact Or.inr ⟨_, h', by omega⟩
    · dsimp only
      intro hno u hu hu1
      rw [Bool.and_eq_true, decide_eq_true_eq] at hno
      by_cases hut : u = t
      · rw [hut]
        exact hno.2
      · exact q5 hno.1 u (by omega) hu1
    · dsimp only
      intro hno
      rw [Bool.and_eq_false_iff, decide_eq_false_iff_not] at hno
      rcases hno with hno | hno
      · obtain ⟨u, u1, u2⟩ := q6 hno
        exact ⟨u, by omega, u2⟩
      · exact ⟨t, by omega, by omega, hno⟩
    · dsimp only
      omega

end LiChao
