import Verif.Spec.MonotonicCHT
import Mathlib.Tactic.Linarith
import Mathlib.Tactic.Ring

namespace MonotonicCHT
open Cxx

/-- The value of a line. -/
def val (l : Line) (x : Int) : Int := l.1 * x + l.2

/-- `m` is strictly below the other two lines somewhere. -/
def Nec (l m r : Line) : Prop := (m.2 - r.2) * (m.1 - l.1) < (l.2 - m.2) * (r.1 - m.1)

instance (l m r : Line) : Decidable (Nec l m r) := by unfold Nec; exact inferInstance

/-- Bounded coefficients. -/
def Small (l : Line) : Prop := (-2 ^ 62 < l.1 ∧ l.1 < 2 ^ 62) ∧ (-2 ^ 62 < l.2 ∧ l.2 < 2 ^ 62)

theorem isNecessary_eq {l m r : Line} (hl : Small l) (hm : Small m) (hr : Small r) : isNecessary l m r = .ok (decide (Nec l m r)) := by
  unfold Small at *
  unfold isNecessary
  rw [i64_ok ⟨by omega, by omega⟩, ok_bind, i64_ok ⟨by omega, by omega⟩, ok_bind, i64_ok ⟨by omega, by omega⟩, ok_bind, i64_ok ⟨by omega, by omega⟩, ok_bind]
  rfl

theorem nec_right {l m r : Line} (h : Nec l m r) (h1 : l.1 < m.1) (h2 : m.1 < r.1) {x : Int} (hx : val r x ≤ val m x) : val m x < val l x := by
  unfold Nec val at *
  have e1 : (r.1 - m.1) * x ≤ m.2 - r.2 := by linarith
  have e2 : (r.1 - m.1) * x * (m.1 - l.1) ≤ (m.2 - r.2) * (m.1 - l.1) := mul_le_mul_of_nonneg_right e1 (by omega)
  have e3 : 0 < (r.1 - m.1) * ((l.2 - m.2) - (m.1 - l.1) * x) := by nlinarith
  have e4 : 0 < (l.2 - m.2) - (m.1 - l.1) * x := pos_of_mul_pos_right e3 (by omega)
  linarith

theorem nec_left {l m r : Line} (h : Nec l m r) (h1 : l.1 < m.1) (h2 : m.1 < r.1) {x : Int} (hx : val l x ≤ val m x) : val m x < val r x := by
  unfold Nec val at *
  have e1 : l.2 - m.2 ≤ (m.1 - l.1) * x := by linarith
  have e2 : (l.2 - m.2) * (r.1 - m.1) ≤ (m.1 - l.1) * x * (r.1 - m.1) := mul_le_mul_of_nonneg_right e1 (by omega)
  have e3 : 0 < (m.1 - l.1) * ((r.1 - m.1) * x - (m.2 - r.2)) := by nlinarith
  have e4 : 0 < (r.1 - m.1) * x - (m.2 - r.2) := pos_of_mul_pos_right e3 (by omega)
  linarith

theorem not_nec {l m r : Line} (h : ¬ Nec l m r) (h1 : l.1 < m.1) (h2 : m.1 < r.1) (x : Int) : val l x ≤ val m x ∨ val r x ≤ val m x := by
  by_contra hc
  rw [not_or] at hc
  apply h
  unfold Nec val at *
  have e1 : (m.1 - l.1) * x < l.2 - m.2 := by
    have := hc.1
    linarith
  have e2 : m.2 - r.2 < (r.1 - m.1) * x := by
    have := hc.2
    linarith
  have e3 : (m.2 - r.2) * (m.1 - l.1) < (r.1 - m.1) * x * (m.1 - l.1) := mul_lt_mul_of_pos_right e2 (by omega)
  have e4 : (m.1 - l.1) * x * (r.1 - m.1) < (l.2 - m.2) * (r.1 - m.1) := mul_lt_mul_of_pos_right e1 (by omega)
  linarith

/-! ## Both ends at once: `ord` compares slopes in the direction of the list -/

/-- The direction: lines with greater key come first. -/
structure Dir where
  /-- the slope, or its negative -/
  key : Line → Int
  /-- the test of three consecutive lines, the last one first -/
  N : Line → Line → Line → Prop
  same : ∀ a b, key a = key b ↔ a.1 = b.1
  step : ∀ l m r x, N l m r → key l < key m → key m < key r → val r x ≤ val m x → val m x < val l x
  drop : ∀ l m r x, ¬ N l m r → key l < key m → key m < key r → val l x ≤ val m x ∨ val r x ≤ val m x

/-- Front to back: decreasing slopes. -/
def fwd : Dir := ⟨fun l => l.1, Nec, fun _ _ => Iff.rfl, fun _ _ _ _ h h1 h2 => nec_right h h1 h2, fun _ _ _ x h h1 h2 => not_nec h h1 h2 x⟩

/-- Back to front: increasing slopes. -/
def bwd : Dir := ⟨fun l => -l.1, fun l m r => Nec r m l, fun _ _ => neg_inj, fun l m r x h h1 h2 hx => nec_left h (by simpa using h2) (by simpa using h1) hx,
  fun l m r x h h1 h2 => (not_nec h (by simpa using h2) (by simpa using h1) x).symm⟩

/-- The invariant of the deque, seen in one direction. -/
structure Hull (D : Dir) (ls : List Line) : Prop where
  sorted : ls.Pairwise fun a b => D.key b < D.key a
  nec : ∀ pre l1 l2 l3 post, ls = pre ++ l1 :: l2 :: l3 :: post → D.N l3 l2 l1

theorem Hull.tail {D : Dir} {f : Line} {ls : List Line} (h : Hull D (f :: ls)) : Hull D ls :=
  ⟨(List.pairwise_cons.mp h.sorted).2, fun pre l1 l2 l3 post e => h.nec (f :: pre) l1 l2 l3 post (by rw [e]; rfl)⟩

theorem Hull.cons {D : Dir} {new : Line} {ls : List Line} (h : Hull D ls) (hk : ∀ l ∈ ls, D.key l < D.key new) (hN : ∀ f l post, ls = f :: l :: post → D.N l f new) : Hull D (new :: ls) := by
  refine ⟨List.pairwise_cons.mpr ⟨hk, h.sorted⟩, ?_⟩
  intro pre l1 l2 l3 post e
  cases pre with
  | nil =>
    rw [List.nil_append, List.cons.injEq] at e
    rw [← e.1]
    exact hN l2 l3 post e.2
  | cons p pre =>
    rw [List.cons_append, List.cons.injEq] at e
    exact h.nec pre l1 l2 l3 post e.2

theorem Hull.reverse {ls : List Line} : Hull fwd ls ↔ Hull bwd ls.reverse := by
  constructor
  · rintro ⟨h1, h2⟩
    refine ⟨?_, ?_⟩
    · rw [List.pairwise_reverse]
      exact h1.imp fun {a b} h => by
        show -a.1 < -b.1
        exact neg_lt_neg h
    · intro pre l1 l2 l3 post e
      have : ls = post.reverse ++ l3 :: l2 :: l1 :: pre.reverse := by
        rw [← List.reverse_reverse ls, e]
        simp
      exact h2 _ _ _ _ _ this
  · rintro ⟨h1, h2⟩
    refine ⟨?_, ?_⟩
    · rw [List.pairwise_reverse] at h1
      exact h1.imp fun {a b} h => by
        have h' : -a.1 < -b.1 := h
        exact neg_lt_neg_iff.mp h'
    · intro pre l1 l2 l3 post e
      have : ls.reverse = post.reverse ++ l3 :: l2 :: l1 :: pre.reverse := by
        rw [e]
        simp
      exact h2 _ _ _ _ _ this

/-- Every line of `hs` is dominated at `x` by a line of `ls`. -/
def Dom (ls hs : List Line) (x : Int) : Prop := ∀ h ∈ hs, ∃ d ∈ ls, val d x ≤ val h x

theorem Dom.trans {a b c : List Line} {x : Int} (h1 : Dom a b x) (h2 : Dom b c x) : Dom a c x := by
  intro h hh
  obtain ⟨d, hd, h3⟩ := h2 h hh
  obtain ⟨d', hd', h4⟩ := h1 d hd
  exact ⟨d', hd', le_trans h4 h3⟩

theorem addEnd_tot (D : Dir) {nec : Line → Line → Line → M Bool} {new : Line} (hn : Small new) (hnec : ∀ l m r, Small l → Small m → Small r → ∃ b, nec l m r = .ok b ∧ (b = true ↔ D.N l m r)) :
    ∀ ls : List Line, (∀ l ∈ ls, Small l) → Hull D ls → (∀ l ∈ ls, D.key l ≤ D.key new) →
      Tot (addEnd nec new ls) (fun r => Hull D r ∧ (∀ l ∈ r, l ∈ new :: ls) ∧ ∀ x, Dom r (new :: ls) x) := by
  intro ls
  induction ls with
  | nil =>
    intro _ _ _
    unfold addEnd
    refine tot_ok.mpr ⟨⟨List.pairwise_singleton _ _, ?_⟩, fun l h => h, fun x h hh => ⟨h, hh, le_refl _⟩⟩
    intro pre l1 l2 l3 post e
    have := congrArg List.length e
    simp at this
    omega
  | cons f rest ih =>
    intro hs hh hk
    have ih' := ih (fun l hl => hs l (List.mem_cons_of_mem _ hl)) hh.tail (fun l hl => hk l (List.mem_cons_of_mem _ hl))
    -- dropping the first line
    have dropf : (∀ x, val new x ≤ val f x ∨ ∃ l ∈ rest, val l x ≤ val f x) →
        Tot (addEnd nec new rest) (fun r => Hull D r ∧ (∀ l ∈ r, l ∈ new :: f :: rest) ∧ ∀ x, Dom r (new :: f :: rest) x) := by
      intro hd
      refine ih'.mono ?_
      rintro r ⟨r1, r2, r3⟩
      refine ⟨r1, ?_, ?_⟩
      · intro l hl
        rcases List.mem_cons.mp (r2 l hl) with h | h
        · rw [h]; exact List.mem_cons_self
        · exact List.mem_cons_of_mem _ (List.mem_cons_of_mem _ h)
      · intro x
        refine (r3 x).trans ?_
        intro h hh'
        rcases List.mem_cons.mp hh' with h' | h'
        · exact ⟨new, List.mem_cons_self, by rw [h']⟩
        · rcases List.mem_cons.mp h' with h' | h'
          · rw [h']
            rcases hd x with hd | ⟨l, hl, hd⟩
            · exact ⟨new, List.mem_cons_self, hd⟩
            · exact ⟨l, List.mem_cons_of_mem _ hl, hd⟩
          · exact ⟨h, List.mem_cons_of_mem _ h', le_refl _⟩
    -- adding in front
    have addf : f.1 ≠ new.1 → (∀ l post, rest = l :: post → D.N l f new) →
        Hull D (new :: f :: rest) ∧ (∀ l ∈ new :: f :: rest, l ∈ new :: f :: rest) ∧ ∀ x, Dom (new :: f :: rest) (new :: f :: rest) x := by
      intro hne hN
      have hfn : D.key f < D.key new := by
        have h1 := hk f List.mem_cons_self
        have h2 : D.key f ≠ D.key new := fun h => hne ((D.same _ _).mp h)
        omega
      refine ⟨hh.cons ?_ ?_, fun l h => h, fun x h hh => ⟨h, hh, le_refl _⟩⟩
      · intro l hl
        rcases List.mem_cons.mp hl with h | h
        · rw [h]; exact hfn
        · have := (List.pairwise_cons.mp hh.sorted).1 l h
          omega
      · intro f' l post e
        rw [List.cons.injEq] at e
        rw [← e.1]
        exact hN l post e.2
    by_cases hfe : f.1 = new.1
    · by_cases hge : new.2 ≥ f.2
      · have : addEnd nec new (f :: rest) = .ok (f :: rest) := by
          rw [addEnd.eq_def]
          dsimp only
          rw [if_pos hfe, if_pos hge]
          rfl
        rw [this]
        refine tot_ok.mpr ⟨hh, fun l hl => List.mem_cons_of_mem _ hl, ?_⟩
        intro x h hh'
        rcases List.mem_cons.mp hh' with h' | h'
        · refine ⟨f, List.mem_cons_self, ?_⟩
          rw [h']
          unfold val
          rw [hfe]
          omega
        · exact ⟨h, h', le_refl _⟩
      · have : addEnd nec new (f :: rest) = addEnd nec new rest := by
          rw [addEnd.eq_def]
          dsimp only
          rw [if_pos hfe, if_neg hge]
        rw [this]
        refine dropf fun x => Or.inl ?_
        unfold val
        rw [hfe]
        omega
    · cases rest with
      | nil =>
        have : addEnd nec new [f] = .ok [new, f] := by
          rw [addEnd, if_neg hfe]
          rfl
        rw [this]
        exact tot_ok.mpr (addf hfe fun l post e => (by cases e))
      | cons l rest' =>
        obtain ⟨b, hb, hiff⟩ := hnec l f new (hs l (by simp)) (hs f (by simp)) hn
        have : addEnd nec new (f :: l :: rest') = if b = true then .ok (new :: f :: l :: rest') else addEnd nec new (l :: rest') := by
          rw [addEnd, if_neg hfe, hb, ok_bind]
          rfl
        rw [this]
        by_cases hbt : b = true
        · rw [if_pos hbt]
          refine tot_ok.mpr (addf hfe ?_)
          intro l' post e
          rw [List.cons.injEq] at e
          rw [← e.1]
          exact hiff.mp hbt
        · rw [if_neg hbt]
          refine dropf fun x => ?_
          have hlf : D.key l < D.key f := (List.pairwise_cons.mp hh.sorted).1 l List.mem_cons_self
          have hfn : D.key f < D.key new := by
            have h1 := hk f List.mem_cons_self
            have h2 : D.key f ≠ D.key new := fun h => hfe ((D.same _ _).mp h)
            omega
          rcases D.drop l f new x (fun h => hbt (hiff.mpr h)) hlf hfn with h | h
          · exact Or.inr ⟨l, List.mem_cons_self, h⟩
          · exact Or.inl h

theorem addLeft_tot {ls : List Line} {new : Line} (hn : Small new) (hs : ∀ l ∈ ls, Small l) (hh : Hull fwd ls) (hk : ∀ l ∈ ls, l.1 ≤ new.1) :
    Tot (addLeft ls new) (fun r => Hull fwd r ∧ (∀ l ∈ r, l ∈ new :: ls) ∧ ∀ x, Dom r (new :: ls) x) := by
  unfold addLeft
  refine addEnd_tot fwd hn ?_ ls hs hh hk
  intro l m r h1 h2 h3
  exact ⟨_, isNecessary_eq h1 h2 h3, decide_eq_true_iff⟩

theorem addRight_tot {ls : List Line} {new : Line} (hn : Small new) (hs : ∀ l ∈ ls, Small l) (hh : Hull fwd ls) (hk : ∀ l ∈ ls, new.1 ≤ l.1) :
    Tot (addRight ls new) (fun r => Hull fwd r ∧ (∀ l ∈ r, l ∈ new :: ls) ∧ ∀ x, Dom r (new :: ls) x) := by
  unfold addRight
  refine (addEnd_tot bwd hn ?_ ls.reverse (fun l hl => hs l (List.mem_reverse.mp hl)) (Hull.reverse.mp hh) ?_).bind ?_
  · intro l m r h1 h2 h3
    exact ⟨_, isNecessary_eq h3 h2 h1, decide_eq_true_iff⟩
  · intro l hl
    exact neg_le_neg (hk l (List.mem_reverse.mp hl))
  · rintro r ⟨r1, r2, r3⟩
    refine tot_ok.mpr ⟨Hull.reverse.mpr (by rw [List.reverse_reverse]; exact r1), ?_, ?_⟩
    · intro l hl
      have := r2 l (List.mem_reverse.mp hl)
      simpa using this
    · intro x h hh'
      obtain ⟨d, hd, hle⟩ := r3 x h (by simpa using hh')
      exact ⟨d, List.mem_reverse.mpr hd, hle⟩

/-! ## Queries -/

/-- The values can be computed. -/
def FitsAt (l : Line) (x : Int) : Prop := (-2 ^ 63 < l.1 * x ∧ l.1 * x < 2 ^ 63) ∧ (-2 ^ 63 < val l x ∧ val l x < 2 ^ 63)

theorem evalLine_eq {l : Line} {x : Int} (h : FitsAt l x) : evalLine x l = .ok (val l x) := by
  unfold FitsAt val at *
  unfold evalLine
  rw [i64_ok ⟨by omega, by omega⟩, ok_bind, i64_ok ⟨by omega, by omega⟩]

theorem rising (D : Dir) {x : Int} : ∀ (rest : List Line) (l1 l2 : Line), Hull D (l1 :: l2 :: rest) → val l1 x ≤ val l2 x → ∀ d ∈ rest, val l2 x < val d x := by
  intro rest
  induction rest with
  | nil =>
    intro l1 l2 _ _ d hd
    cases hd
  | cons l3 rest ih =>
    intro l1 l2 hh hle d hd
    have hs := hh.sorted
    have h12 := (List.pairwise_cons.mp hs).1 l2 List.mem_cons_self
    have h23 := (List.pairwise_cons.mp (List.pairwise_cons.mp hs).2).1 l3 List.mem_cons_self
    have hst := D.step l3 l2 l1 x (hh.nec [] l1 l2 l3 rest rfl) h23 h12 hle
    rcases List.mem_cons.mp hd with h | h
    · rw [h]; exact hst
    · have := ih l2 l3 hh.tail (le_of_lt hst) d h
      omega

theorem walk_tot (D : Dir) {x : Int} : ∀ ls : List Line, ls ≠ [] → (∀ l ∈ ls, FitsAt l x) → Hull D ls →
    Tot (walk x ls) (fun r => r.2 ≠ [] ∧ Hull D r.2 ∧ (∀ l ∈ r.2, l ∈ ls) ∧ (∃ l ∈ ls, r.1 = val l x) ∧ (∀ l ∈ ls, r.1 ≤ val l x) ∧
      ∀ y, (∀ a b : Line, D.key b < D.key a → val b x ≤ val a x → val b y ≤ val a y) → Dom r.2 ls y) := by
  intro ls
  induction ls with
  | nil =>
    intro h _ _
    exact absurd rfl h
  | cons l rest ih =>
    intro _ hf hh
    cases rest with
    | nil =>
      unfold walk
      rw [evalLine_eq (hf l List.mem_cons_self), ok_bind]
      refine tot_ok.mpr ⟨by simp, hh, fun l h => h, ⟨l, by simp, rfl⟩, ?_, fun y _ h hh => ⟨h, hh, le_refl _⟩⟩
      intro l' hl'
      rw [List.mem_singleton.mp hl']
    | cons l2 rest =>
      unfold walk
      rw [evalLine_eq (hf l (by simp)), ok_bind, evalLine_eq (hf l2 (by simp)), ok_bind]
      by_cases hlt : val l x < val l2 x
      · rw [if_pos hlt]
        refine tot_ok.mpr ⟨by simp, hh, fun l h => h, ⟨l, by simp, rfl⟩, ?_, fun y _ h hh => ⟨h, hh, le_refl _⟩⟩
        intro d hd
        rcases List.mem_cons.mp hd with h | h
        · rw [h]
        · rcases List.mem_cons.mp h with h | h
          · rw [h]; exact le_of_lt hlt
          · have := rising D rest l l2 hh (le_of_lt hlt) d h
            dsimp only
            omega
      · rw [if_neg hlt]
        refine (ih (by simp) (fun d hd => hf d (List.mem_cons_of_mem _ hd)) hh.tail).mono ?_
        rintro r ⟨r0, r1, r2, ⟨d, d1, d2⟩, r4, r5⟩
        refine ⟨r0, r1, fun l h => List.mem_cons_of_mem _ (r2 l h), ⟨d, List.mem_cons_of_mem _ d1, d2⟩, ?_, ?_⟩
        · intro d' hd'
          rcases List.mem_cons.mp hd' with h | h
          · rw [h]
            have := r4 l2 List.mem_cons_self
            omega
          · exact r4 d' h
        · intro y hy
          refine (r5 y hy).trans ?_
          intro h hh'
          rcases List.mem_cons.mp hh' with h' | h'
          · rw [h']
            exact ⟨l2, List.mem_cons_self, hy l l2 ((List.pairwise_cons.mp hh.sorted).1 l2 List.mem_cons_self) (by omega)⟩
          · exact ⟨h, h', le_refl _⟩

/-! ## The ternary search -/

section Ternary
variable {f : Nat → Int} {N : Nat}

theorem strict_after (hU : ∀ i, i + 2 < N → f i ≤ f (i + 1) → f (i + 1) < f (i + 2)) {k : Nat} (hk : f k ≤ f (k + 1)) : ∀ j, k + 1 ≤ j → j + 1 < N → f j < f (j + 1) := by
  intro j hj
  induction j, hj using Nat.le_induction with
  | base => intro h; exact hU k h hk
  | succ j hj ih =>
    intro h
    exact hU j h (le_of_lt (ih (by omega)))

theorem mono_after (hU : ∀ i, i + 2 < N → f i ≤ f (i + 1) → f (i + 1) < f (i + 2)) {k : Nat} (hk : f k ≤ f (k + 1)) {a b : Nat} (ha : k + 1 ≤ a) (hab : a ≤ b) (hb : b < N) : f a ≤ f b := by
  induction b, hab using Nat.le_induction with
  | base => exact le_refl _
  | succ b hb' ih => exact le_trans (ih (by omega)) (le_of_lt (strict_after hU hk b (by omega) hb))

theorem strict_lt_after (hU : ∀ i, i + 2 < N → f i ≤ f (i + 1) → f (i + 1) < f (i + 2)) {k : Nat} (hk : f k ≤ f (k + 1)) {a b : Nat} (ha : k + 1 ≤ a) (hab : a < b) (hb : b < N) : f a < f b :=
  lt_of_lt_of_le (strict_after hU hk a ha (by omega)) (mono_after hU hk (by omega) hab hb)

theorem exists_step {a b : Nat} (hab : a < b) (h : f a ≤ f b) : ∃ k, a ≤ k ∧ k < b ∧ f k ≤ f (k + 1) := by
  by_contra hc
  have hdec : ∀ k, a ≤ k → k < b → f (k + 1) < f k := by
    intro k h1 h2
    by_contra h3
    exact hc ⟨k, h1, h2, by omega⟩
  have : ∀ j, a + 1 ≤ j → j ≤ b → f j < f a := by
    intro j hj
    induction j, hj using Nat.le_induction with
    | base => intro h; exact hdec a (le_refl _) (by omega)
    | succ j hj ih =>
      intro h
      have := hdec j (by omega) (by omega)
      have := ih (by omega)
      omega
  have := this b (by omega) (le_refl _)
  omega

end Ternary

theorem tern_tot {ls : List Line} {x : Int} (hne : ls ≠ []) (hf : ∀ l ∈ ls, FitsAt l x) (hh : Hull fwd ls) :
    Tot (loop (ternStep ls x) (ls.length + 1) (-1, (ls.length : Int))) (fun s => s.2 - s.1 = 2 ∧ ∃ v, evalAt ls x (s.1 + 1) = .ok v ∧ (∃ l ∈ ls, v = val l x) ∧ ∀ l ∈ ls, v ≤ val l x) := by
  have hlen : 0 < ls.length := List.length_pos_iff.mpr hne
  obtain ⟨f, hfdef⟩ : ∃ f : Nat → Int, f = fun i => val (ls[i]?.getD (0, 0)) x := ⟨_, rfl⟩
  have hfi : ∀ i (h : i < ls.length), f i = val ls[i] x := by
    intro i h
    rw [hfdef]
    dsimp only
    rw [List.getElem?_eq_getElem h]
    rfl
  have hev : ∀ i : Nat, i < ls.length → evalAt ls x i = .ok (f i) := by
    intro i h
    unfold evalAt
    rw [if_neg (by omega), Int.toNat_natCast, List.getElem?_eq_getElem h]
    dsimp only
    rw [evalLine_eq (hf _ (List.getElem_mem h)), hfi i h]
  have hU : ∀ i, i + 2 < ls.length → f i ≤ f (i + 1) → f (i + 1) < f (i + 2) := by
    intro i h
    rw [hfi i (by omega), hfi (i + 1) (by omega), hfi (i + 2) h]
    have e : ls = ls.take i ++ ls[i] :: ls[i + 1] :: ls[i + 2] :: ls.drop (i + 3) := by
      conv_lhs => rw [← List.take_append_drop i ls, List.drop_eq_getElem_cons (by omega), List.drop_eq_getElem_cons (by omega), List.drop_eq_getElem_cons (by omega)]
    have s1 := List.pairwise_iff_getElem.mp hh.sorted i (i + 1) (by omega) (by omega) (by omega)
    have s2 := List.pairwise_iff_getElem.mp hh.sorted (i + 1) (i + 2) (by omega) (by omega) (by omega)
    exact fwd.step _ _ _ x (hh.nec _ _ _ _ _ e) s2 s1
  -- a least value exists
  obtain ⟨i0, hi0, hmin⟩ : ∃ i, i < ls.length ∧ ∀ j, j < ls.length → f i ≤ f j := by
    have : ∀ n, 0 < n → ∃ i, i < n ∧ ∀ j, j < n → f i ≤ f j := by
      intro n hn
      induction n, hn using Nat.le_induction with
      | base => exact ⟨0, by omega, fun j hj => by rw [show j = 0 by omega]⟩
      | succ n hn ih =>
        obtain ⟨i, hi, h⟩ := ih
        by_cases hc : f i ≤ f n
        · exact ⟨i, by omega, fun j hj => (Nat.lt_or_eq_of_le (Nat.lt_succ_iff.mp hj)).elim (fun h' => h j h') (fun h' => by rw [h']; exact hc)⟩
        · exact ⟨n, by omega, fun j hj => (Nat.lt_or_eq_of_le (Nat.lt_succ_iff.mp hj)).elim (fun h' => by have := h j h'; omega) (fun h' => by rw [h'])⟩
    exact this _ hlen
  refine Tot.loop (P := fun s : Int × Int => -1 ≤ s.1 ∧ s.1 + 2 ≤ s.2 ∧ s.2 ≤ ls.length ∧ ∃ i : Nat, s.1 < i ∧ (i : Int) < s.2 ∧ ∀ j, j < ls.length → f i ≤ f j)
    (Q := fun s => s.2 - s.1 = 2 ∧ ∃ v, evalAt ls x (s.1 + 1) = .ok v ∧ (∃ l ∈ ls, v = val l x) ∧ ∀ l ∈ ls, v ≤ val l x) (μ := fun s => (s.2 - s.1).toNat) ?_ (s := (-1, (ls.length : Int)))
    ⟨le_refl _, by dsimp only; omega, le_refl _, i0, by dsimp only; omega, by dsimp only; omega, hmin⟩ (by dsimp only; omega)
  rintro ⟨l, r⟩ ⟨p1, p2, p3, i, p4, p5, p6⟩
  dsimp only at p1 p2 p3 p4 p5
  unfold ternStep
  dsimp only
  by_cases h3 : r - l ≥ 3
  · rw [if_pos h3, Int.tdiv_eq_ediv_of_nonneg (by omega)]
    obtain ⟨ml, hml⟩ : ∃ ml : Nat, l + (r - l) / 3 = ml := ⟨(l + (r - l) / 3).toNat, by omega⟩
    obtain ⟨mr, hmr⟩ : ∃ mr : Nat, r - (r - l) / 3 = mr := ⟨(r - (r - l) / 3).toNat, by omega⟩
    rw [hml, hmr, hev ml (by omega), ok_bind, hev mr (by omega), ok_bind]
    by_cases hlt : f ml < f mr
    · rw [if_pos hlt]
      refine tot_ok.mpr ⟨⟨p1, by dsimp only; omega, by dsimp only; omega, i, p4, ?_, p6⟩, by dsimp only; omega⟩
      dsimp only
      by_contra hc
      obtain ⟨k, k1, k2, k3⟩ := exists_step (f := f) (a := ml) (b := mr) (by omega) (le_of_lt hlt)
      have h1 := mono_after hU k3 (a := mr) (b := i) (by omega) (by omega) (by omega)
      have h2 := p6 ml (by omega)
      omega
    · rw [if_neg hlt]
      have hgo : ∃ i : Nat, (ml : Int) < i ∧ (i : Int) < r ∧ ∀ j, j < ls.length → f i ≤ f j := by
        by_cases him : ml < i
        · exact ⟨i, by omega, p5, p6⟩
        · by_cases hie : i = ml
          · refine ⟨mr, by omega, by omega, fun j hj => ?_⟩
            have := p6 j hj
            rw [hie] at this
            omega
          · exfalso
            obtain ⟨k, k1, k2, k3⟩ := exists_step (f := f) (a := i) (b := ml) (by omega) (p6 ml (by omega))
            exact hlt (strict_lt_after hU k3 (by omega) (by omega) (by omega))
      exact tot_ok.mpr ⟨⟨by dsimp only; omega, by dsimp only; omega, p3, hgo⟩, by dsimp only; omega⟩
  · rw [if_neg h3]
    have hil : l + 1 = (i : Int) := by omega
    refine tot_ok.mpr ⟨by omega, f i, ?_, ⟨ls[i], List.getElem_mem (by omega), hfi i (by omega)⟩, ?_⟩
    · rw [hil]
      exact hev i (by omega)
    · intro d hd
      obtain ⟨j, hj, rfl⟩ := List.getElem_of_mem hd
      rw [← hfi j hj]
      exact p6 j hj

/-! ## Histories -/

/-- The stored line. -/
def sgn (isMin : Bool) (l : Line) : Line := if isMin then l else (-l.1, -l.2)

/-- Points at which the deque still has to be right. -/
def Alive (tag : Tag) (prev x : Int) : Prop := (tag = .inc → prev ≤ x) ∧ (tag = .dec → x ≤ prev)

/-- Simulation. -/
structure Sim (isMin : Bool) (tag : Tag) (o : Obj) (t : State) : Prop where
  small : ∀ l ∈ t.lines, Small l
  hull : Hull fwd o.lines
  sub : ∀ l ∈ o.lines, ∃ h ∈ t.lines, l = sgn isMin h
  ne : t.lines ≠ [] → o.lines ≠ []
  dom : ∀ x, Alive tag o.prev x → Dom o.lines (t.lines.map (sgn isMin)) x
  prevInc : tag = .inc → o.prev = -2 ^ 63 ∨ o.prev ∈ t.asked
  prevDec : tag = .dec → o.prev = 2 ^ 63 - 1 ∨ o.prev ∈ t.asked
  askInc : tag = .inc → ∀ y ∈ t.asked, y ≤ o.prev
  askDec : tag = .dec → ∀ y ∈ t.asked, o.prev ≤ y
  minS : t.lines = [] ∧ o.minSlope = 2 ^ 63 - 1 ∨ ∃ l ∈ t.lines, o.minSlope = (sgn isMin l).1
  maxS : t.lines = [] ∧ o.maxSlope = -2 ^ 63 ∨ ∃ l ∈ t.lines, o.maxSlope = (sgn isMin l).1
  minB : ∀ l ∈ t.lines, o.minSlope ≤ (sgn isMin l).1
  maxB : ∀ l ∈ t.lines, (sgn isMin l).1 ≤ o.maxSlope

theorem sgn_small {isMin : Bool} {l : Line} (h : Small l) : Small (sgn isMin l) := by
  unfold Small sgn at *
  cases isMin
  · simp only [Bool.false_eq_true, if_false]
    omega
  · simp only [if_true]
    exact h

theorem sgn_val (isMin : Bool) (l : Line) (x : Int) : val (sgn isMin l) x = if isMin then val l x else -val l x := by
  unfold sgn val
  cases isMin
  · simp only [Bool.false_eq_true, if_false]
    ring
  · simp only [if_true]

theorem sgn_fits {isMin : Bool} {l : Line} {x : Int} (h : FitsAt l x) : FitsAt (sgn isMin l) x := by
  obtain ⟨h1, h2⟩ := h
  refine ⟨?_, ?_⟩
  · unfold sgn
    cases isMin
    · simp only [Bool.false_eq_true, if_false, neg_mul]
      omega
    · simp only [if_true]
      exact h1
  · rw [sgn_val]
    split_ifs
    · exact h2
    · omega

theorem init_sim (isMin : Bool) (tag : Tag) : Sim isMin tag (init tag) ⟨[], []⟩ := by
  refine ⟨?_, ⟨List.Pairwise.nil, ?_⟩, ?_, fun h => absurd rfl h, ?_, ?_, ?_, fun _ y hy => (by cases hy), fun _ y hy => (by cases hy), Or.inl ⟨rfl, rfl⟩, Or.inl ⟨rfl, rfl⟩, ?_, ?_⟩
  · intro l hl; cases hl
  · intro pre l1 l2 l3 post e
    have := congrArg List.length e
    simp [init] at this
  · intro l hl; cases hl
  · intro x _ h hh; cases hh
  · rintro rfl
    left
    unfold init
    rw [if_neg (by decide)]
  · rintro rfl
    left
    unfold init
    rw [if_pos rfl]
  · intro l hl; cases hl
  · intro l hl; cases hl

theorem add_sim {isMin : Bool} {tag : Tag} {o : Obj} {t : State} (h : Sim isMin tag o t) {a b : Int} (hp : Pre tag t (.addLine a b)) :
    Tot (o.addLine isMin a b) (fun o' => Sim isMin tag o' (next t (.addLine a b))) := by
  obtain ⟨ha, hb, hord⟩ := hp
  have hsm : Small (a, b) := ⟨ha, hb⟩
  have hsn := sgn_small (isMin := isMin) hsm
  obtain ⟨n, hn⟩ : ∃ n, n = sgn isMin (a, b) := ⟨_, rfl⟩
  rw [← hn] at hsn
  have e1 : (if isMin = true then return a else i64 (-a) : M Int) = .ok n.1 := by
    rw [hn]
    unfold sgn
    cases isMin
    · rw [if_neg (by decide), if_neg (by decide), i64_ok ⟨by omega, by omega⟩]
    · rfl
  have e2 : (if isMin = true then return b else i64 (-b) : M Int) = .ok n.2 := by
    rw [hn]
    unfold sgn
    cases isMin
    · rw [if_neg (by decide), if_neg (by decide), i64_ok ⟨by omega, by omega⟩]
    · rfl
  unfold Obj.addLine
  rw [e1, ok_bind, e2, ok_bind]
  have hos : ∀ l ∈ o.lines, Small l := by
    intro l hl
    obtain ⟨h', h1, rfl⟩ := h.sub l hl
    exact sgn_small (h.small h' h1)
  -- what remains to be shown for a new deque
  have fin : ∀ r mn mx, Hull fwd r → (∀ l ∈ r, l ∈ n :: o.lines) → (∀ x, Dom r (n :: o.lines) x) → (mn = n.1 ∨ mn = o.minSlope ∧ t.lines ≠ []) → (mx = n.1 ∨ mx = o.maxSlope ∧ t.lines ≠ []) →
      mn ≤ n.1 → n.1 ≤ mx → (∀ l ∈ t.lines, mn ≤ (sgn isMin l).1) → (∀ l ∈ t.lines, (sgn isMin l).1 ≤ mx) →
      Sim isMin tag { o with lines := r, minSlope := mn, maxSlope := mx } (next t (.addLine a b)) := by
    intro r mn mx r1 r2 r3 m1 m2 m3 m4 m5 m6
    unfold next
    have mem : ∀ l, l ∈ t.lines ++ [(a, b)] ↔ l ∈ t.lines ∨ l = (a, b) := by
      intro l
      rw [List.mem_append, List.mem_singleton]
    refine ⟨?_, r1, ?_, ?_, ?_, h.prevInc, h.prevDec, h.askInc, h.askDec, ?_, ?_, ?_, ?_⟩
    · intro l hl
      rcases (mem l).mp hl with hl | rfl
      · exact h.small l hl
      · exact hsm
    · intro l hl
      rcases List.mem_cons.mp (r2 l hl) with rfl | hl
      · exact ⟨(a, b), (mem _).mpr (Or.inr rfl), hn⟩
      · obtain ⟨h', h1, h2⟩ := h.sub l hl
        exact ⟨h', (mem _).mpr (Or.inl h1), h2⟩
    · intro _ he
      obtain ⟨d, hd, -⟩ := r3 0 n List.mem_cons_self
      dsimp only at he
      rw [he] at hd
      cases hd
    · intro x hx
      refine (r3 x).trans ?_
      intro l hl
      obtain ⟨h', h1, rfl⟩ := List.mem_map.mp hl
      rcases (mem h').mp h1 with h1 | rfl
      · obtain ⟨d, hd, hle⟩ := h.dom x hx (sgn isMin h') (List.mem_map.mpr ⟨h', h1, rfl⟩)
        exact ⟨d, List.mem_cons_of_mem _ hd, hle⟩
      · exact ⟨n, List.mem_cons_self, by rw [hn]⟩
    · refine Or.inr ?_
      rcases m1 with h' | ⟨h', hne⟩
      · exact ⟨(a, b), (mem _).mpr (Or.inr rfl), by rw [← hn]; exact h'⟩
      · rcases h.minS with ⟨h1, -⟩ | ⟨l, hl, h1⟩
        · exact absurd h1 hne
        · exact ⟨l, (mem _).mpr (Or.inl hl), by rw [h', h1]⟩
    · refine Or.inr ?_
      rcases m2 with h' | ⟨h', hne⟩
      · exact ⟨(a, b), (mem _).mpr (Or.inr rfl), by rw [← hn]; exact h'⟩
      · rcases h.maxS with ⟨h1, -⟩ | ⟨l, hl, h1⟩
        · exact absurd h1 hne
        · exact ⟨l, (mem _).mpr (Or.inl hl), by rw [h', h1]⟩
    · intro l hl
      rcases (mem l).mp hl with hl | rfl
      · exact m5 l hl
      · rw [← hn]; exact m3
    · intro l hl
      rcases (mem l).mp hl with hl | rfl
      · exact m6 l hl
      · rw [← hn]; exact m4
  by_cases h1 : n.1 ≤ o.minSlope
  · rw [if_pos h1]
    have hk : ∀ l ∈ o.lines, n.1 ≤ l.1 := by
      intro l hl
      obtain ⟨h', h2, rfl⟩ := h.sub l hl
      exact le_trans h1 (h.minB h' h2)
    refine (addRight_tot hsn hos h.hull hk).bind ?_
    rintro r ⟨r1, r2, r3⟩
    refine tot_ok.mpr (fin r n.1 (max o.maxSlope n.1) r1 r2 r3 (Or.inl rfl) ?_ (le_refl _) (le_max_right _ _) (fun l hl => le_trans h1 (h.minB l hl)) (fun l hl => le_trans (h.maxB l hl) (le_max_left _ _)))
    by_cases hne : t.lines = []
    · refine Or.inl (max_eq_right ?_)
      rcases h.maxS with ⟨-, h2⟩ | ⟨l, hl, -⟩
      · have := hsn.1.1
        omega
      · rw [hne] at hl
        cases hl
    · rcases le_total o.maxSlope n.1 with hc | hc
      · exact Or.inl (max_eq_right hc)
      · exact Or.inr ⟨max_eq_left hc, hne⟩
  · rw [if_neg h1]
    have hne : t.lines ≠ [] := by
      intro he
      rcases h.minS with ⟨-, h2⟩ | ⟨l, hl, -⟩
      · have := hsn.1.2
        omega
      · rw [he] at hl
        cases hl
    have h2 : n.1 ≥ o.maxSlope := by
      obtain ⟨l1, hl1, q1⟩ := h.minS.resolve_left (fun hh => hne hh.1)
      obtain ⟨l2, hl2, q2⟩ := h.maxS.resolve_left (fun hh => hne hh.1)
      rw [q1] at h1
      rw [q2]
      rw [hn] at h1 ⊢
      unfold sgn at h1 ⊢
      cases isMin
      · simp only [Bool.false_eq_true, if_false] at h1 ⊢
        rcases hord with hord | hord
        · have := hord l2 hl2
          omega
        · have := hord l1 hl1
          omega
      · simp only [if_true] at h1 ⊢
        rcases hord with hord | hord
        · have := hord l1 hl1
          omega
        · exact hord l2 hl2
    rw [if_pos h2]
    have hk : ∀ l ∈ o.lines, l.1 ≤ n.1 := by
      intro l hl
      obtain ⟨h', h3, rfl⟩ := h.sub l hl
      exact le_trans (h.maxB h' h3) h2
    refine (addLeft_tot hsn hos h.hull hk).bind ?_
    rintro r ⟨r1, r2, r3⟩
    have hmin : min o.minSlope n.1 = o.minSlope := min_eq_left (by omega)
    rw [hmin]
    exact tot_ok.mpr (fin r o.minSlope n.1 r1 r2 r3 (Or.inr ⟨rfl, hne⟩) (Or.inl rfl) (by omega) (le_refl _) h.minB (fun l hl => le_trans (h.maxB l hl) h2))

theorem raw_sim {isMin : Bool} {tag : Tag} {o : Obj} {t : State} (h : Sim isMin tag o t) {x : Int} (hp : Pre tag t (.query x)) :
    Tot (o.raw tag x) (fun r => Sim isMin tag r.2 (next t (.query x)) ∧ (∃ l ∈ t.lines, r.1 = val (sgn isMin l) x) ∧ ∀ l ∈ t.lines, r.1 ≤ val (sgn isMin l) x) := by
  obtain ⟨hne, hx, hinc, hdec, hfit⟩ := hp
  have hone := h.ne hne
  have hof : ∀ l ∈ o.lines, FitsAt l x := by
    intro l hl
    obtain ⟨h', h1, rfl⟩ := h.sub l hl
    exact sgn_fits (hfit h' h1)
  have halive : Alive tag o.prev x := by
    refine ⟨?_, ?_⟩
    · intro ht
      rcases h.prevInc ht with h1 | h1
      · omega
      · exact hinc ht _ h1
    · intro ht
      rcases h.prevDec ht with h1 | h1
      · omega
      · exact hdec ht _ h1
  have hdomx := h.dom x halive
  have hall : ∀ v, (∃ l ∈ o.lines, v = val l x) → (∀ l ∈ o.lines, v ≤ val l x) → (∃ l ∈ t.lines, v = val (sgn isMin l) x) ∧ ∀ l ∈ t.lines, v ≤ val (sgn isMin l) x := by
    rintro v ⟨l, hl, rfl⟩ hle
    refine ⟨?_, ?_⟩
    · obtain ⟨h', h1, rfl⟩ := h.sub l hl
      exact ⟨h', h1, rfl⟩
    · intro l' hl'
      obtain ⟨d, hd, hd'⟩ := hdomx (sgn isMin l') (List.mem_map.mpr ⟨l', hl', rfl⟩)
      exact le_trans (hle d hd) hd'
  cases tag with
  | inc =>
    unfold Obj.raw
    dsimp only
    rw [decide_eq_true (halive.1 rfl), check_true, ok_bind]
    refine (walk_tot fwd o.lines hone hof h.hull).bind ?_
    rintro ⟨v, r⟩ ⟨r0, r1, r2, r3, r4, r5⟩
    dsimp only at r0 r1 r2 r3 r4 r5
    refine tot_ok.mpr ⟨?_, hall v r3 r4⟩
    dsimp only
    refine ⟨h.small, r1, fun l hl => h.sub l (r2 l hl), fun _ => r0, ?_, fun _ => Or.inr (by simp [next]), fun ht => (by cases ht), ?_, fun ht => (by cases ht), h.minS, h.maxS, h.minB, h.maxB⟩
    intro y hy
    have hxy := hy.1 rfl
    dsimp only at hxy
    have hya : Alive .inc o.prev y := ⟨fun _ => le_trans (halive.1 rfl) hxy, fun ht => (by cases ht)⟩
    refine (r5 y ?_).trans (h.dom y hya)
    intro a b hab hle
    have hab' : b.1 < a.1 := hab
    unfold val at *
    have : 0 ≤ (a.1 - b.1) * (y - x) := mul_nonneg (by omega) (by omega)
    linarith
    intro _ y hy
    rcases List.mem_append.mp hy with hy | hy
    · exact hinc rfl y hy
    · rw [List.mem_singleton.mp hy]
  | dec =>
    unfold Obj.raw
    dsimp only
    rw [decide_eq_true (halive.2 rfl), check_true, ok_bind]
    refine (walk_tot bwd o.lines.reverse (by simpa using hone) (fun l hl => hof l (List.mem_reverse.mp hl)) (Hull.reverse.mp h.hull)).bind ?_
    rintro ⟨v, r⟩ ⟨r0, r1, r2, ⟨l, l1, l2⟩, r4, r5⟩
    dsimp only at r0 r1 r2 l2 r4 r5
    refine tot_ok.mpr ⟨?_, hall v ⟨l, List.mem_reverse.mp l1, l2⟩ (fun l hl => r4 l (List.mem_reverse.mpr hl))⟩
    dsimp only
    refine ⟨h.small, Hull.reverse.mpr (by rw [List.reverse_reverse]; exact r1), fun l hl => h.sub l (List.mem_reverse.mp (r2 l (List.mem_reverse.mp hl))), fun _ => by simpa using r0, ?_, fun ht => (by cases ht),
      fun _ => Or.inr (by simp [next]), fun ht => (by cases ht), ?_, h.minS, h.maxS, h.minB, h.maxB⟩
    intro y hy
    have hxy := hy.2 rfl
    dsimp only at hxy
    have hya : Alive .dec o.prev y := ⟨fun ht => (by cases ht), fun _ => le_trans hxy (halive.2 rfl)⟩
    have hd : Dom r.reverse o.lines y := by
      intro d hd
      obtain ⟨d', h1, h2⟩ := r5 y (by
        intro a b hab hle
        have hab' : -b.1 < -a.1 := hab
        unfold val at *
        have : 0 ≤ (b.1 - a.1) * (x - y) := mul_nonneg (by omega) (by omega)
        linarith) d (List.mem_reverse.mpr hd)
      exact ⟨d', List.mem_reverse.mpr h1, h2⟩
    exact hd.trans (h.dom y hya)
    intro _ y hy
    rcases List.mem_append.mp hy with hy | hy
    · exact hdec rfl y hy
    · rw [List.mem_singleton.mp hy]
  | non =>
    unfold Obj.raw
    dsimp only
    rw [decide_eq_true (by simpa using hone), check_true, ok_bind]
    refine (tern_tot hone hof h.hull).bind ?_
    rintro ⟨l, r⟩ ⟨s1, v, s2, s3, s4⟩
    dsimp only at s1 s2 ⊢
    rw [decide_eq_true s1, check_true, ok_bind, s2, ok_bind]
    refine tot_ok.mpr ⟨?_, hall v s3 s4⟩
    exact ⟨h.small, h.hull, h.sub, h.ne, h.dom, fun ht => (by cases ht), fun ht => (by cases ht), fun ht => (by cases ht), fun ht => (by cases ht), h.minS, h.maxS, h.minB, h.maxB⟩

theorem step_tot {isMin : Bool} {tag : Tag} {o : Obj} {t : State} (h : Sim isMin tag o t) (i : Op) (hp : Pre tag t i) :
    Tot (step isMin tag o i) (fun r => Sim isMin tag r.1 (next t i) ∧ Ans isMin t i r.2) := by
  cases i with
  | addLine a b => exact (add_sim h hp).bind fun o' h' => tot_ok.mpr ⟨h', rfl⟩
  | query x =>
    unfold step Obj.query
    refine Tot.bind (P := fun r : Int × Obj => Sim isMin tag r.2 (next t (.query x)) ∧ if isMin then IsLeast (valuesAt t.lines x) r.1 else IsGreatest (valuesAt t.lines x) r.1) ?_ ?_
    · refine (raw_sim h hp).bind ?_
      rintro ⟨v, o'⟩ ⟨r1, ⟨l, l1, l2⟩, r3⟩
      dsimp only at r1 l2 r3 ⊢
      have hf : FitsAt l x := hp.2.2.2.2 l l1
      have hf2 := sgn_fits (isMin := isMin) hf
      cases isMin with
      | true =>
        rw [if_pos rfl, one_mul, i64_ok (by rw [l2]; exact ⟨by have := hf2.2; omega, hf2.2.2⟩), ok_bind]
        refine tot_ok.mpr ⟨r1, ?_⟩
        rw [if_pos rfl]
        refine ⟨⟨l, l1, l2⟩, ?_⟩
        rintro w ⟨l', h1, rfl⟩
        exact r3 l' h1
      | false =>
        have hv : ∀ l, val (sgn false l) x = -(l.1 * x + l.2) := fun l => sgn_val false l x
        have h2 := hf.2
        unfold val at h2
        rw [hv] at l2
        rw [if_neg (by decide), i64_ok ⟨by omega, by omega⟩, ok_bind]
        refine tot_ok.mpr ⟨r1, ?_⟩
        rw [if_neg (by decide)]
        refine ⟨⟨l, l1, by omega⟩, ?_⟩
        rintro w ⟨l', h1, rfl⟩
        have := r3 l' h1
        rw [hv] at this
        dsimp only
        omega
    · rintro r ⟨h1, h2⟩
      exact tot_ok.mpr ⟨h1, r.1, rfl, h2⟩

end MonotonicCHT
