import Verif.Proof.EulerianDirected

namespace Eulerian
open Cxx Finset

/-- What the loop that looks for the end points knows: `A` are the possible starts, `B` the possible ends, `Z` the balanced vertices, among the vertices below `i`. -/
structure Ends (A B Z : Nat → Prop) (i : Nat) (e : Option Nat × Option Nat × Option Nat) : Prop where
  s1 : e.1 = none → ∀ x, x < i → ¬ A x
  s2 : ∀ a, e.1 = some a → a < i ∧ A a
  t1 : e.2.1 = none → ∀ x, x < i → ¬ B x
  t2 : ∀ b, e.2.1 = some b → b < i ∧ B b
  ok : e.2.2 = none → ∀ x, x < i → (A x → e.1 = some x) ∧ (B x → e.2.1 = some x) ∧ (A x ∨ B x ∨ Z x)
  bad : e.2.2 ≠ none → (∃ x, x < i ∧ ¬ A x ∧ ¬ B x ∧ ¬ Z x) ∨ (∃ x y, x ≠ y ∧ A x ∧ A y) ∨ (∃ x y, x ≠ y ∧ B x ∧ B y)

theorem ends_start (A B Z : Nat → Prop) : Ends A B Z 0 (none, none, none) := by
  refine ⟨?_, ?_, ?_, ?_, ?_, ?_⟩
  · intro _ x hx; omega
  · intro a h; cases h
  · intro _ x hx; omega
  · intro a h; cases h
  · intro _ x hx; omega
  · intro h; exact absurd rfl h

theorem Ends.addA {A B Z : Nat → Prop} {i : Nat} {e : Option Nat × Option Nat × Option Nat} (h : Ends A B Z i e) (ha : A i) (hb : ¬ B i) :
    Ends A B Z (i + 1) (match e.1 with | none => (some i, e.2.1, e.2.2) | some _ => (e.1, e.2.1, some i)) := by
  obtain ⟨s, t, v⟩ := e
  obtain ⟨s1, s2, t1, t2, ok, bad⟩ := h
  dsimp only at *
  cases s with
  | none =>
    refine ⟨fun h => (by cases h), ?_, ?_, ?_, ?_, ?_⟩
    · intro a h
      cases h
      exact ⟨by omega, ha⟩
    · intro ht x hx
      by_cases hxi : x = i
      · rw [hxi]; exact hb
      · exact t1 ht x (by omega)
    · intro b hb'
      have := t2 b hb'
      exact ⟨by omega, this.2⟩
    · intro hv x hx
      by_cases hxi : x = i
      · subst hxi
        exact ⟨fun _ => rfl, fun h => absurd h hb, Or.inl ha⟩
      · have := ok hv x (by omega)
        exact ⟨fun h => absurd h (s1 rfl x (by omega)), this.2⟩
    · intro hv
      rcases bad hv with ⟨x, hx, h'⟩ | h'
      · exact Or.inl ⟨x, by omega, h'⟩
      · exact Or.inr h'
  | some a =>
    refine ⟨fun h => (by cases h), ?_, ?_, ?_, fun h => (by cases h), ?_⟩
    · intro a' h
      have := s2 a' h
      exact ⟨by omega, this.2⟩
    · intro ht x hx
      by_cases hxi : x = i
      · rw [hxi]; exact hb
      · exact t1 ht x (by omega)
    · intro b hb'
      have := t2 b hb'
      exact ⟨by omega, this.2⟩
    · intro _
      have := s2 a rfl
      exact Or.inr (Or.inl ⟨a, i, by omega, this.2, ha⟩)

theorem Ends.addB {A B Z : Nat → Prop} {i : Nat} {e : Option Nat × Option Nat × Option Nat} (h : Ends A B Z i e) (hb : B i) (ha : ¬ A i) :
    Ends A B Z (i + 1) (match e.2.1 with | none => (e.1, some i, e.2.2) | some _ => (e.1, e.2.1, some i)) := by
  obtain ⟨s, t, v⟩ := e
  obtain ⟨s1, s2, t1, t2, ok, bad⟩ := h
  dsimp only at *
  cases t with
  | none =>
    refine ⟨?_, ?_, fun h => (by cases h), ?_, ?_, ?_⟩
    · intro ht x hx
      by_cases hxi : x = i
      · rw [hxi]; exact ha
      · exact s1 ht x (by omega)
    · intro b hb'
      have := s2 b hb'
      exact ⟨by omega, this.2⟩
    · intro a h
      cases h
      exact ⟨by omega, hb⟩
    · intro hv x hx
      by_cases hxi : x = i
      · subst hxi
        exact ⟨fun h => absurd h ha, fun _ => rfl, Or.inr (Or.inl hb)⟩
      · have := ok hv x (by omega)
        exact ⟨this.1, fun h => absurd h (t1 rfl x (by omega)), this.2.2⟩
    · intro hv
      rcases bad hv with ⟨x, hx, h'⟩ | h'
      · exact Or.inl ⟨x, by omega, h'⟩
      · exact Or.inr h'
  | some a =>
    refine ⟨?_, ?_, fun h => (by cases h), ?_, fun h => (by cases h), ?_⟩
    · intro ht x hx
      by_cases hxi : x = i
      · rw [hxi]; exact ha
      · exact s1 ht x (by omega)
    · intro b hb'
      have := s2 b hb'
      exact ⟨by omega, this.2⟩
    · intro a' h
      have := t2 a' h
      exact ⟨by omega, this.2⟩
    · intro _
      have := t2 a rfl
      exact Or.inr (Or.inr ⟨a, i, by omega, this.2, hb⟩)

theorem Ends.addC {A B Z : Nat → Prop} {i : Nat} {e : Option Nat × Option Nat × Option Nat} (h : Ends A B Z i e) (ha : ¬ A i) (hb : ¬ B i) (hz : ¬ Z i) :
    Ends A B Z (i + 1) (e.1, e.2.1, some i) := by
  obtain ⟨s1, s2, t1, t2, ok, bad⟩ := h
  refine ⟨?_, ?_, ?_, ?_, fun h => (by cases h), fun _ => Or.inl ⟨i, by omega, ha, hb, hz⟩⟩
  · intro ht x hx
    by_cases hxi : x = i
    · rw [hxi]; exact ha
    · exact s1 ht x (by omega)
  · intro b hb'
    have := s2 b hb'
    exact ⟨by omega, this.2⟩
  · intro ht x hx
    by_cases hxi : x = i
    · rw [hxi]; exact hb
    · exact t1 ht x (by omega)
  · intro b hb'
    have := t2 b hb'
    exact ⟨by omega, this.2⟩

theorem Ends.addZ {A B Z : Nat → Prop} {i : Nat} {e : Option Nat × Option Nat × Option Nat} (h : Ends A B Z i e) (ha : ¬ A i) (hb : ¬ B i) (hz : Z i) : Ends A B Z (i + 1) e := by
  obtain ⟨s1, s2, t1, t2, ok, bad⟩ := h
  refine ⟨?_, ?_, ?_, ?_, ?_, ?_⟩
  · intro ht x hx
    by_cases hxi : x = i
    · rw [hxi]; exact ha
    · exact s1 ht x (by omega)
  · intro b hb'
    have := s2 b hb'
    exact ⟨by omega, this.2⟩
  · intro ht x hx
    by_cases hxi : x = i
    · rw [hxi]; exact hb
    · exact t1 ht x (by omega)
  · intro b hb'
    have := t2 b hb'
    exact ⟨by omega, this.2⟩
  · intro hv x hx
    by_cases hxi : x = i
    · subst hxi
      exact ⟨fun h => absurd h ha, fun h => absurd h hb, Or.inr (Or.inr hz)⟩
    · exact ok hv x (by omega)
  · intro hv
    rcases bad hv with ⟨x, hx, h'⟩ | h'
    · exact Or.inl ⟨x, by omega, h'⟩
    · exact Or.inr h'

/-! ### The directed trail -/

def outD (E : List (Nat × Nat)) (x : Nat) : Nat := (E.map Prod.fst).count x
def inD (E : List (Nat × Nat)) (x : Nat) : Nat := (E.map Prod.snd).count x

theorem dends {o : DObj} {n : Nat} {E : List (Nat × Nat)} (h : DRep o n E) :
    Tot o.ends (Ends (fun x => outD E x = inD E x + 1) (fun x => outD E x + 1 = inD E x) (fun x => outD E x = inD E x) n) := by
  unfold DObj.ends
  have := Tot.forUp (lo := 0) (hi := o.n) (s := ((none, none, none) : Option Nat × Option Nat × Option Nat)) (f := fun i e => do
    let row ← rd o.g i
    let d ← rd o.inDeg i
    return dEndStep row.size d i e) (P := fun i e => Ends (fun x => outD E x = inD E x + 1) (fun x => outD E x + 1 = inD E x) (fun x => outD E x = inD E x) i e)
    (by omega) (ends_start _ _ _) ?_
  · rw [h.hn] at this
    rw [h.hn]
    exact this
  · intro i e _ hi he
    rw [h.hn] at hi
    rw [rd_at #[] (by rw [h.gsz]; exact hi), ok_bind, rd_at 0 (by rw [h.isz]; exact hi), ok_bind]
    refine tot_ok.mpr ?_
    have h1 : (at' #[] o.g i).size = outD E i := h.sz_eq hi
    have h2 : at' 0 o.inDeg i = inD E i := h.deg i hi
    rw [h1, h2]
    unfold dEndStep
    split_ifs with c1 c2 c3
    · exact he.addA c1 (by omega)
    · exact he.addB c2 (by omega)
    · exact he.addC (by omega) (by omega) (by omega)
    · exact he.addZ (by omega) (by omega) (by omega)

theorem trail_ends {w : List Nat} (h : w ≠ []) : ∃ a b, w.head? = some a ∧ w.getLast? = some b ∧ (Closed w ↔ a = b) := by
  cases w with
  | nil => exact absurd rfl h
  | cons a w =>
    refine ⟨a, (a :: w).getLast (by simp), rfl, List.getLast?_eq_getLast_of_ne_nil (by simp), ?_⟩
    unfold Closed
    rw [List.getLast?_eq_getLast_of_ne_nil (by simp), List.head?_cons]
    constructor
    · intro h'
      exact Option.some.inj h'
    · intro h'
      exact congrArg some h'

theorem dtrail_deg {E : List (Nat × Nat)} {w : List Nat} (h : DTrail E w) {a b : Nat} (h1 : w.head? = some a) (h2 : w.getLast? = some b) (x : Nat) :
    outD E x + (if x = b then 1 else 0) = inD E x + (if x = a then 1 else 0) := by
  have := count_walk h1 h2 x
  rw [(h.2.map Prod.fst).count_eq, (h.2.map Prod.snd).count_eq] at this
  exact this

/-- What the trail function promises about its value. -/
def DTrailRes (E : List (Nat × Nat)) (different : Bool) : Option (List Nat) → Prop
  | some w => DTrail E w ∧ (different = true → ¬ Closed w)
  | none => ¬ ∃ w, DTrail E w ∧ (different = true → ¬ Closed w)

theorem dfinish {o : DObj} {n : Nat} {E : List (Nat × Nat)} {s t : Nat} (h : DRep o n (E ++ [(t, s)])) (hs : s < n) (ht : t < n) (hst : s ≠ t) {w : List Nat}
    (hw : DTrail (E ++ [(t, s)]) w) (hc : Closed w) (hh : w.head? = some s) :
    Tot (o.finish s t w) (fun r => DRep r.1 n E ∧ ∃ w', r.2 = some w' ∧ DTrail E w' ∧ ¬ Closed w') := by
  unfold DObj.finish
  dsimp only
  refine (popRow_tot (by rw [h.gsz]; exact ht)).bind ?_
  rintro g ⟨g1, g2⟩
  have hs' : s < o.inDeg.size := by rw [h.isz]; exact hs
  rw [rd_at 0 hs', ok_bind, wr_eq hs', ok_bind]
  obtain ⟨o', ho'⟩ : ∃ o' : DObj, o' = { o with g := g, inDeg := o.inDeg.setIfInBounds s (at' 0 o.inDeg s - 1) } := ⟨_, rfl⟩
  have hrep : DRep o' n E := by
    rw [ho']
    refine ⟨h.hn, by dsimp only; rw [g1, h.gsz], by simp [h.isz], ?_, ?_, fun p hp => h.valid p (by simp [hp])⟩
    · intro u hu
      dsimp only
      have := h.row u hu
      rw [List.filter_append, List.map_append] at this
      rw [g2]
      split_ifs with hc
      · subst hc
        rw [Array.toList_pop, this]
        simp
      · rw [this]
        simp [hc]
    · intro v hv
      dsimp only
      have := h.deg v hv
      rw [List.map_append, List.count_append] at this
      rw [at_set 0 hs']
      split_ifs with hc
      · subst hc
        rw [this]
        simp
      · rw [this]
        simp [hc]
  rw [← ho']
  -- the walk is `r` followed by `s`
  have hlast : w.getLast? = some s := by rw [← hc]; exact hh
  have hne : w ≠ [] := hw.1
  obtain ⟨r, hr⟩ : ∃ r, r = w.dropLast := ⟨_, rfl⟩
  have hwr : w = r ++ [s] := by
    rw [hr]
    rw [List.getLast?_eq_getLast_of_ne_nil hne] at hlast
    rw [← Option.some.inj hlast, List.dropLast_append_getLast]
  rw [← hr]
  have hrne : r ≠ [] := by
    intro hc'
    rw [hc'] at hwr
    have := hw.2.length_eq
    rw [hwr] at this
    simp [steps] at this
  have hrh : r.head? = some s := by
    rw [hwr] at hh
    cases r with
    | nil => exact absurd rfl hrne
    | cons a r => simpa using hh
  obtain ⟨b, hb⟩ : ∃ b, b = r.getLast hrne := ⟨_, rfl⟩
  have hrl : r.getLast? = some b := by rw [hb, List.getLast?_eq_getLast_of_ne_nil hrne]
  have hsteps : steps w = steps r ++ [(b, s)] := by
    have e : w = r.dropLast ++ b :: s :: [] := by
      rw [hwr]
      conv_lhs => rw [← List.dropLast_append_getLast hrne]
      rw [hb]
      simp
    rw [e, steps_append]
    congr 1
    rw [hb, List.dropLast_append_getLast]
  rw [hrl]
  dsimp only
  have cancel : ∀ l : List (Nat × Nat), (l ++ [(t, s)]).Perm (E ++ [(t, s)]) → l.Perm E := fun l hl => (List.perm_append_right_iff _).mp hl
  have notclosed : ∀ r' : List Nat, r'.head? = some s → r'.getLast? = some t → ¬ Closed r' := by
    intro r' h1 h2 hc'
    unfold Closed at hc'
    rw [h1, h2] at hc'
    exact hst (Option.some.inj hc')
  by_cases hbt : b = t
  · rw [if_pos hbt]
    refine tot_ok.mpr ⟨hrep, r, rfl, ⟨hrne, cancel _ ?_⟩, notclosed r hrh (by rw [hrl, hbt])⟩
    rw [← hbt, ← hsteps, hbt]
    exact hw.2
  · rw [if_neg hbt]
    have hmem : (t, s) ∈ steps r := by
      have : (t, s) ∈ steps w := hw.2.mem_iff.mpr (by simp)
      rw [hsteps] at this
      rcases List.mem_append.mp this with h1 | h1
      · exact h1
      · exfalso
        have : (t, s) = (b, s) := by simpa using h1
        exact hbt (Prod.mk.inj this).1.symm
    refine (rotate_tot hrh hmem (by simp)).bind ?_
    rintro r' ⟨a, c, p1, p2, p3, p4⟩
    have hac : a = t ∧ c = s := by simpa using p1
    rw [hac.1, hac.2] at p4
    rw [hac.2] at p2
    rw [hac.1] at p3
    refine tot_ok.mpr ⟨hrep, r', rfl, ⟨?_, cancel _ ?_⟩, notclosed r' p2 p3⟩
    · intro hc'
      rw [hc'] at p2
      cases p2
    · rw [← hwr] at p4
      exact p4.symm.trans hw.2

theorem dopen {o : DObj} {n : Nat} {E : List (Nat × Nat)} (h : DRep o n E) {s t : Nat} (hs : s < n) (ht : t < n) (hst : s ≠ t) :
    Tot (o.openTrail s t) (fun r => (∃ w, r.2 = some w ∧ DRep r.1 n E ∧ DTrail E w ∧ ¬ Closed w) ∨
      (r.2 = none ∧ DRep r.1 n (E ++ [(t, s)]) ∧ ¬ ∃ w, DTrail E w ∧ w.head? = some s ∧ w.getLast? = some t)) := by
  unfold DObj.openTrail
  refine (dadd h ht hs).bind ?_
  intro o' ho'
  refine (dcircuit_tot ho' (by omega) (start := some s) (fun s' h' => by cases h'; exact hs)).bind ?_
  intro r hr
  cases r with
  | none =>
    refine tot_ok.mpr (Or.inr ⟨rfl, ho', ?_⟩)
    rintro ⟨w, w1, w2, w3⟩
    apply hr
    refine ⟨w ++ [s], ⟨by simp, ?_⟩, ?_, ?_⟩
    · obtain ⟨l, rfl⟩ : ∃ l, w = l ++ [t] := by
        have hne := w1.1
        rw [List.getLast?_eq_getLast_of_ne_nil hne] at w3
        refine ⟨w.dropLast, ?_⟩
        rw [← Option.some.inj w3, List.dropLast_append_getLast]
      rw [List.append_assoc]
      have := steps_append l t s []
      rw [show l ++ ([t] ++ [s]) = l ++ t :: s :: [] from rfl, this]
      exact w1.2.append_right _
    · unfold Closed
      rw [List.getLast?_concat]
      cases w with
      | nil => exact absurd rfl w1.1
      | cons a w => simpa using w2
    · intro s' h'
      cases h'
      simp
  | some w =>
    obtain ⟨w1, w2, w3⟩ := hr
    refine (dfinish ho' hs ht hst w1 w2 (w3 s rfl)).mono ?_
    rintro r ⟨r1, w', r2, r3, r4⟩
    exact Or.inl ⟨w', r2, r1, r3, r4⟩

theorem dtrail_tot {o : DObj} {n : Nat} {E : List (Nat × Nat)} (h : DRep o n E) (hn : 0 < n) (different : Bool) :
    Tot (o.trail different) (fun r => DTrailRes E different r.2 ∧ (r.2 ≠ none → DRep r.1 n E)) := by
  unfold DObj.trail
  refine (dends h).bind ?_
  rintro ⟨s, t, v⟩ he
  obtain ⟨s1, s2, t1, t2, ok, bad⟩ := he
  dsimp only at s1 s2 t1 t2 ok bad
  have hout : ∀ x, n ≤ x → outD E x = 0 ∧ inD E x = 0 := by
    intro x hx
    refine ⟨List.count_eq_zero_of_not_mem fun hm => ?_, List.count_eq_zero_of_not_mem fun hm => ?_⟩
    · obtain ⟨p, p1, p2⟩ := List.mem_map.mp hm
      have := (h.valid p p1).1
      omega
    · obtain ⟨p, p1, p2⟩ := List.mem_map.mp hm
      have := (h.valid p p1).2
      omega
  -- a trail determines the result of the loop
  have nobad : ∀ w, DTrail E w → v = none := by
    intro w hw
    by_contra hv
    obtain ⟨a, b, w1, w2, -⟩ := trail_ends hw.1
    have hd := dtrail_deg hw w1 w2
    rcases bad hv with ⟨x, -, x1, x2, x3⟩ | ⟨x, y, hxy, x1, x2⟩ | ⟨x, y, hxy, x1, x2⟩
    · have := hd x
      split_ifs at this <;> omega
    · have d1 := hd x
      have d2 := hd y
      split_ifs at d1 d2 <;> omega
    · have d1 := hd x
      have d2 := hd y
      split_ifs at d1 d2 <;> omega
  have openEnds : ∀ w, DTrail E w → ¬ Closed w → ∃ a b, w.head? = some a ∧ w.getLast? = some b ∧ s = some a ∧ t = some b := by
    intro w hw hc
    obtain ⟨a, b, w1, w2, w3⟩ := trail_ends hw.1
    have hab : a ≠ b := fun h => hc (w3.mpr h)
    have hd := dtrail_deg hw w1 w2
    have da := hd a
    have db := hd b
    rw [if_neg hab, if_pos rfl] at da
    rw [if_pos rfl, if_neg hab.symm] at db
    have han : a < n := by
      by_contra hx
      have := hout a (by omega)
      omega
    have hbn : b < n := by
      by_contra hx
      have := hout b (by omega)
      omega
    have hv := nobad w hw
    exact ⟨a, b, w1, w2, (ok hv a han).1 (by omega), (ok hv b hbn).2.1 (by omega)⟩
  have closedEnds : ∀ w, DTrail E w → Closed w → s = none ∧ t = none := by
    intro w hw hc
    have hb := balanced_of_closed hw hc
    constructor
    · cases hs : s with
      | none => rfl
      | some a =>
        exfalso
        have := (s2 a hs).2
        have := hb a
        unfold outD inD at *
        omega
    · cases ht : t with
      | none => rfl
      | some a =>
        exfalso
        have := (t2 a ht).2
        have := hb a
        unfold outD inD at *
        omega
  have other : (¬ (s = none ∧ t = none ∧ v = none)) → (¬ ∃ a b, s = some a ∧ t = some b ∧ v = none) → DTrailRes E different none := by
    rintro n1 n2 ⟨w, w1, -⟩
    by_cases hc : Closed w
    · have := closedEnds w w1 hc
      exact n1 ⟨this.1, this.2, nobad w w1⟩
    · obtain ⟨a, b, -, -, h1, h2⟩ := openEnds w w1 hc
      exact n2 ⟨a, b, h1, h2, nobad w w1⟩
  cases v with
  | some v =>
    have hres := other (by simp) (by simp)
    cases s <;> cases t <;> exact tot_ok.mpr ⟨hres, fun h => absurd rfl h⟩
  | none =>
    cases hs : s with
    | none =>
      cases ht : t with
      | none =>
        dsimp only
        cases different with
        | true =>
          rw [if_pos rfl]
          refine tot_ok.mpr ⟨?_, fun h => absurd rfl h⟩
          rintro ⟨w, w1, w2⟩
          obtain ⟨a, b, -, -, h1, -⟩ := openEnds w w1 (w2 rfl)
          rw [hs] at h1
          cases h1
        | false =>
          rw [if_neg (by simp)]
          refine (dcircuit_tot h hn (start := none) (fun s h => (by cases h))).bind ?_
          intro r hr
          refine tot_ok.mpr ⟨?_, fun _ => h⟩
          cases r with
          | some w => exact ⟨hr.1, fun h => (by cases h)⟩
          | none =>
            rintro ⟨w, w1, -⟩
            by_cases hc : Closed w
            · exact hr ⟨w, w1, hc, fun s h => (by cases h)⟩
            · obtain ⟨a, b, -, -, h1, -⟩ := openEnds w w1 hc
              rw [hs] at h1
              cases h1
      | some t' =>
        have hres := other (by simp [ht]) (by simp [hs])
        exact tot_ok.mpr ⟨hres, fun h => absurd rfl h⟩
    | some s' =>
      cases ht : t with
      | none =>
        have hres := other (by simp [hs]) (by simp [ht])
        exact tot_ok.mpr ⟨hres, fun h => absurd rfl h⟩
      | some t' =>
        dsimp only
        have hs2 := s2 s' hs
        have ht2 := t2 t' ht
        have hst : s' ≠ t' := by
          rintro rfl
          omega
        refine (dopen h hs2.1 ht2.1 hst).mono ?_
        rintro ⟨o', r⟩ hr
        rcases hr with ⟨w, r1, r2, r3, r4⟩ | ⟨r1, r2, r3⟩
        · dsimp only at r1
          subst r1
          exact ⟨⟨r3, fun _ => r4⟩, fun _ => r2⟩
        · dsimp only at r1
          subst r1
          refine ⟨?_, fun h => absurd rfl h⟩
          rintro ⟨w, w1, -⟩
          by_cases hc : Closed w
          · have := (closedEnds w w1 hc).1
            rw [hs] at this
            cases this
          · obtain ⟨a, b, h1, h2, h3, h4⟩ := openEnds w w1 hc
            rw [hs] at h3
            rw [ht] at h4
            cases h3
            cases h4
            exact r3 ⟨w, w1, h1, h2⟩

end Eulerian
