import Verif.Proof.EulerianUndirected

namespace Eulerian
open Cxx Finset

/-- The result of the loop that looks for the end points: the first two of the vertices of odd degree, and a third. -/
structure UEnds (O : Nat → Prop) (i : Nat) (e : Option Nat × Option Nat × Option Nat) : Prop where
  s : ∀ a, e.1 = some a → a < i ∧ O a
  t : ∀ b, e.2.1 = some b → b < i ∧ O b ∧ e.1 ≠ none ∧ e.1 ≠ some b
  ok : e.2.2 = none → ∀ x, x < i → O x → e.1 = some x ∨ e.2.1 = some x
  bad : e.2.2 ≠ none → ∃ x y z, x ≠ y ∧ x ≠ z ∧ y ≠ z ∧ O x ∧ O y ∧ O z

theorem uEndStep_ok {O : Nat → Prop} {i d : Nat} {e : Option Nat × Option Nat × Option Nat} (h : UEnds O i e) (hd : O i ↔ d % 2 = 1) : UEnds O (i + 1) (uEndStep d i e) := by
  obtain ⟨s, t, v⟩ := e
  obtain ⟨h1, h2, h3, h4⟩ := h
  dsimp only at h1 h2 h3 h4
  unfold uEndStep
  dsimp only
  by_cases hc : d % 2 = 1
  · have hO := hd.mpr hc
    rw [if_pos hc]
    cases s with
    | none =>
      dsimp only
      refine ⟨?_, ?_, ?_, h4⟩
      · intro a ha
        cases ha
        exact ⟨by omega, hO⟩
      · intro b hb
        exact absurd rfl (h2 b hb).2.2.1
      · intro hv x hx hOx
        dsimp only at hv ⊢
        by_cases hxi : x = i
        · exact Or.inl (by rw [hxi])
        · rcases h3 hv x (by omega) hOx with h | h
          · cases h
          · exact Or.inr h
    | some a =>
      obtain ⟨a1, a2⟩ := h1 a rfl
      cases t with
      | none =>
        dsimp only
        refine ⟨?_, ?_, ?_, h4⟩
        · intro a' ha
          cases ha
          exact ⟨by omega, a2⟩
        · intro b hb
          cases hb
          refine ⟨by omega, hO, by simp, ?_⟩
          intro hc'
          have := Option.some.inj hc'
          omega
        · intro hv x hx hOx
          dsimp only at hv ⊢
          by_cases hxi : x = i
          · exact Or.inr (by rw [hxi])
          · rcases h3 hv x (by omega) hOx with h | h
            · exact Or.inl h
            · cases h
      | some b =>
        obtain ⟨b1, b2, -, b4⟩ := h2 b rfl
        dsimp only
        refine ⟨?_, ?_, ?_, ?_⟩
        · intro a' ha
          cases ha
          exact ⟨by omega, a2⟩
        · intro b' hb
          cases hb
          exact ⟨by omega, b2, by simp, b4⟩
        · intro hv
          cases hv
        · intro _
          exact ⟨a, b, i, fun h => b4 (by rw [h]), by omega, by omega, a2, b2, hO⟩
  · rw [if_neg hc]
    refine ⟨?_, ?_, ?_, h4⟩
    · intro a ha
      have := h1 a ha
      exact ⟨by omega, this.2⟩
    · intro b hb
      have := h2 b hb
      exact ⟨by omega, this.2⟩
    · intro hv x hx hOx
      refine h3 hv x ?_ hOx
      have : x ≠ i := by
        rintro rfl
        exact hc (hd.mp hOx)
      omega

theorem uends {o : UObj} {n : Nat} {E : List (Nat × Nat)} {S : List Slot} (h : URep o n E S) : Tot o.ends (UEnds (fun x => deg E x % 2 = 1) n) := by
  unfold UObj.ends
  refine (Tot.forUp (lo := 0) (hi := o.n) (P := fun i (e : Option Nat × Option Nat × Option Nat) => UEnds (fun x => deg E x % 2 = 1) i e) (by omega) ?_ ?_).mono ?_
  · exact ⟨fun a ha => (by cases ha), fun b hb => (by cases hb), fun _ x hx => (by omega), fun h => absurd rfl h⟩
  · intro i e _ hi he
    rw [h.hn] at hi
    have hg : i < o.g.size := by rw [h.gsz]; exact hi
    rw [rd_at #[] hg, ok_bind]
    have hs := slots_card_at o.g i hg
    rw [h.deg_eq] at hs
    unfold sz at hs
    exact tot_ok.mpr (uEndStep_ok he (by rw [hs]))
  · intro e he
    rw [h.hn] at he
    exact he

/-- Removing the last entries undoes `add_edge`. -/
theorem pop_push {g g1 g2 g3 g4 : Array (Array Nat)} {s t x y : Nat} (hst : s ≠ t)
    (h1 : g1.size = g.size ∧ ∀ v, at' #[] g1 v = if s = v then (at' #[] g s).push x else at' #[] g v)
    (h2 : g2.size = g1.size ∧ ∀ v, at' #[] g2 v = if t = v then (at' #[] g1 t).push y else at' #[] g1 v)
    (h3 : g3.size = g2.size ∧ ∀ v, at' #[] g3 v = if s = v then (at' #[] g2 s).pop else at' #[] g2 v)
    (h4 : g4.size = g3.size ∧ ∀ v, at' #[] g4 v = if t = v then (at' #[] g3 t).pop else at' #[] g3 v) : g4 = g := by
  have hsz : g4.size = g.size := by rw [h4.1, h3.1, h2.1, h1.1]
  refine Array.ext hsz ?_
  intro i hi hi'
  have e : at' #[] g4 i = at' #[] g i := by
    rw [h4.2]
    split_ifs with c1
    · subst c1
      rw [h3.2, if_neg hst, h2.2, if_pos rfl, Array.pop_push, h1.2, if_neg hst]
    · rw [h3.2]
      split_ifs with c2
      · subst c2
        rw [h2.2, if_neg c1, h1.2, if_pos rfl, Array.pop_push]
      · rw [h2.2, if_neg c1, h1.2, if_neg c2]
  unfold at' at e
  rw [Array.getElem?_eq_getElem hi, Array.getElem?_eq_getElem hi'] at e
  exact e

/-- The edges as unordered pairs. -/
def syms (l : List (Nat × Nat)) : List (Sym2 Nat) := l.map fun p => s(p.1, p.2)

theorem ufinish {o0 o : UObj} {n : Nat} {E : List (Nat × Nat)} {s t : Nat} (h0 : o0.g.size = n ∧ o0.inv.size = n) (ha : Added o0 o s t) (hs : s < n) (ht : t < n) (hst : s ≠ t) {w : List Nat}
    (hw : UTrail (E ++ [(s, t)]) w) (hc : Closed w) (hh : w.head? = some s) :
    Tot (o.finish s t w) (fun r => r.1 = o0 ∧ ∃ w', r.2 = some w' ∧ UTrail E w' ∧ ¬ Closed w') := by
  unfold UObj.finish
  dsimp only
  obtain ⟨an, g1, hg1, hg2, i1, hi1, hi2⟩ := ha
  have z1 : o.g.size = n := by rw [hg2.1, hg1.1, h0.1]
  have z2 : o.inv.size = n := by rw [hi2.1, hi1.1, h0.2]
  refine (popRow_tot (by rw [z1]; exact hs)).bind ?_
  intro g3 hg3
  refine (popRow_tot (by rw [z2]; exact hs)).bind ?_
  intro i3 hi3
  refine (popRow_tot (by rw [hg3.1, z1]; exact ht)).bind ?_
  intro g4 hg4
  refine (popRow_tot (by rw [hi3.1, z2]; exact ht)).bind ?_
  intro i4 hi4
  have hrep : ({ o with g := g4, inv := i4 } : UObj) = o0 := by
    rw [pop_push hst hg1 hg2 hg3 hg4, pop_push hst hi1 hi2 hi3 hi4, an]
  rw [hrep]
  have hlast : w.getLast? = some s := by rw [← hc]; exact hh
  have hne : w ≠ [] := hw.1
  obtain ⟨r, hr⟩ : ∃ r, r = w.dropLast := ⟨_, rfl⟩
  have hwr : w = r ++ [s] := by
    rw [hr]
    rw [List.getLast?_eq_getLast_of_ne_nil hne] at hlast
    rw [← Option.some.inj hlast, List.dropLast_append_getLast]
  rw [← hr]
  have hrne : r ≠ [] := by
    intro hc'
    rw [hc'] at hwr
    have := hw.2.length_eq
    rw [hwr] at this
    simp [steps] at this
  have hrh : r.head? = some s := by
    rw [hwr] at hh
    cases r with
    | nil => exact absurd rfl hrne
    | cons a r => simpa using hh
  obtain ⟨b, hb⟩ : ∃ b, b = r.getLast hrne := ⟨_, rfl⟩
  have hrl : r.getLast? = some b := by rw [hb, List.getLast?_eq_getLast_of_ne_nil hrne]
  have hsteps : steps w = steps r ++ [(b, s)] := by
    have e : w = r.dropLast ++ b :: s :: [] := by
      rw [hwr]
      conv_lhs => rw [← List.dropLast_append_getLast hrne]
      rw [hb]
      simp
    rw [e, steps_append]
    congr 1
    rw [hb, List.dropLast_append_getLast]
  rw [hrl]
  dsimp only
  have hwp : (syms (steps w)).Perm (syms E ++ [s(s, t)]) := by
    have := hw.2
    rw [List.map_append] at this
    exact this
  have cancel : ∀ (l : List (Nat × Nat)) (a b : Nat), s(a, b) = s(s, t) → (steps w).Perm (l ++ [(a, b)]) → (syms l).Perm (syms E) := by
    intro l a b hab hl
    have h1 : (syms (steps w)).Perm (syms l ++ [s(s, t)]) := by
      rw [← hab]
      have := hl.map fun p : Nat × Nat => s(p.1, p.2)
      rw [List.map_append] at this
      exact this
    exact (List.perm_append_right_iff _).mp (h1.symm.trans hwp)
  by_cases hbt : b = t
  · rw [if_pos hbt]
    refine tot_ok.mpr ⟨rfl, r, rfl, ⟨hrne, cancel _ b s ?_ ?_⟩, ?_⟩
    · rw [hbt]
      exact Sym2.eq_swap
    · rw [hsteps]
    · unfold Closed
      rw [hrh, hrl, hbt]
      exact fun h => hst (Option.some.inj h)
  · rw [if_neg hbt]
    have hmem : s(s, t) ∈ syms (steps w) := hwp.mem_iff.mpr (by simp)
    obtain ⟨q, q1, q2⟩ := List.mem_map.mp hmem
    have q3 := Sym2.eq_iff.mp q2
    have q4 : q ∈ steps r := by
      rw [hsteps, List.mem_append] at q1
      rcases q1 with q1 | q1
      · exact q1
      · exfalso
        have : q = (b, s) := by simpa using q1
        rw [this] at q3
        rcases q3 with ⟨-, h2⟩ | ⟨h1, -⟩
        · exact hst h2
        · exact hbt h1
    refine (rotate_tot hrh q4 (decide_eq_true q3)).bind ?_
    rintro r' ⟨a, b', p1, p2, p3, p4⟩
    have p5 := of_decide_eq_true p1
    have p6 : s(a, b') = s(s, t) := Sym2.eq_iff.mpr p5
    refine tot_ok.mpr ⟨rfl, r', rfl, ⟨?_, cancel _ a b' p6 ?_⟩, ?_⟩
    · intro hc'
      rw [hc'] at p2
      cases p2
    · rw [hwr]
      exact p4
    · unfold Closed
      rw [p2, p3]
      intro hc'
      have := Option.some.inj hc'
      rcases p5 with ⟨h1, h2⟩ | ⟨h1, h2⟩
      · exact hst (by rw [← h1, ← h2, this])
      · exact hst (by rw [← h1, ← h2, this])

theorem uopen {o : UObj} {n : Nat} {E : List (Nat × Nat)} {S : List Slot} (h : URep o n E S) {s t : Nat} (hs : s < n) (ht : t < n) (hst : s ≠ t) :
    Tot (o.openTrail s t) (fun r => (∃ w, r.2 = some w ∧ r.1 = o ∧ UTrail E w ∧ ¬ Closed w) ∨
      (r.2 = none ∧ ¬ ∃ w, UTrail E w ∧ ∃ a b, w.head? = some a ∧ w.getLast? = some b ∧ s(a, b) = s(s, t))) := by
  unfold UObj.openTrail
  refine (uadd h hs ht).bind ?_
  rintro o' ⟨ha, S', ho'⟩
  refine (ucircuit_tot ho' (by omega) (start := some s) (fun s' h' => by cases h'; exact hs)).bind ?_
  intro r hr
  cases r with
  | none =>
    refine tot_ok.mpr (Or.inr ⟨rfl, ?_⟩)
    rintro ⟨w, w1, a, b, w2, w3, w4⟩
    apply hr
    refine ⟨w ++ [a], ⟨by simp, ?_⟩, ?_, ?_⟩
    · obtain ⟨l, rfl⟩ : ∃ l, w = l ++ [b] := by
        have hne := w1.1
        rw [List.getLast?_eq_getLast_of_ne_nil hne] at w3
        refine ⟨w.dropLast, ?_⟩
        rw [← Option.some.inj w3, List.dropLast_append_getLast]
      rw [List.append_assoc]
      have := steps_append l b a []
      rw [show l ++ ([b] ++ [a]) = l ++ b :: a :: [] from rfl, this, List.map_append, List.map_append]
      have e : (List.map (fun p : Nat × Nat => s(p.1, p.2)) ((b, a) :: steps [a])) = List.map (fun p : Nat × Nat => s(p.1, p.2)) [(s, t)] := by
        change [s(b, a)] = [s(s, t)]
        rw [← w4, Sym2.eq_swap]
      rw [e]
      exact w1.2.append_right _
    · unfold Closed
      rw [List.getLast?_concat]
      cases w with
      | nil => exact absurd rfl w1.1
      | cons c w => simpa using w2
    · intro s' h'
      cases h'
      rcases Sym2.eq_iff.mp w4 with ⟨h1, h2⟩ | ⟨h1, h2⟩
      · rw [h1]
        simp
      · rw [← h2]
        exact List.mem_append_left _ (List.mem_of_getLast? w3)
  | some w =>
    obtain ⟨w1, w2, w3⟩ := hr
    refine (ufinish ⟨h.gsz, h.isz⟩ ha hs ht hst w1 w2 (w3 s rfl)).mono ?_
    rintro r ⟨r1, w', r2, r3, r4⟩
    exact Or.inl ⟨w', r2, r1, r3, r4⟩

/-- What the trail function promises about its value. -/
def UTrailRes (E : List (Nat × Nat)) (different : Bool) : Option (List Nat) → Prop
  | some w => UTrail E w ∧ (different = true → ¬ Closed w)
  | none => ¬ ∃ w, UTrail E w ∧ (different = true → ¬ Closed w)

theorem utrail_tot {o : UObj} {n : Nat} {E : List (Nat × Nat)} {S : List Slot} (h : URep o n E S) (hn : 0 < n) (different : Bool) :
    Tot (o.trail different) (fun r => UTrailRes E different r.2 ∧ (r.2 ≠ none → r.1 = o)) := by
  unfold UObj.trail
  refine (uends h).bind ?_
  rintro ⟨s, t, v⟩ he
  obtain ⟨s1, t1, ok, bad⟩ := he
  dsimp only at s1 t1 ok bad
  have hout : ∀ x, deg E x % 2 = 1 → x < n := by
    intro x hx
    by_contra hxn
    have z1 : (E.map Prod.fst).count x = 0 := by
      refine List.count_eq_zero_of_not_mem fun hm => ?_
      obtain ⟨p, p1, p2⟩ := List.mem_map.mp hm
      have := (h.valid p p1).1
      omega
    have z2 : (E.map Prod.snd).count x = 0 := by
      refine List.count_eq_zero_of_not_mem fun hm => ?_
      obtain ⟨p, p1, p2⟩ := List.mem_map.mp hm
      have := (h.valid p p1).2
      omega
    unfold deg at hx
    omega
  have nobad : ∀ w, UTrail E w → v = none := by
    intro w hw
    by_contra hv
    obtain ⟨a, b, w1, w2, -⟩ := trail_ends hw.1
    have hd := utrail_deg hw w1 w2
    obtain ⟨x, y, z, xy, xz, yz, dx, dy, dz⟩ := bad hv
    have d1 := hd x
    have d2 := hd y
    have d3 := hd z
    split_ifs at d1 d2 d3 <;> omega
  have openEnds : ∀ w, UTrail E w → ¬ Closed w → ∃ a b, w.head? = some a ∧ w.getLast? = some b ∧ ∃ a' b', s = some a' ∧ t = some b' ∧ s(a, b) = s(a', b') := by
    intro w hw hc
    obtain ⟨a, b, w1, w2, w3⟩ := trail_ends hw.1
    have hab : a ≠ b := fun h => hc (w3.mpr h)
    have hd := utrail_deg hw w1 w2
    have da := hd a
    have db := hd b
    rw [if_pos rfl, if_neg hab] at da
    rw [if_neg hab.symm, if_pos rfl] at db
    have oa : deg E a % 2 = 1 := by omega
    have ob : deg E b % 2 = 1 := by omega
    have hv := nobad w hw
    refine ⟨a, b, w1, w2, ?_⟩
    rcases ok hv a (hout a oa) oa with h1 | h1 <;> rcases ok hv b (hout b ob) ob with h2 | h2
    · rw [h1] at h2
      exact absurd (Option.some.inj h2) hab
    · exact ⟨a, b, h1, h2, rfl⟩
    · exact ⟨b, a, h2, h1, Sym2.eq_swap⟩
    · rw [h1] at h2
      exact absurd (Option.some.inj h2) hab
  have closedEnds : ∀ w, UTrail E w → Closed w → s = none ∧ t = none := by
    intro w hw hc
    obtain ⟨a, b, w1, w2, w3⟩ := trail_ends hw.1
    have hab := w3.mp hc
    have hd := utrail_deg hw w1 w2
    rw [hab] at hd
    constructor
    · cases hs : s with
      | none => rfl
      | some x =>
        exfalso
        have h1 := (s1 x hs).2
        have h2 := hd x
        omega
    · cases ht : t with
      | none => rfl
      | some x =>
        exfalso
        have h1 := (t1 x ht).2.1
        have h2 := hd x
        omega
  have other : (¬ (s = none ∧ t = none ∧ v = none)) → (¬ ∃ a b, s = some a ∧ t = some b ∧ v = none) → UTrailRes E different none := by
    rintro n1 n2 ⟨w, w1, -⟩
    by_cases hc : Closed w
    · have := closedEnds w w1 hc
      exact n1 ⟨this.1, this.2, nobad w w1⟩
    · obtain ⟨a, b, -, -, a', b', h1, h2, -⟩ := openEnds w w1 hc
      exact n2 ⟨a', b', h1, h2, nobad w w1⟩
  cases v with
  | some v =>
    have hres := other (by simp) (by simp)
    cases s <;> cases t <;> exact tot_ok.mpr ⟨hres, fun h => absurd rfl h⟩
  | none =>
    cases hs : s with
    | none =>
      cases ht : t with
      | none =>
        dsimp only
        cases different with
        | true =>
          rw [if_pos rfl]
          refine tot_ok.mpr ⟨?_, fun h => absurd rfl h⟩
          rintro ⟨w, w1, w2⟩
          obtain ⟨a, b, -, -, a', b', h1, -⟩ := openEnds w w1 (w2 rfl)
          rw [hs] at h1
          cases h1
        | false =>
          rw [if_neg (by simp)]
          refine (ucircuit_tot h hn (start := none) (fun s h => (by cases h))).bind ?_
          intro r hr
          refine tot_ok.mpr ⟨?_, fun _ => rfl⟩
          cases r with
          | some w => exact ⟨hr.1, fun h => (by cases h)⟩
          | none =>
            rintro ⟨w, w1, -⟩
            by_cases hc : Closed w
            · exact hr ⟨w, w1, hc, fun s h => (by cases h)⟩
            · obtain ⟨a, b, -, -, a', b', h1, -⟩ := openEnds w w1 hc
              rw [hs] at h1
              cases h1
      | some t' =>
        have hres := other (by simp [ht]) (by simp [hs])
        exact tot_ok.mpr ⟨hres, fun h => absurd rfl h⟩
    | some s' =>
      cases ht : t with
      | none =>
        have hres := other (by simp [hs]) (by simp [ht])
        exact tot_ok.mpr ⟨hres, fun h => absurd rfl h⟩
      | some t' =>
        dsimp only
        have hs2 := s1 s' hs
        have ht2 := t1 t' ht
        have hst : s' ≠ t' := by
          rintro rfl
          exact ht2.2.2.2 hs
        refine (uopen h hs2.1 ht2.1 hst).mono ?_
        rintro ⟨o', r⟩ hr
        rcases hr with ⟨w, r1, r2, r3, r4⟩ | ⟨r1, r3⟩
        · dsimp only at r1
          subst r1
          exact ⟨⟨r3, fun _ => r4⟩, fun _ => r2⟩
        · dsimp only at r1
          subst r1
          refine ⟨?_, fun h => absurd rfl h⟩
          rintro ⟨w, w1, -⟩
          by_cases hc : Closed w
          · have := (closedEnds w w1 hc).1
            rw [hs] at this
            cases this
          · obtain ⟨a, b, h1, h2, a', b', h3, h4, h5⟩ := openEnds w w1 hc
            rw [hs] at h3
            rw [ht] at h4
            cases h3
            cases h4
            exact r3 ⟨w, w1, a, b, h1, h2, h5⟩

end Eulerian
