import Verif.Spec.Mo
import Mathlib.Data.List.Perm.Basic
import Mathlib.Tactic.SplitIfs

namespace Mo
open Cxx

theorem less_strictWeak (b : Nat) (qs : Array (Nat × Nat)) : StrictWeak (less b qs) := by
  refine ⟨?_, ?_, ?_⟩
  · intro i
    simp [less]
  · intro i j k
    unfold less
    dsimp only
    generalize ((qs[i]?).getD (0, 0)) = p
    generalize ((qs[j]?).getD (0, 0)) = q
    generalize ((qs[k]?).getD (0, 0)) = r
    obtain ⟨p1, p2⟩ := p
    obtain ⟨q1, q2⟩ := q
    obtain ⟨r1, r2⟩ := r
    dsimp only
    generalize p1 / b = u
    generalize q1 / b = v
    generalize r1 / b = w
    by_cases e1 : u = v
    · subst e1
      by_cases e2 : u = w
      · subst e2
        simp only [ne_eq, not_true_eq_false, if_false]
        split_ifs <;> simp only [decide_eq_true_eq] <;> omega
      · simp only [ne_eq, not_true_eq_false, if_false, e2, not_false_eq_true, if_true, decide_eq_true_eq]
        intro _ h
        exact h
    · by_cases e2 : v = w
      · subst e2
        simp only [ne_eq, e1, not_false_eq_true, if_true, decide_eq_true_eq]
        intro h _
        exact h
      · by_cases e3 : u = w
        · subst e3
          simp only [ne_eq, e1, e2, not_false_eq_true, if_true, decide_eq_true_eq]
          omega
        · simp only [ne_eq, e1, e2, e3, not_false_eq_true, if_true, decide_eq_true_eq]
          omega
  · intro i j k
    unfold less
    dsimp only
    generalize ((qs[i]?).getD (0, 0)) = p
    generalize ((qs[j]?).getD (0, 0)) = q
    generalize ((qs[k]?).getD (0, 0)) = r
    obtain ⟨p1, p2⟩ := p
    obtain ⟨q1, q2⟩ := q
    obtain ⟨r1, r2⟩ := r
    dsimp only
    generalize p1 / b = u
    generalize q1 / b = v
    generalize r1 / b = w
    by_cases e1 : u = v
    · subst e1
      by_cases e2 : u = w
      · subst e2
        simp only [ne_eq, not_true_eq_false, if_false]
        split_ifs <;> simp only [decide_eq_false_iff_not] <;> omega
      · simp only [ne_eq, not_true_eq_false, if_false, e2, not_false_eq_true, if_true, decide_eq_false_iff_not]
        intro _ h
        exact h
    · by_cases e2 : v = w
      · subst e2
        simp only [ne_eq, e1, not_false_eq_true, if_true, decide_eq_false_iff_not]
        intro h _
        exact h
      · by_cases e3 : u = w
        · subst e3
          simp only [ne_eq, e1, e2, not_false_eq_true, if_true, decide_eq_false_iff_not]
          omega
        · simp only [ne_eq, e1, e2, e3, not_false_eq_true, if_true, decide_eq_false_iff_not]
          omega

variable {S T : Type}

variable {n : Nat} {c : Callbacks S T} {Rep : Nat → Nat → S → Prop} {Ans : Nat → Nat → T → Prop}

theorem move_tot (h : Ok n c Rep Ans) {l r nl nr : Nat} {s : S} (h1 : l ≤ r) (h2 : r ≤ n) (h3 : nl ≤ nr) (h4 : nr ≤ n) (hs : Rep l r s) :
    Tot (move c l r nl nr s) (Rep nl nr) := by
  unfold move
  have k1 : Tot (forUp r nr s (fun i s => c.addR l i s)) (Rep l (max r nr)) := by
    by_cases hc : r ≤ nr
    · rw [Nat.max_eq_right hc]
      refine Tot.forUp (lo := r) (hi := nr) (P := fun k s => Rep l k s) hc hs ?_
      intro k s a b hr
      exact h.addR l k s (by omega) (by omega) hr
    · have : forUp r nr s (fun i s => c.addR l i s) = .ok s := by
        unfold forUp
        rw [show nr - r = 0 by omega]
        rfl
      rw [this, Nat.max_eq_left (by omega)]
      exact tot_ok.mpr hs
  refine Tot.bind k1 ?_
  intro s hs
  obtain ⟨r1, hr1⟩ : ∃ r1, r1 = max r nr := ⟨_, rfl⟩
  rw [← hr1] at hs ⊢
  have k2 : Tot (forDown l nl s (fun j s => c.addL j r1 s)) (Rep (min l nl) r1) := by
    by_cases hc : nl ≤ l
    · rw [Nat.min_eq_right hc]
      refine Tot.forDown (lo := nl) (hi := l) (P := fun k s => Rep k r1 s) hc hs ?_
      intro k s a b hr
      exact h.addL k r1 s (by omega) (by omega) hr
    · have : forDown l nl s (fun j s => c.addL j r1 s) = .ok s := by
        unfold forDown
        rw [show l - nl = 0 by omega]
        rfl
      rw [this, Nat.min_eq_left (by omega)]
      exact tot_ok.mpr hs
  refine Tot.bind k2 ?_
  intro s hs
  obtain ⟨l1, hl1⟩ : ∃ l1, l1 = min l nl := ⟨_, rfl⟩
  rw [← hl1] at hs ⊢
  refine Tot.bind (Tot.forDown (lo := nr) (hi := r1) (P := fun k s => Rep l1 k s) (by omega) hs ?_) ?_
  · intro k s a b hr
    exact h.delR l1 k s (by omega) (by omega) hr
  · intro s hs
    refine Tot.forUp (lo := l1) (hi := nl) (P := fun k s => Rep k nr s) (by omega) hs ?_
    intro k s a b hr
    exact h.delL k nr s (by omega) (by omega) hr

theorem solve_tot (h : Ok n c Rep Ans) {srt : (Nat → Nat → Bool) → List Nat → List Nat} (hsrt : ∀ lt l, StrictWeak lt → (srt lt l).Perm l) (b : Nat)
    {qs : Array (Nat × Nat)} (hq : ∀ q ∈ qs, q.1 ≤ q.2 ∧ q.2 ≤ n) (x0 : T) {s0 : S} (h0 : Rep 0 0 s0) :
    Tot (solve srt b qs c x0 s0) fun o => (∃ l r, l ≤ r ∧ r ≤ n ∧ Rep l r o.1) ∧ o.2.size = qs.size ∧ ∀ (i : Nat) (q : Nat × Nat), qs[i]? = some q → ∃ x, o.2[i]? = some x ∧ Ans q.1 q.2 x := by
  have hp := hsrt (less b qs) (List.range qs.size) (less_strictWeak b qs)
  unfold solve
  refine Tot.bind (Tot.forEach (s := St.mk 0 0 s0 (Array.replicate qs.size x0)) (P := fun pre (st : St S T) => st.l ≤ st.r ∧ st.r ≤ n ∧ Rep st.l st.r st.s ∧ st.res.size = qs.size ∧
    ∀ i ∈ pre, ∀ q : Nat × Nat, qs[i]? = some q → ∃ x, st.res[i]? = some x ∧ Ans q.1 q.2 x) ⟨Nat.le_refl _, Nat.zero_le _, h0, by simp, by simp⟩ ?_) ?_
  · rintro pre i post ⟨l, r, s, res⟩ hsplit ⟨h1, h2, h3, h4, h5⟩
    dsimp only at h1 h2 h3 h4 h5
    have hi : i < qs.size := by
      have : i ∈ List.range qs.size := hp.mem_iff.mp (by rw [hsplit]; simp)
      simpa using this
    unfold query
    dsimp only
    have hr : qs[i]? = some qs[i] := by simp [hi]
    rw [rd_some hr, ok_bind]
    obtain ⟨q1, q2⟩ := hq qs[i] (by simp)
    refine Tot.bind (move_tot h h1 h2 q1 q2 h3) ?_
    intro s' hs'
    refine Tot.bind (h.eval _ _ s' q1 q2 hs') ?_
    intro x hx
    have si : i < res.size := by omega
    rw [wr_eq si, ok_bind]
    refine Tot.pure ⟨q1, q2, hs', by simpa using h4, ?_⟩
    intro j hj q hjq
    rw [Array.getElem?_setIfInBounds]
    by_cases e : i = j
    · subst e
      rw [hr] at hjq
      obtain rfl := Option.some.inj hjq
      exact ⟨x, by simp [si], hx⟩
    · rw [if_neg e]
      rcases List.mem_append.mp hj with hj | hj
      · exact h5 j hj q hjq
      · simp at hj
        exact absurd hj.symm e
  · rintro ⟨l, r, s, res⟩ ⟨h1, h2, h3, h4, h5⟩
    refine Tot.pure ⟨⟨l, r, h1, h2, h3⟩, h4, ?_⟩
    intro i q hi
    refine h5 i (hp.mem_iff.mpr ?_) q hi
    have : i < qs.size := by
      by_contra c
      rw [Array.getElem?_eq_none (by omega)] at hi
      cases hi
    simpa using this

end Mo
