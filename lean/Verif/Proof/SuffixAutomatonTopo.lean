import Verif.Model.SuffixAutomatonQuery
import Verif.Proof.SuffixAutomaton
import Mathlib.Algebra.BigOperators.Intervals
import Mathlib.Algebra.Order.BigOperators.Group.Finset
import Mathlib.Data.List.Perm.Subperm
import Mathlib.Data.List.Nodup

/-! The breadth-first order of the states is an order by length. -/

namespace SuffixAutomaton
open Cxx Spec

variable {α : Type} [DecidableEq α]

/-- Edges increase `ℓ`, and every node but the first has an edge that increases it by one. -/
structure Graded (N : Array (Node α)) (ℓ : Nat → Nat) : Prop where
  edge : ∀ u, u < N.size → ∀ p, p ∈ (at' d0 N u).nxt → p.2 < N.size ∧ ℓ u < ℓ p.2
  pred : ∀ v, v < N.size → v ≠ 0 → ∃ u, u < N.size ∧ ∃ e, (e, v) ∈ (at' d0 N u).nxt ∧ ℓ v = ℓ u + 1
  zero : ℓ 0 = 0

/-- The number of edges from `u` to `v`. -/
def mult (N : Array (Node α)) (u v : Nat) : Nat := (at' d0 N u).nxt.countP fun p => p.2 == v

/-- The number of edges to `v` from nodes outside `res`. -/
def D (N : Array (Node α)) (res : List Nat) (v : Nat) : Nat := ∑ u ∈ Finset.range N.size, if u ∈ res then 0 else mult N u v

theorem mult_pos {N : Array (Node α)} {u v : Nat} : 0 < mult N u v ↔ ∃ e, (e, v) ∈ (at' d0 N u).nxt := by
  unfold mult
  rw [List.countP_pos_iff]
  constructor
  · rintro ⟨p, hp, h⟩
    have : p.2 = v := by simpa using h
    exact ⟨p.1, by rw [← this]; exact hp⟩
  · rintro ⟨e, he⟩
    exact ⟨_, he, by simp⟩

theorem D_zero {N : Array (Node α)} {res : List Nat} {v : Nat} : D N res v = 0 ↔ ∀ u, u < N.size → u ∉ res → mult N u v = 0 := by
  unfold D
  rw [Finset.sum_eq_zero_iff]
  constructor
  · intro h u hu hr
    have := h u (Finset.mem_range.2 hu)
    rwa [if_neg hr] at this
  · intro h u hu
    split
    · rfl
    · rename_i hr; exact h u (Finset.mem_range.1 hu) hr

theorem D_snoc {N : Array (Node α)} {res : List Nat} {u v : Nat} (hu : u < N.size) (hr : u ∉ res) :
    D N (res ++ [u]) v + mult N u v = D N res v := by
  unfold D
  rw [← Finset.sum_erase_add _ _ (Finset.mem_range.2 hu), ← Finset.sum_erase_add (Finset.range N.size) (fun w => if w ∈ res then 0 else mult N w v) (Finset.mem_range.2 hu),
    if_pos (by simp), if_neg hr, Nat.add_zero]
  congr 1
  refine Finset.sum_congr rfl fun w hw => ?_
  have : w ≠ u := Finset.ne_of_mem_erase hw
  have e : (w ∈ res ++ [u]) = (w ∈ res) := by simp [this]
  simp only [e]

theorem mult_le_D {N : Array (Node α)} {res : List Nat} {u v : Nat} (hu : u < N.size) (hr : u ∉ res) : mult N u v ≤ D N res v := by
  have := D_snoc (v := v) hu hr
  omega

theorem inDegrees_tot {N : Array (Node α)} {ℓ : Nat → Nat} (h : Graded N ℓ) :
    Tot (inDegrees N) fun deg => deg.size = N.size ∧ ∀ v, v < N.size → at' 0 deg v = (D N [] v : Int) := by
  unfold inDegrees
  refine Tot.mono (Tot.forUp (P := fun i (deg : Array Int) => deg.size = N.size ∧
    ∀ v, v < N.size → at' 0 deg v = ((∑ u ∈ Finset.range i, mult N u v : Nat) : Int)) (Nat.zero_le _) ?_ ?_) ?_
  · refine ⟨by simp, fun v hv => ?_⟩
    simp [at', hv]
  · intro i deg _ hi ⟨hs, hv⟩
    rw [rd_at d0 hi, ok_bind]
    refine Tot.mono (Tot.forEach (P := fun pre (deg' : Array Int) => deg'.size = N.size ∧
      ∀ v, v < N.size → at' 0 deg' v = at' 0 deg v + ((pre.countP fun p => p.2 == v : Nat) : Int)) ?_ ?_) ?_
    · exact ⟨hs, fun v _ => by simp⟩
    · intro pre p post deg' e ⟨hs', hv'⟩
      have hp := (h.edge i hi p (by rw [e]; simp)).1
      have hp' : p.2 < deg'.size := by omega
      rw [rd_at 0 hp', ok_bind, wr_eq hp']
      refine ⟨_, rfl, by simpa using hs', fun v hvn => ?_⟩
      rw [at_set 0 hp', List.countP_append, List.countP_singleton]
      by_cases e : p.2 = v
      · rw [if_pos e, e, hv' v hvn]
        simp
        omega
      · rw [if_neg e, hv' v hvn]
        simp [e]
    · intro deg' ⟨hs', hv'⟩
      refine ⟨hs', fun v hvn => ?_⟩
      rw [hv' v hvn, hv v hvn, Finset.sum_range_succ]
      unfold mult
      push_cast; rfl
  · intro deg ⟨hs, hv⟩
    refine ⟨hs, fun v hvn => ?_⟩
    rw [hv v hvn]
    unfold D
    simp

/-- The state of the search. -/
structure TInv (N : Array (Node α)) (ℓ : Nat → Nat) (x : Array Int × List Nat × List Nat) : Prop where
  size : x.1.size = N.size
  nodup : (x.2.2 ++ x.2.1).Nodup
  lt : ∀ v, v ∈ x.2.2 ++ x.2.1 → v < N.size
  deg : ∀ v, v < N.size → at' 0 x.1 v = (D N x.2.2 v : Int)
  mem : ∀ v, v < N.size → (v ∈ x.2.2 ++ x.2.1 ↔ D N x.2.2 v = 0)
  sorted : (x.2.2 ++ x.2.1).Pairwise fun a b => ℓ a ≤ ℓ b
  near : ∀ a b, a ∈ x.2.1 → b ∈ x.2.1 → ℓ b ≤ ℓ a + 1

theorem relax_tot {N : Array (Node α)} {ℓ : Nat → Nat} (h : Graded N ℓ) {u : Nat} (hu : u < N.size) {deg : Array Int} {dq : List Nat} {res : List Nat}
    (hr : u ∉ res) (hs : deg.size = N.size) (hd : ∀ v, v < N.size → at' 0 deg v = (D N res v : Int)) :
    Tot (forEach (at' d0 N u).nxt (deg, dq) relax) fun x => x.1.size = N.size ∧
      (∀ v, v < N.size → at' 0 x.1 v = (D N (res ++ [u]) v : Int)) ∧
      ∃ new : List Nat, x.2 = dq ++ new ∧ new.Nodup ∧ ∀ v, v ∈ new ↔ v < N.size ∧ 0 < mult N u v ∧ D N (res ++ [u]) v = 0 := by
  refine Tot.mono (Tot.forEach (P := fun pre (x : Array Int × List Nat) => x.1.size = N.size ∧
      (∀ v, v < N.size → at' 0 x.1 v = (D N res v : Int) - ((pre.countP fun p => p.2 == v : Nat) : Int)) ∧
      ∃ new : List Nat, x.2 = dq ++ new ∧ new.Nodup ∧ ∀ v, v ∈ new ↔ v < N.size ∧ 0 < (pre.countP fun p => p.2 == v) ∧ D N res v = (pre.countP fun p => p.2 == v)) ?_ ?_) ?_
  · exact ⟨hs, fun v hv => by simp [hd v hv], [], by simp, List.nodup_nil, fun v => by simp⟩
  · rintro pre p post ⟨deg', dq'⟩ e ⟨hs', hd', new, e1, n1, n2⟩
    dsimp only at hs' hd' e1
    have hpm : p ∈ (at' d0 N u).nxt := by rw [e]; simp
    have hp := (h.edge u hu p hpm).1
    have hp' : p.2 < deg'.size := by omega
    have hlt : (pre.countP fun q => q.2 == p.2) < D N res p.2 := by
      refine Nat.lt_of_lt_of_le ?_ (mult_le_D hu hr)
      unfold mult
      rw [e, List.countP_append, List.countP_cons]
      simp
    have hc : ∀ v, ((pre ++ [p]).countP fun q => q.2 == v) = (pre.countP fun q => q.2 == v) + if p.2 = v then 1 else 0 := by
      intro v
      rw [List.countP_append, List.countP_singleton]
      by_cases e : p.2 = v <;> simp [e]
    have hd2 : ∀ v, v < N.size → at' 0 (deg'.setIfInBounds p.2 (at' 0 deg' p.2 - 1)) v =
        (D N res v : Int) - (((pre ++ [p]).countP fun q => q.2 == v : Nat) : Int) := by
      intro v hv
      rw [at_set 0 hp', hc v]
      by_cases e : p.2 = v
      · rw [if_pos e, if_pos e, e, hd' v hv]; push_cast; omega
      · rw [if_neg e, if_neg e, hd' v hv]; simp
    unfold relax
    dsimp only
    rw [rd_at 0 hp', ok_bind, wr_eq hp', ok_bind, rd_at 0 (by simpa using hp'), ok_bind, hd2 _ hp, hc p.2, if_pos rfl]
    split
    · rename_i e0
      refine ⟨_, rfl, by simpa using hs', hd2, new ++ [p.2], by rw [e1, List.append_assoc], ?_, fun v => ?_⟩
      · rw [List.nodup_append]
        refine ⟨n1, by simp, ?_⟩
        intro a ha b hb
        rintro rfl
        rw [List.mem_singleton] at hb
        have := (n2 a).1 ha
        rw [hb] at this
        omega
      · rw [List.mem_append, List.mem_singleton, n2, hc v]
        by_cases e : p.2 = v
        · rw [if_pos e]
          subst e
          refine ⟨fun _ => ⟨hp, by omega, by omega⟩, fun _ => Or.inr rfl⟩
        · rw [if_neg e]
          refine ⟨fun h => ?_, fun h => Or.inl h⟩
          rcases h with h | h
          · exact h
          · exact absurd h.symm e
    · rename_i e0
      refine ⟨_, rfl, by simpa using hs', hd2, new, e1, n1, fun v => ?_⟩
      rw [n2, hc v]
      by_cases e : p.2 = v
      · rw [if_pos e]
        subst e
        constructor
        · intro h; omega
        · rintro ⟨_, _, h⟩; rw [h] at e0; exact absurd (by push_cast; omega) e0
      · rw [if_neg e]; rfl
  · rintro ⟨deg', dq'⟩ ⟨hs', hd', new, e1, n1, n2⟩
    refine ⟨hs', fun v hv => ?_, new, e1, n1, fun v => ?_⟩
    · rw [hd' v hv]
      have := D_snoc (v := v) hu hr
      unfold mult at this
      omega
    · rw [n2]
      have := D_snoc (v := v) hu hr
      unfold mult at this ⊢
      constructor
      · rintro ⟨a, b, c⟩; exact ⟨a, b, by omega⟩
      · rintro ⟨a, b, c⟩; exact ⟨a, b, by omega⟩

theorem topoStep_tot {N : Array (Node α)} {ℓ : Nat → Nat} (h : Graded N ℓ) (x : Array Int × List Nat × List Nat) (hx : TInv N ℓ x) :
    Tot (topoStep N x) fun r => match r with
      | none => TInv N ℓ x ∧ x.2.1 = []
      | some y => TInv N ℓ y ∧ N.size - y.2.2.length < N.size - x.2.2.length := by
  obtain ⟨deg, dq, res⟩ := x
  cases dq with
  | nil => exact ⟨none, rfl, hx, rfl⟩
  | cons u dq =>
    obtain ⟨h1, h2, h3, h4, h5, h6, h7⟩ := hx
    dsimp only at h1 h2 h3 h4 h5 h6 h7
    have hu : u < N.size := h3 u (by simp)
    have hn := List.nodup_append.1 h2
    have hur : u ∉ res := fun hm => hn.2.2 u hm u (by simp) rfl
    unfold topoStep
    dsimp only
    rw [rd_at d0 hu, ok_bind]
    refine Tot.bind (relax_tot h hu hur h1 h4 (dq := dq)) ?_
    rintro ⟨deg', dq'⟩ ⟨g1, g2, new, g3, g4, g5⟩
    dsimp only at g1 g2 g3
    have e : (res ++ [u]) ++ (dq ++ new) = (res ++ u :: dq) ++ new := by simp
    have hD : ∀ v, D N (res ++ [u]) v + mult N u v = D N res v := fun v => D_snoc hu hur
    have hnl : ∀ v, v ∈ new → ℓ v = ℓ u + 1 := by
      intro v hv
      obtain ⟨v1, v2, v3⟩ := (g5 v).1 hv
      obtain ⟨e, he⟩ := mult_pos.1 v2
      have hlt := (h.edge u hu _ he).2
      dsimp only at hlt
      have hv0 : v ≠ 0 := by
        rintro rfl
        rw [h.zero] at hlt; omega
      obtain ⟨w, w1, e', w2, w3⟩ := h.pred v v1 hv0
      have hw : w ∈ res ++ [u] := by
        by_contra hcon
        have := D_zero.1 v3 w w1 hcon
        have := mult_pos.2 ⟨e', w2⟩
        omega
      have hwu : ℓ w ≤ ℓ u := by
        rcases List.mem_append.1 hw with hw | hw
        · exact (List.pairwise_append.1 h6).2.2 w hw u (by simp)
        · rw [List.mem_singleton] at hw; rw [hw]
      omega
    have hdq : ∀ a, a ∈ dq → ℓ u ≤ ℓ a ∧ ℓ a ≤ ℓ u + 1 := by
      intro a ha
      exact ⟨(List.pairwise_cons.1 (List.pairwise_append.1 h6).2.1).1 a ha, h7 u a (by simp) (by simp [ha])⟩
    refine ⟨_, rfl, ⟨g1, ?_, ?_, g2, ?_, ?_, ?_⟩, ?_⟩
    · dsimp only
      rw [g3, e, List.nodup_append]
      refine ⟨h2, g4, ?_⟩
      intro a ha b hb
      rintro rfl
      obtain ⟨v1, v2, v3⟩ := (g5 a).1 hb
      have := (h5 a v1).1 ha
      have := hD a
      omega
    · dsimp only
      intro v hv
      rw [g3, e, List.mem_append] at hv
      rcases hv with hv | hv
      · exact h3 v hv
      · exact ((g5 v).1 hv).1
    · dsimp only
      intro v hv
      rw [g3, e, List.mem_append, h5 v hv, g5]
      have := hD v
      constructor
      · rintro (hh | hh)
        · omega
        · exact hh.2.2
      · intro hh
        by_cases h0 : D N res v = 0
        · exact Or.inl h0
        · exact Or.inr ⟨hv, by omega, hh⟩
    · dsimp only
      rw [g3, e, List.pairwise_append]
      refine ⟨h6, ?_, ?_⟩
      · rw [List.pairwise_iff_forall_sublist]
        intro a b hab
        have ha := hnl a (hab.subset (by simp))
        have hb := hnl b (hab.subset (by simp))
        omega
      · intro a ha b hb
        rw [hnl b hb]
        rcases List.mem_append.1 ha with ha | ha
        · have := (List.pairwise_append.1 h6).2.2 a ha u (by simp)
          omega
        · exact h7 u a (by simp) ha
    · dsimp only
      intro a b ha hb
      rw [g3, List.mem_append] at ha hb
      have hA : ℓ u ≤ ℓ a := by
        rcases ha with ha | ha
        · exact (hdq a ha).1
        · have := hnl a ha; omega
      have hB : ℓ b ≤ ℓ u + 1 := by
        rcases hb with hb | hb
        · exact (hdq b hb).2
        · have := hnl b hb; omega
      omega
    · dsimp only
      have : (res ++ [u]).length ≤ N.size := by
        have hnd : (res ++ [u]).Nodup := by
          have : (res ++ [u]) ++ dq = res ++ u :: dq := by simp
          rw [← this] at h2
          exact (List.nodup_append.1 h2).1
        have := (List.subperm_of_subset hnd (l₂ := List.range N.size) (fun v hv => List.mem_range.2 (h3 v (by
          simp at hv ⊢; tauto)))).length_le
        simpa using this
      simp only [List.length_append, List.length_singleton] at this ⊢
      omega

theorem topologicalOrder_tot {st : State α} {ℓ : Nat → Nat} (h : Graded st.nodes ℓ) (rev : Bool) :
    Tot (topologicalOrder st rev) fun res => res.Perm (List.range st.nodes.size) ∧
      (if rev then res.Pairwise fun a b => ℓ b ≤ ℓ a else res.Pairwise fun a b => ℓ a ≤ ℓ b) := by
  unfold topologicalOrder
  refine Tot.bind (inDegrees_tot h) ?_
  intro deg ⟨hs, hd⟩
  refine Tot.bind (Tot.forUp (P := fun i (dq : List Nat) => dq.Nodup ∧ ∀ v, v ∈ dq ↔ v < i ∧ D st.nodes [] v = 0) (Nat.zero_le _) ?_ ?_) ?_
  · exact ⟨List.nodup_nil, fun v => by simp⟩
  · intro i dq _ hi ⟨hn, hm⟩
    rw [rd_at 0 (by omega), ok_bind, hd i hi]
    split
    · rename_i e
      refine ⟨_, rfl, ?_, fun v => ?_⟩
      · rw [List.nodup_append]
        refine ⟨hn, by simp, ?_⟩
        intro a ha b hb
        rintro rfl
        have := ((hm a).1 ha).1
        rw [List.mem_singleton] at hb
        omega
      · rw [List.mem_append, List.mem_singleton, hm]
        constructor
        · rintro (⟨a, b⟩ | rfl)
          · exact ⟨by omega, b⟩
          · exact ⟨by omega, by omega⟩
        · rintro ⟨a, b⟩
          by_cases e : v = i
          · exact Or.inr e
          · exact Or.inl ⟨by omega, b⟩
    · rename_i e
      refine ⟨_, rfl, hn, fun v => ?_⟩
      rw [hm]
      constructor
      · rintro ⟨a, b⟩; exact ⟨by omega, b⟩
      · rintro ⟨a, b⟩
        refine ⟨?_, b⟩
        by_contra hcon
        rw [show v = i by omega] at b
        omega
  intro dq ⟨hn, hm⟩
  have h0 : ∀ v, v ∈ dq → v = 0 := by
    intro v hv
    obtain ⟨v1, v2⟩ := (hm v).1 hv
    by_contra hne
    obtain ⟨u, u1, e, u2, -⟩ := h.pred v v1 hne
    have := D_zero.1 v2 u u1 (by simp)
    have := mult_pos.2 ⟨e, u2⟩
    omega
  refine Tot.bind (Tot.loop (P := TInv st.nodes ℓ) (Q := fun x => TInv st.nodes ℓ x ∧ x.2.1 = []) (fun x => st.nodes.size - x.2.2.length) ?_ ?_ ?_) ?_
  · intro x hx
    refine Tot.mono (topoStep_tot h x hx) ?_
    rintro (_ | y) hy
    · exact hy
    · exact hy
  · refine ⟨hs, by simpa using hn, ?_, hd, ?_, ?_, ?_⟩
    · intro v hv
      exact ((hm v).1 (by simpa using hv)).1
    · intro v hv
      dsimp only
      rw [List.nil_append, hm]
      exact ⟨fun h => h.2, fun h => ⟨hv, h⟩⟩
    · dsimp only
      rw [List.nil_append, List.pairwise_iff_forall_sublist]
      intro a b hab
      rw [h0 a (hab.subset (by simp)), h0 b (hab.subset (by simp))]
    · intro a b ha hb
      rw [h0 a ha, h0 b hb]; omega
  · dsimp only; omega
  rintro ⟨deg', dq', res⟩ ⟨hx, hq⟩
  obtain ⟨g1, g2, g3, g4, g5, g6, g7⟩ := hx
  dsimp only at g1 g2 g3 g4 g5 g6 g7 hq
  subst hq
  rw [List.append_nil] at g2 g3 g5 g6
  have hall : ∀ k v, ℓ v = k → v < st.nodes.size → v ∈ res := by
    intro k
    induction k using Nat.strong_induction_on with
    | _ k ih =>
      intro v hk hv
      rw [g5 v hv, D_zero]
      intro u hu hur
      by_contra hne
      obtain ⟨e, he⟩ := mult_pos.1 (Nat.pos_of_ne_zero hne)
      have := (h.edge u hu _ he).2
      dsimp only at this
      exact hur (ih (ℓ u) (by omega) u rfl hu)
  have hperm : res.Perm (List.range st.nodes.size) := by
    rw [List.perm_ext_iff_of_nodup g2 List.nodup_range]
    intro v
    rw [List.mem_range]
    exact ⟨g3 v, hall _ v rfl⟩
  have hl : res.length = st.nodes.size := by rw [hperm.length_eq, List.length_range]
  dsimp only
  cases rev with
  | false =>
    rw [if_neg (by simp), hl, decide_eq_true rfl, check_true, ok_bind]
    exact ⟨_, rfl, hperm, by simpa using g6⟩
  | true =>
    rw [if_pos rfl, List.length_reverse, hl, decide_eq_true rfl, check_true, ok_bind]
    refine ⟨_, rfl, (List.reverse_perm _).trans hperm, ?_⟩
    rw [if_pos rfl, List.pairwise_reverse]
    exact g6

end SuffixAutomaton
