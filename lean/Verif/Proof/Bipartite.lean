import Verif.Proof.GraphBasic

/-! # Proofs about `library/graph/bipartite_graph_recognition.hpp` -/

namespace Bipartite
open Cxx Graph

theorem fresh_tot (col0 col1 : BitVec 32) : Tot (loop (freshStep col0 col1) 2 2) fun c => c ≠ col0 ∧ c ≠ col1 := by
  refine Tot.loopG (P := fun k (c : BitVec 32) => (k = 2 ∧ c = 2) ∨ (k = 1 ∧ c = 3 ∧ (col0 = 2 ∨ col1 = 2)) ∨ (k = 0 ∧ c = 4 ∧ (col0 = 2 ∨ col1 = 2) ∧ (col0 = 3 ∨ col1 = 3)))
    (k := 2) ?_ (Or.inl ⟨rfl, rfl⟩) (le_refl _)
  intro k c h
  rw [freshStep]
  by_cases hc : c = col0 ∨ c = col1
  · rw [if_pos hc]
    rcases h with ⟨rfl, rfl⟩ | ⟨rfl, rfl, h⟩ | ⟨rfl, rfl, h1, h2⟩
    · refine Tot.pure ⟨1, by omega, Or.inr (Or.inl ⟨rfl, rfl, ?_⟩)⟩
      rcases hc with h | h
      · exact Or.inl h.symm
      · exact Or.inr h.symm
    · refine Tot.pure ⟨0, by omega, Or.inr (Or.inr ⟨rfl, rfl, h, ?_⟩)⟩
      rcases hc with h | h
      · exact Or.inl h.symm
      · exact Or.inr h.symm
    · exfalso
      rcases h1 with rfl | rfl <;> rcases h2 with h2 | h2
      · exact absurd h2 (by decide)
      · subst h2; rcases hc with h | h <;> exact absurd h (by decide)
      · subst h2; rcases hc with h | h <;> exact absurd h (by decide)
      · exact absurd h2 (by decide)
  · rw [if_neg hc]
    push_neg at hc
    exact Tot.pure hc

theorem flip0 (a b : BitVec 32) : a ^^^ a ^^^ b = b := by simp
theorem flip1 (a b : BitVec 32) : b ^^^ a ^^^ b = a := by rw [BitVec.xor_comm b a, BitVec.xor_assoc]; simp

variable {g : Array (List Nat)} {unc c0 c1 : BitVec 32}

/-- The loops inside a component. -/
structure Core (g : Array (List Nat)) (unc c0 c1 : BitVec 32) (i : Nat) (col0 : Array (BitVec 32)) (s : Array (BitVec 32) × List Nat) : Prop where
  size : s.1.size = g.size
  three : ∀ v, at' unc s.1 v = unc ∨ at' unc s.1 v = c0 ∨ at' unc s.1 v = c1
  old : ∀ v, at' unc col0 v ≠ unc → at' unc s.1 v = at' unc col0 v
  kappa : ∀ κ, Proper g κ → ∀ v, at' unc s.1 v ≠ unc → at' unc col0 v = unc → (κ v = κ i ↔ at' unc s.1 v = c0)
  q : ∀ v ∈ s.2, v < g.size ∧ at' unc s.1 v ≠ unc ∧ at' unc col0 v = unc
  start : at' unc s.1 i ≠ unc

/-- The vertex is coloured and its neighbours have the other colour. -/
def Done (g : Array (List Nat)) (unc : BitVec 32) (a : Array (BitVec 32)) (u v : Nat) : Prop := at' unc a v ≠ unc ∧ at' unc a v ≠ at' unc a u

theorem look_tot (hg : Valid g) (h0 : unc ≠ c0) (h1 : unc ≠ c1) (h01 : c0 ≠ c1) {i : Nat} {col0 : Array (BitVec 32)} {s : Array (BitVec 32) × List Nat}
    (h : Core g unc c0 c1 i col0 s) {u v : Nat} (he : E g u v) (hu : at' unc s.1 u ≠ unc) (hu0 : at' unc col0 u = unc) (hv0 : at' unc col0 v = unc) :
    Tot (look unc c0 c1 u v s) fun t => match t with
      | none => ¬ ∃ κ, Proper g κ
      | some t => Core g unc c0 c1 i col0 t ∧ Done g unc t.1 u v ∧ (∀ w, at' unc s.1 w ≠ unc → at' unc t.1 w = at' unc s.1 w) ∧ (∀ w ∈ s.2, w ∈ t.2) ∧
          (∀ w, at' unc t.1 w ≠ unc → at' unc s.1 w ≠ unc ∨ w ∈ t.2) ∧ t.2.length + unset unc t.1 = s.2.length + unset unc s.1 := by
  obtain ⟨a, q⟩ := s
  have hv := hg _ _ he
  have hul := he.lt
  have hsz := h.size
  dsimp only at hsz hu
  rw [look]
  dsimp only
  rw [rd_at unc (by omega), ok_bind, rd_at unc (by omega), ok_bind]
  have hcu := (h.three u).resolve_left hu
  dsimp only at hcu
  obtain ⟨y, hy⟩ : ∃ y, y = at' unc a u ^^^ c0 ^^^ c1 := ⟨_, rfl⟩
  have hy2 : (at' unc a u = c0 ∧ y = c1) ∨ (at' unc a u = c1 ∧ y = c0) := by
    rcases hcu with e | e
    · exact Or.inl ⟨e, by rw [hy, e, flip0]⟩
    · exact Or.inr ⟨e, by rw [hy, e, flip1]⟩
  by_cases hcv : at' unc a v = unc
  · have huv : u ≠ v := fun e => hu (by rw [e]; exact hcv)
    rw [if_pos hcv, ← hy, wr_eq (by omega), ok_bind]
    have hyu : y ≠ unc := by rcases hy2 with ⟨_, e⟩ | ⟨_, e⟩ <;> rw [e] <;> first | exact h0.symm | exact h1.symm
    have hset : ∀ w, at' unc (a.setIfInBounds v y) w = if w = v then y else at' unc a w := fun w => at_set' unc (show v < a.size by omega) y w
    refine Tot.pure ⟨⟨by simpa using hsz, fun w => ?_, fun w hw => ?_, ?_, ?_, ?_⟩, ⟨?_, ?_⟩, fun w hw => ?_, fun w hw => by simp [hw], fun w hw => ?_, ?_⟩
    · dsimp only
      rw [hset]
      split
      · right
        rcases hy2 with ⟨_, e⟩ | ⟨_, e⟩
        · exact Or.inr e
        · exact Or.inl e
      · exact h.three w
    · dsimp only
      rw [hset]
      split
      · rename_i e
        subst e
        exact absurd hv0 hw
      · exact h.old w hw
    · intro κ hκ w hw hw0
      dsimp only at hw ⊢
      rw [hset] at hw ⊢
      by_cases ewv : w = v
      · rw [if_pos ewv, ewv]
        have hk := h.kappa κ hκ u hu hu0
        dsimp only at hk
        have hne := hκ u v he
        rcases hy2 with ⟨e1, e2⟩ | ⟨e1, e2⟩
        · rw [e1] at hk
          have := hk.2 rfl
          rw [e2]
          constructor
          · intro e
            exact absurd (this.trans e.symm) hne
          · intro e
            exact absurd e.symm h01
        · rw [e1] at hk
          have hk' : κ u ≠ κ i := fun e => absurd (hk.1 e).symm h01
          rw [e2]
          refine ⟨fun _ => rfl, fun _ => ?_⟩
          revert hne hk'
          cases κ u <;> cases κ v <;> cases κ i <;> simp
      · rw [if_neg ewv] at hw ⊢
        exact h.kappa κ hκ w hw hw0
    · intro w hw
      simp only [List.mem_append, List.mem_singleton] at hw
      dsimp only
      rw [hset]
      rcases hw with hw | rfl
      · obtain ⟨g1, g2, g3⟩ := h.q w hw
        refine ⟨g1, ?_, g3⟩
        split
        · exact hyu
        · exact g2
      · rw [if_pos rfl]
        exact ⟨hv, hyu, hv0⟩
    · dsimp only
      rw [hset]
      split
      · exact hyu
      · exact h.start
    · rw [hset, if_pos rfl]
      exact hyu
    · rw [hset, hset, if_pos rfl, if_neg huv]
      rcases hy2 with ⟨e1, e2⟩ | ⟨e1, e2⟩
      · rw [e1, e2]; exact h01.symm
      · rw [e1, e2]; exact h01
    · dsimp only at hw ⊢
      have hwv : w ≠ v := fun e => hw (by rw [e]; exact hcv)
      rw [hset, if_neg hwv]
    · dsimp only at hw ⊢
      rw [hset] at hw
      by_cases ewv : w = v
      · right
        simp [ewv]
      · rw [if_neg ewv] at hw
        exact Or.inl hw
    · have := unset_set (show v < a.size by omega) hcv hyu
      dsimp only
      rw [List.length_append, List.length_singleton]
      omega
  · rw [if_neg hcv]
    by_cases hcc : at' unc a v = at' unc a u
    · rw [if_pos hcc]
      refine Tot.pure ?_
      rintro ⟨κ, hκ⟩
      have hk1 := h.kappa κ hκ u hu hu0
      have hk2 := h.kappa κ hκ v hcv hv0
      dsimp only at hk1 hk2
      have hne := hκ u v he
      rw [hcc] at hk2
      have hk : κ v = κ i ↔ κ u = κ i := hk2.trans hk1.symm
      revert hne hk
      cases κ u <;> cases κ v <;> cases κ i <;> simp
    · rw [if_neg hcc]
      exact Tot.pure ⟨h, ⟨hcv, hcc⟩, fun _ _ => rfl, fun _ hw => hw, fun w hw => Or.inl hw, rfl⟩

theorem Done.mono {a b : Array (BitVec 32)} (hab : ∀ w, at' unc a w ≠ unc → at' unc b w = at' unc a w) {u v : Nat} (hu : at' unc a u ≠ unc) (h : Done g unc a u v) : Done g unc b u v := by
  refine ⟨?_, ?_⟩
  · rw [hab v h.1]; exact h.1
  · rw [hab v h.1, hab u hu]; exact h.2

/-- The loop over the neighbours. -/
theorem looks_tot (hg : Valid g) (h0 : unc ≠ c0) (h1 : unc ≠ c1) (h01 : c0 ≠ c1) {i : Nat} {col0 a : Array (BitVec 32)} {q : List Nat} {u : Nat}
    (h : Core g unc c0 c1 i col0 (a, q)) (hu : at' unc a u ≠ unc) (hu0 : at' unc col0 u = unc) (hn : ∀ v, E g u v → at' unc col0 v = unc)
    (hd : ∀ w, at' unc a w ≠ unc → at' unc col0 w = unc → w ∉ q → w ≠ u → ∀ v, E g w v → Done g unc a w v) :
    Tot (forEach (adj g u) (some (a, q)) (lookStep unc c0 c1 u)) fun t => match t with
      | none => ¬ ∃ κ, Proper g κ
      | some t => Core g unc c0 c1 i col0 t ∧ (∀ w, at' unc t.1 w ≠ unc → at' unc col0 w = unc → w ∉ t.2 → ∀ v, E g w v → Done g unc t.1 w v) ∧
          t.2.length + unset unc t.1 = q.length + unset unc a := by
  refine (Tot.forEach (P := fun pre (t : Option (Array (BitVec 32) × List Nat)) => match t with
      | none => ¬ ∃ κ, Proper g κ
      | some t => Core g unc c0 c1 i col0 t ∧ at' unc t.1 u ≠ unc ∧ (∀ w, at' unc t.1 w ≠ unc → at' unc col0 w = unc → w ∉ t.2 → w ≠ u → ∀ v, E g w v → Done g unc t.1 w v) ∧
          (∀ v ∈ pre, Done g unc t.1 u v) ∧ t.2.length + unset unc t.1 = q.length + unset unc a) (show _ ∧ _ from ⟨h, hu, hd, by simp, rfl⟩) ?_).mono ?_
  · rintro pre v post s he hs
    cases s with
    | none => exact Tot.pure hs
    | some s =>
      obtain ⟨k1, k2, k3, k4, k5⟩ := hs
      have hev : E g u v := by rw [E, he]; simp
      rw [lookStep]
      refine (look_tot hg h0 h1 h01 k1 hev k2 hu0 (hn v hev)).mono ?_
      rintro t ht
      cases t with
      | none => exact ht
      | some t =>
        obtain ⟨j1, j2, j3, j4, j5, j6⟩ := ht
        refine ⟨j1, by rw [j3 u k2]; exact k2, ?_, ?_, by omega⟩
        · intro w hw hw0 hwq hwu x hx
          have hws := (j5 w hw).resolve_right hwq
          exact Done.mono j3 hws (k3 w hws hw0 (fun hm => hwq (j4 w hm)) hwu x hx)
        · intro x hx
          simp only [List.mem_append, List.mem_singleton] at hx
          rcases hx with hx | rfl
          · exact Done.mono j3 k2 (k4 x hx)
          · exact j2
  · rintro t ht
    cases t with
    | none => exact ht
    | some t =>
      obtain ⟨k1, k2, k3, k4, k5⟩ := ht
      refine ⟨k1, fun w hw hw0 hwq x hx => ?_, k5⟩
      by_cases hwu : w = u
      · subst hwu
        exact k4 x hx
      · exact k3 w hw hw0 hwq hwu x hx

/-- Between components: coloured vertices are finished. -/
structure Inv (g : Array (List Nat)) (unc c0 c1 : BitVec 32) (a : Array (BitVec 32)) : Prop where
  size : a.size = g.size
  three : ∀ v, at' unc a v = unc ∨ at' unc a v = c0 ∨ at' unc a v = c1
  done : ∀ u, at' unc a u ≠ unc → ∀ v, E g u v → Done g unc a u v

theorem component_tot (hg : Valid g) (hsym : ∀ u v, E g u v → E g v u) (h0 : unc ≠ c0) (h1 : unc ≠ c1) (h01 : c0 ≠ c1) {a : Array (BitVec 32)} (h : Inv g unc c0 c1 a)
    {i : Nat} (hi : i < g.size) (hai : at' unc a i = unc) :
    Tot (component g unc c0 c1 i a) fun t => match t with
      | none => ¬ ∃ κ, Proper g κ
      | some b => Inv g unc c0 c1 b ∧ at' unc b i ≠ unc ∧ ∀ v, at' unc a v ≠ unc → at' unc b v ≠ unc := by
  have hsz := h.size
  have hset : ∀ w, at' unc (a.setIfInBounds i c0) w = if w = i then c0 else at' unc a w := fun w => at_set' unc (show i < a.size by omega) c0 w
  have hnew : ∀ u v, at' unc a u = unc → E g u v → at' unc a v = unc := by
    intro u v hu huv
    by_contra hv
    exact (h.done v hv u (hsym _ _ huv)).1 hu
  rw [component, wr_eq (by omega), ok_bind]
  refine Tot.bind (P := fun (r : Option (Array (BitVec 32) × List Nat)) => match r with
      | none => ¬ ∃ κ, Proper g κ
      | some t => Core g unc c0 c1 i a t ∧ (∀ w, at' unc t.1 w ≠ unc → at' unc a w = unc → ∀ v, E g w v → Done g unc t.1 w v)) ?_ ?_
  · refine Tot.loopG (P := fun k (r : Option (Array (BitVec 32) × List Nat)) => match r with
      | none => ¬ ∃ κ, Proper g κ
      | some t => Core g unc c0 c1 i a t ∧ (∀ w, at' unc t.1 w ≠ unc → at' unc a w = unc → w ∉ t.2 → ∀ v, E g w v → Done g unc t.1 w v) ∧ k = t.2.length + unset unc t.1)
      (k := 1 + unset unc (a.setIfInBounds i c0)) ?_ ⟨⟨by simpa using hsz, fun v => ?_, fun v hv => ?_, ?_, ?_, ?_⟩, ?_, rfl⟩ ?_
    · rintro k (_ | ⟨b, q⟩) hr
      · exact Tot.pure hr
      · obtain ⟨k1, k2, k3⟩ := hr
        cases q with
        | nil =>
          rw [bfsStep]
          exact Tot.pure ⟨k1, fun w hw hw0 => k2 w hw hw0 (by simp)⟩
        | cons u q =>
          rw [bfsStep]
          obtain ⟨hu, hub, hua⟩ := k1.q u (by simp)
          rw [rd_some (adj_eq hu), ok_bind]
          have hcore : Core g unc c0 c1 i a (b, q) := ⟨k1.size, k1.three, k1.old, k1.kappa, fun v hv => k1.q v (List.mem_cons_of_mem _ hv), k1.start⟩
          refine Tot.bind (looks_tot hg h0 h1 h01 hcore hub hua (fun v hv => hnew u v hua hv) ?_) ?_
          · intro w hw hw0 hwq hwu
            exact k2 w hw hw0 (by simp [hwq, hwu])
          · rintro (_ | t) ht
            · exact Tot.pure ⟨0, by rw [k3]; simp, ht⟩
            · obtain ⟨j1, j2, j3⟩ := ht
              refine Tot.pure ⟨_, ?_, j1, j2, rfl⟩
              rw [k3]
              dsimp only
              rw [List.length_cons]
              omega
    · dsimp only
      rw [hset]
      split
      · exact Or.inr (Or.inl rfl)
      · exact h.three v
    · dsimp only
      rw [hset]
      split
      · rename_i e
        subst e
        exact absurd hai hv
      · rfl
    · intro κ hκ v hv hv0
      dsimp only at hv ⊢
      rw [hset] at hv ⊢
      by_cases e : v = i
      · rw [if_pos e, e]
        simp
      · rw [if_neg e] at hv
        exact absurd hv0 hv
    · intro v hv
      simp only [List.mem_singleton] at hv
      subst hv
      dsimp only
      rw [hset, if_pos rfl]
      exact ⟨hi, h0.symm, hai⟩
    · dsimp only
      rw [hset, if_pos rfl]
      exact h0.symm
    · intro w hw hw0 hwq
      dsimp only at hw hwq
      have hwi : w ≠ i := by simpa using hwq
      rw [hset, if_neg hwi] at hw
      exact absurd hw0 hw
    · have := unset_le unc (a.setIfInBounds i c0)
      rw [Array.size_setIfInBounds] at this
      omega
  · rintro (_ | ⟨b, q⟩) hr
    · exact Tot.pure hr
    · obtain ⟨k1, k2⟩ := hr
      refine Tot.pure ⟨⟨k1.size, k1.three, fun u hu v hv => ?_⟩, k1.start, fun v hv => ?_⟩
      · dsimp only at hu ⊢
        by_cases hua : at' unc a u = unc
        · exact k2 u hu hua v hv
        · have hd := h.done u hua v hv
          have e1 := k1.old u hua
          have e2 := k1.old v hd.1
          dsimp only at e1 e2
          refine ⟨?_, ?_⟩
          · rw [e2]; exact hd.1
          · rw [e1, e2]; exact hd.2
      · have := k1.old v hv
        dsimp only at this ⊢
        rw [this]
        exact hv

theorem coloring_tot (hg : Valid g) (hsym : ∀ u v, E g u v → E g v u) (h01 : c0 ≠ c1) :
    Tot (coloring g c0 c1) fun r => match r with
      | none => ¬ ∃ κ, Proper g κ
      | some a => a.size = g.size ∧ (∀ v < g.size, a[v]? = some c0 ∨ a[v]? = some c1) ∧ ∀ u v, E g u v → a[u]? ≠ a[v]? := by
  rw [coloring]
  refine Tot.bind (fresh_tot c0 c1) ?_
  rintro unc ⟨h0, h1⟩
  have hrep : ∀ v, at' unc (Array.replicate g.size unc) v = unc := by
    intro v
    by_cases h : v < g.size <;> simp [at', h]
  refine (Tot.forUp (P := fun i (r : Option (Array (BitVec 32))) => match r with
      | none => ¬ ∃ κ, Proper g κ
      | some a => Inv g unc c0 c1 a ∧ ∀ j < i, at' unc a j ≠ unc) (Nat.zero_le _) (show _ ∧ _ from ⟨⟨by simp, fun v => Or.inl (hrep v), fun v hv => absurd (hrep v) hv⟩, by simp⟩) ?_).mono ?_
  · rintro i (_ | a) - hi hr
    · exact Tot.pure hr
    · obtain ⟨k1, k2⟩ := hr
      have hsz := k1.size
      rw [outer]
      rw [rd_at unc (by omega), ok_bind]
      by_cases hc : at' unc a i ≠ unc
      · rw [if_pos hc]
        refine Tot.pure ⟨k1, fun j hj => ?_⟩
        by_cases hji : j = i
        · subst hji; exact hc
        · exact k2 j (by omega)
      · rw [if_neg hc]
        push_neg at hc
        refine (component_tot hg hsym h0 h1 h01 k1 hi hc).mono ?_
        rintro (_ | b) ht
        · exact ht
        · obtain ⟨j1, j2, j3⟩ := ht
          refine ⟨j1, fun j hj => ?_⟩
          by_cases hji : j = i
          · subst hji; exact j2
          · exact j3 j (k2 j (by omega))
  · rintro (_ | a) hr
    · exact hr
    · obtain ⟨k1, k2⟩ := hr
      have hget : ∀ v < g.size, a[v]? = some (at' unc a v) := by
        intro v hv
        rw [at', Array.getElem?_eq_getElem (by rw [k1.size]; exact hv)]
        rfl
      refine ⟨k1.size, fun v hv => ?_, fun u v he => ?_⟩
      · rw [hget v hv]
        rcases (k1.three v).resolve_left (k2 v hv) with e | e
        · left; rw [e]
        · right; rw [e]
      · rw [hget u he.lt, hget v (hg _ _ he)]
        intro e
        exact (k1.done u (k2 u he.lt) v he).2 (Option.some.inj e).symm

end Bipartite
