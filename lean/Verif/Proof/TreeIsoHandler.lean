import Verif.Model.TreeIso
import Verif.Proof.ForestIso

/-! # The identifier handler -/

namespace TreeIso
open Cxx Graph Tree

/-- The default node. -/
abbrev nd0 : Node := ⟨[], none⟩

/-- `lab` gives the key of each node. -/
structure TInv (nodes : Array Node) (lab : Nat → List Nat) : Prop where
  pos : 0 < nodes.size
  root : lab 0 = []
  inj : ∀ i j, i < nodes.size → j < nodes.size → lab i = lab j → i = j
  edge : ∀ i c j, i < nodes.size → ((at' nd0 nodes i).next.lookup c = some j ↔ j < nodes.size ∧ lab j = lab i ++ [c])
  closed : ∀ j l c, j < nodes.size → lab j = l ++ [c] → ∃ i, i < nodes.size ∧ lab i = l

/-- The nodes only grow. -/
structure TExt (a : Array Node) (la : Nat → List Nat) (b : Array Node) (lb : Nat → List Nat) : Prop where
  size : a.size ≤ b.size
  lab : ∀ i, i < a.size → lb i = la i
  id : ∀ i, i < a.size → (at' nd0 b i).id = (at' nd0 a i).id
  fresh : ∀ i, a.size ≤ i → (at' nd0 b i).id = none

theorem node_ge {a : Array Node} {i : Nat} (h : a.size ≤ i) : at' nd0 a i = nd0 := by simp [at', h]

theorem TExt.refl {a : Array Node} {la : Nat → List Nat} : TExt a la a la := ⟨le_refl _, fun _ _ => rfl, fun _ _ => rfl, fun i hi => by rw [node_ge hi]⟩

theorem TExt.trans {a b c : Array Node} {la lb lc : Nat → List Nat} (h1 : TExt a la b lb) (h2 : TExt b lb c lc) : TExt a la c lc := by
  have s1 := h1.size
  have s2 := h2.size
  refine ⟨by omega, fun i hi => by rw [h2.lab i (by omega), h1.lab i hi], fun i hi => by rw [h2.id i (by omega), h1.id i hi], fun i hi => ?_⟩
  by_cases hb : i < b.size
  · rw [h2.id i hb, h1.fresh i hi]
  · exact h2.fresh i (by omega)

theorem addStep_tot {nodes : Array Node} {lab : Nat → List Nat} (h : TInv nodes lab) {i : Nat} (hi : i < nodes.size) (c : Nat) :
    Tot (addStep (nodes, i) c) fun t => ∃ lab', TInv t.1 lab' ∧ t.2 < t.1.size ∧ lab' t.2 = lab i ++ [c] ∧ TExt nodes lab t.1 lab' := by
  unfold addStep
  dsimp only
  rw [rd_at nd0 hi, ok_bind]
  cases he : (at' nd0 nodes i).next.lookup c with
  | some j =>
    obtain ⟨h1, h2⟩ := (h.edge i c j hi).1 he
    exact Tot.pure ⟨lab, h, h1, h2, .refl⟩
  | none =>
    dsimp only
    rw [wr_eq hi, ok_bind]
    have hno : ∀ j, j < nodes.size → lab j ≠ lab i ++ [c] := fun j hj e => by
      have := (h.edge i c j hi).2 ⟨hj, e⟩
      rw [he] at this
      cases this
    obtain ⟨lab', hlab⟩ : ∃ lab' : Nat → List Nat, lab' = fun x => if x = nodes.size then lab i ++ [c] else lab x := ⟨_, rfl⟩
    have l1 : lab' nodes.size = lab i ++ [c] := by rw [hlab]; simp
    have l2 : ∀ x, x < nodes.size → lab' x = lab x := fun x hx => by rw [hlab]; simp [show x ≠ nodes.size by omega]
    obtain ⟨b, hb⟩ : ∃ b, b = (nodes.setIfInBounds i ⟨(c, nodes.size) :: (at' nd0 nodes i).next, (at' nd0 nodes i).id⟩).push nd0 := ⟨_, rfl⟩
    have bs : b.size = nodes.size + 1 := by rw [hb]; simp
    have b1 : at' nd0 b nodes.size = nd0 := by rw [hb]; simp only [at', Array.getElem?_push, Array.size_setIfInBounds]; rw [if_pos trivial]; rfl
    have b2 : ∀ x, x < nodes.size → at' nd0 b x = if x = i then (⟨(c, nodes.size) :: (at' nd0 nodes i).next, (at' nd0 nodes i).id⟩ : Node) else at' nd0 nodes x := fun x hx => by
      rw [← at_set' nd0 hi, hb]
      simp only [at', Array.getElem?_push, Array.size_setIfInBounds]
      rw [if_neg (by omega)]
    rw [← hb]
    refine Tot.pure ⟨lab', ⟨by dsimp only; omega, by rw [l2 0 h.pos, h.root], fun x y hx hy e => ?_, fun x d j hx => ?_, fun j l d hj e => ?_⟩, by dsimp only; omega, l1, ⟨by dsimp only; omega, fun x hx => l2 x hx, fun x hx => ?_, fun x hx => ?_⟩⟩
    · dsimp only at hx hy
      by_cases h1 : x = nodes.size
      · by_cases h2 : y = nodes.size
        · rw [h1, h2]
        · rw [h1, l1, l2 y (by omega)] at e
          exact absurd e.symm (hno y (by omega))
      · by_cases h2 : y = nodes.size
        · rw [h2, l1, l2 x (by omega)] at e
          exact absurd e (hno x (by omega))
        · rw [l2 x (by omega), l2 y (by omega)] at e
          exact h.inj x y (by omega) (by omega) e
    · dsimp only at hx ⊢
      rw [bs] at hx
      by_cases h1 : x = nodes.size
      · rw [h1, b1, l1]
        constructor
        · intro h2; cases h2
        · rintro ⟨h2, h3⟩
          exfalso
          by_cases h4 : j = nodes.size
          · rw [h4, l1] at h3
            have := congrArg List.length h3
            simp at this
          · rw [l2 j (by omega)] at h3
            obtain ⟨i', h5, h6⟩ := h.closed j _ _ (by omega) h3
            exact hno i' h5 h6
      · have hx' : x < nodes.size := by omega
        rw [b2 x hx', l2 x hx']
        by_cases h2 : x = i
        · rw [if_pos h2, h2]
          show List.lookup d ((c, nodes.size) :: (at' nd0 nodes i).next) = some j ↔ _
          rw [List.lookup_cons]
          by_cases h3 : d = c
          · subst h3
            rw [beq_self_eq_true]
            dsimp only
            constructor
            · intro h4; injection h4 with h4; subst h4; exact ⟨by omega, l1⟩
            · rintro ⟨h4, h5⟩
              by_cases h6 : j = nodes.size
              · rw [h6]
              · rw [l2 j (by omega)] at h5
                exact absurd h5 (hno j (by omega))
          · rw [show (d == c) = false by simpa using h3]
            dsimp only
            rw [h.edge i d j hi]
            constructor
            · rintro ⟨h4, h5⟩; exact ⟨by omega, by rw [l2 j h4]; exact h5⟩
            · rintro ⟨h4, h5⟩
              by_cases h6 : j = nodes.size
              · rw [h6, l1] at h5
                have := (List.append_inj' h5 rfl).2
                simp at this
                exact absurd this.symm h3
              · rw [l2 j (by omega)] at h5
                exact ⟨by omega, h5⟩
        · rw [if_neg h2, h.edge x d j hx']
          constructor
          · rintro ⟨h4, h5⟩; exact ⟨by omega, by rw [l2 j h4]; exact h5⟩
          · rintro ⟨h4, h5⟩
            by_cases h6 : j = nodes.size
            · rw [h6, l1] at h5
              have := (List.append_inj' h5 rfl).1
              exact absurd (h.inj _ _ hi hx' this).symm h2
            · rw [l2 j (by omega)] at h5
              exact ⟨by omega, h5⟩
    · dsimp only at hj ⊢
      by_cases h1 : j = nodes.size
      · rw [h1, l1] at e
        have := (List.append_inj' e rfl).1
        exact ⟨i, by omega, by rw [l2 i hi, this]⟩
      · rw [l2 j (by omega)] at e
        obtain ⟨i', h2, h3⟩ := h.closed j l d (by omega) e
        exact ⟨i', by omega, by rw [l2 i' h2, h3]⟩
    · dsimp only
      rw [b2 x hx]
      split
      · rename_i h1; rw [h1]
      · rfl
    · dsimp only
      by_cases h1 : x = nodes.size
      · rw [h1, b1]
      · rw [node_ge (by omega)]

theorem trieAdd_tot {nodes : Array Node} {lab : Nat → List Nat} (h : TInv nodes lab) (key : List Nat) :
    Tot (trieAdd nodes key) fun t => ∃ lab', TInv t.1 lab' ∧ t.2 < t.1.size ∧ lab' t.2 = key ∧ TExt nodes lab t.1 lab' := by
  unfold trieAdd
  refine Tot.forEach (P := fun pre (s : Array Node × Nat) => ∃ lab', TInv s.1 lab' ∧ s.2 < s.1.size ∧ lab' s.2 = pre ∧ TExt nodes lab s.1 lab') ⟨lab, h, h.pos, h.root, .refl⟩ ?_
  rintro pre c post ⟨a, i⟩ - ⟨lab', h1, h2, h3, h4⟩
  refine (addStep_tot h1 h2 c).mono ?_
  rintro t ⟨lab'', k1, k2, k3, k4⟩
  exact ⟨lab'', k1, k2, by rw [k3]; dsimp only at h3; rw [h3], h4.trans k4⟩

/-- The handler knows the identifier `i` of the sorted key `k`. -/
def Knows (h : Handler) (lab : Nat → List Nat) (k : List Nat) (i : Nat) : Prop :=
  (∃ c, k = [c] ∧ at' none h.mp1 c = some i) ∨ (k.length ≠ 1 ∧ ∃ j, j < h.nodes.size ∧ lab j = k ∧ (at' nd0 h.nodes j).id = some i)

/-- The handler represents the map `H` from keys to identifiers. -/
structure Abs (h : Handler) (H : List Nat → Option Nat) : Prop where
  rep : ∃ lab, TInv h.nodes lab ∧ ∀ k i, H k = some i ↔ Knows h lab k i
  inj : ∀ k k' i, H k = some i → H k' = some i → k = k'
  lt : ∀ k i, H k = some i → i < h.nextId

theorem Abs.fresh : Abs Handler.fresh fun _ => none := by
  refine ⟨⟨fun _ => [], ⟨by decide, rfl, fun i j hi hj _ => ?_, fun i c j hi => ?_, fun j l c _ e => ?_⟩, fun k i => ?_⟩, (fun k k' i h => by cases h), (fun k i h => by cases h)⟩
  · have : Handler.fresh.nodes.size = 1 := rfl
    omega
  · have : Handler.fresh.nodes.size = 1 := rfl
    have : i = 0 := by omega
    subst this
    have e : at' nd0 Handler.fresh.nodes 0 = nd0 := rfl
    rw [e]
    constructor
    · intro h; cases h
    · rintro ⟨-, h⟩; simp at h
  · simp at e
  · constructor
    · intro h; cases h
    · rintro (⟨c, -, h⟩ | ⟨-, j, hj, -, h⟩)
      · simp [at', Handler.fresh] at h
      · have : Handler.fresh.nodes.size = 1 := rfl
        have : j = 0 := by omega
        subst this
        cases h

theorem at_ensure (a : Array (Option Nat)) (c x : Nat) : at' none (ensure a c) x = at' none a x := by
  unfold ensure
  split
  · by_cases hx : x < a.size
    · simp [at', Array.getElem?_append, hx]
    · rw [show at' none a x = none by simp [at', show a.size ≤ x by omega]]
      simp only [at', Array.getElem?_append, hx, if_false]
      by_cases h2 : x - a.size < c + 1 - a.size
      · simp [h2]
      · rw [Array.getElem?_eq_none (by simpa using h2)]; rfl
  · rfl

theorem ensure_size (a : Array (Option Nat)) (c : Nat) : c < (ensure a c).size := by
  unfold ensure
  split
  · simp; omega
  · omega

/-- What a call of `get_id` guarantees. -/
def Got (H : List Nat → Option Nat) (key : List Nat) (r : Handler × Nat) : Prop := ∃ H', Abs r.1 H' ∧ H' (srt key) = some r.2 ∧ ∀ k j, H k = some j → H' k = some j

theorem update_inj {H : List Nat → Option Nat} {n : Nat} (h1 : ∀ k k' i, H k = some i → H k' = some i → k = k') (h2 : ∀ k i, H k = some i → i < n) (key : List Nat) :
    ∀ k k' i, Function.update H key (some n) k = some i → Function.update H key (some n) k' = some i → k = k' := by
  intro k k' i a b
  by_cases e : k = key
  · by_cases e' : k' = key
    · rw [e, e']
    · rw [e, Function.update_self] at a
      rw [Function.update_of_ne e'] at b
      have := h2 _ _ b
      injection a with a
      omega
  · rw [Function.update_of_ne e] at a
    by_cases e' : k' = key
    · rw [e', Function.update_self] at b
      have := h2 _ _ a
      injection b with b
      omega
    · rw [Function.update_of_ne e'] at b
      exact h1 _ _ _ a b

theorem update_lt {H : List Nat → Option Nat} {n : Nat} (h2 : ∀ k i, H k = some i → i < n) (key : List Nat) :
    ∀ k i, Function.update H key (some n) k = some i → i < n + 1 := by
  intro k i a
  by_cases e : k = key
  · rw [e, Function.update_self] at a
    injection a with a
    omega
  · rw [Function.update_of_ne e] at a
    have := h2 _ _ a
    omega

theorem getId1_tot {h : Handler} {H : List Nat → Option Nat} (hA : Abs h H) (c : Nat) : Tot (getId1 h [c]) (Got H [c]) := by
  have hs : srt [c] = [c] := rfl
  obtain ⟨lab, hT, hK⟩ := hA.rep
  have he := ensure_size h.mp1 c
  unfold getId1
  rw [show ([c] : List Nat).toArray = #[c] from rfl, show rd #[c] 0 = .ok c from rfl, ok_bind]
  dsimp only
  rw [rd_at none he, ok_bind, at_ensure]
  unfold pick1
  have hnew : ∀ k i, Knows { h with mp1 := ensure h.mp1 c } lab k i ↔ Knows h lab k i := fun k i => by
    unfold Knows
    simp only [at_ensure]
  cases ho : at' none h.mp1 c with
  | some i =>
    dsimp only
    refine Tot.pure ⟨H, ⟨⟨lab, hT, fun k j => by rw [hK, hnew]⟩, hA.inj, hA.lt⟩, ?_, fun k j hk => hk⟩
    dsimp only
    rw [hs, hK]
    exact Or.inl ⟨c, rfl, ho⟩
  | none =>
    dsimp only
    rw [wr_eq he, ok_bind]
    refine Tot.pure ⟨Function.update H [c] (some h.nextId), ⟨⟨lab, hT, fun k i => ?_⟩, update_inj hA.inj hA.lt _, update_lt hA.lt _⟩, by rw [hs, Function.update_self], fun k j hk => ?_⟩
    · have e : ∀ x, at' none ((ensure h.mp1 c).setIfInBounds c (some h.nextId)) x = if x = c then some h.nextId else at' none h.mp1 x := fun x => by rw [at_set' none he, at_ensure]
      by_cases hk : k = [c]
      · subst hk
        rw [Function.update_self]
        constructor
        · intro h1
          refine Or.inl ⟨c, rfl, ?_⟩
          dsimp only
          rw [e, if_pos rfl]; exact h1
        · rintro (⟨c', h1, h2⟩ | ⟨h1, -⟩)
          · injection h1 with h1
            subst h1
            dsimp only at h2
            rw [e, if_pos rfl] at h2; exact h2
          · exact absurd rfl h1
      · rw [Function.update_of_ne hk, hK]
        constructor
        · rintro (⟨c', h1, h2⟩ | h2)
          · refine Or.inl ⟨c', h1, ?_⟩
            dsimp only
            rw [e, if_neg (by rintro rfl; exact hk h1)]; exact h2
          · exact Or.inr h2
        · rintro (⟨c', h1, h2⟩ | h2)
          · refine Or.inl ⟨c', h1, ?_⟩
            dsimp only at h2
            rw [e, if_neg (by rintro rfl; exact hk h1)] at h2; exact h2
          · exact Or.inr h2
    · have : k ≠ [c] := by
        rintro rfl
        rw [hK] at hk
        rcases hk with ⟨c', h1, h2⟩ | ⟨h1, -⟩
        · injection h1 with h1
          subst h1
          rw [ho] at h2
          cases h2
        · exact h1 rfl
      rw [Function.update_of_ne this]; exact hk

theorem getId2_tot {h : Handler} {H : List Nat → Option Nat} (hA : Abs h H) {key : List Nat} (hl : key.length ≠ 1) : Tot (getId2 h key) (Got H key) := by
  obtain ⟨lab, hT, hK⟩ := hA.rep
  unfold getId2
  refine Tot.bind (trieAdd_tot hT (key.insertionSort (· ≤ ·))) ?_
  rintro ⟨b, j⟩ ⟨lab', k1, k2, k3, k4⟩
  dsimp only at k1 k2 k3 k4 ⊢
  have k3' : lab' j = srt key := k3
  have hsl : (srt key).length ≠ 1 := by rw [srt_length]; exact hl
  rw [rd_at nd0 k2, ok_bind]
  have s4 := k4.size
  have hnew : ∀ k i, Knows { h with nodes := b } lab' k i ↔ Knows h lab k i := fun k i => by
    unfold Knows
    dsimp only
    refine or_congr Iff.rfl (and_congr Iff.rfl ⟨?_, ?_⟩)
    · rintro ⟨x, h1, h2, h3⟩
      have hx : x < h.nodes.size := by
        by_contra hc
        rw [k4.fresh x (by omega)] at h3
        cases h3
      exact ⟨x, hx, by rw [← k4.lab x hx]; exact h2, by rw [← k4.id x hx]; exact h3⟩
    · rintro ⟨x, h1, h2, h3⟩
      exact ⟨x, by omega, by rw [k4.lab x h1]; exact h2, by rw [k4.id x h1]; exact h3⟩
  unfold pick
  cases ho : (at' nd0 b j).id with
  | some i =>
    dsimp only
    refine Tot.pure ⟨H, ⟨⟨lab', k1, fun k i => by rw [hK, hnew]⟩, hA.inj, hA.lt⟩, ?_, fun k j hk => hk⟩
    dsimp only
    rw [hK, ← hnew]
    exact Or.inr ⟨hsl, j, k2, k3', ho⟩
  | none =>
    dsimp only
    rw [wr_eq k2, ok_bind]
    have e : ∀ x, at' nd0 (b.setIfInBounds j (⟨(at' nd0 b j).next, some h.nextId⟩ : Node)) x = if x = j then (⟨(at' nd0 b j).next, some h.nextId⟩ : Node) else at' nd0 b x := fun x => at_set' nd0 k2 _ x
    have e1 : ∀ x, (at' nd0 (b.setIfInBounds j (⟨(at' nd0 b j).next, some h.nextId⟩ : Node)) x).next = (at' nd0 b x).next := fun x => by
      rw [e]; split
      · rename_i h1; rw [h1]
      · rfl
    have e2 : ∀ x, (at' nd0 (b.setIfInBounds j (⟨(at' nd0 b j).next, some h.nextId⟩ : Node)) x).id = if x = j then some h.nextId else (at' nd0 b x).id := fun x => by
      rw [e]; split <;> rfl
    refine Tot.pure ⟨Function.update H (srt key) (some h.nextId), ⟨⟨lab', ⟨?_, k1.root, ?_, ?_, ?_⟩, fun k i => ?_⟩, update_inj hA.inj hA.lt _, update_lt hA.lt _⟩, by rw [Function.update_self], fun k i hk => ?_⟩
    · simpa using k1.pos
    · simpa using k1.inj
    · intro x c y hx
      dsimp only at hx ⊢
      rw [e1, Array.size_setIfInBounds]
      exact k1.edge x c y (by simpa using hx)
    · simpa using k1.closed
    · by_cases hk : k = srt key
      · subst hk
        rw [Function.update_self]
        constructor
        · intro h1
          refine Or.inr ⟨hsl, j, by simpa using k2, k3', ?_⟩
          dsimp only
          rw [e2, if_pos rfl]; exact h1
        · rintro (⟨c', h1, h2⟩ | ⟨-, x, h1, h2, h3⟩)
          · rw [h1] at hsl; exact absurd rfl hsl
          · dsimp only at h1 h3
            rw [Array.size_setIfInBounds] at h1
            have : x = j := k1.inj x j h1 k2 (h2.trans k3'.symm)
            rw [e2, if_pos this] at h3
            exact h3
      · rw [Function.update_of_ne hk, hK, ← hnew]
        unfold Knows
        dsimp only
        refine or_congr Iff.rfl (and_congr Iff.rfl ⟨?_, ?_⟩)
        · rintro ⟨x, h1, h2, h3⟩
          exact ⟨x, by simpa using h1, h2, by rw [e2, if_neg (by rintro rfl; exact hk (h2.symm.trans k3')), h3]⟩
        · rintro ⟨x, h1, h2, h3⟩
          rw [e2, if_neg (by rintro rfl; exact hk (h2.symm.trans k3'))] at h3
          exact ⟨x, by simpa using h1, h2, h3⟩
    · have : k ≠ srt key := by
        rintro rfl
        rw [hK, ← hnew] at hk
        rcases hk with ⟨c', h1, h2⟩ | ⟨-, x, h1, h2, h3⟩
        · rw [h1] at hsl; exact absurd rfl hsl
        · have : x = j := k1.inj x j h1 k2 (h2.trans k3'.symm)
          dsimp only at h3
          rw [this, ho] at h3
          cases h3
      rw [Function.update_of_ne this]; exact hk

theorem getId_tot {h : Handler} {H : List Nat → Option Nat} (hA : Abs h H) (key : List Nat) : Tot (getId h key) (Got H key) := by
  unfold getId
  split
  · rename_i hl
    obtain ⟨c, rfl⟩ := List.length_eq_one_iff.1 hl
    exact getId1_tot hA c
  · rename_i hl
    exact getId2_tot hA hl

end TreeIso
