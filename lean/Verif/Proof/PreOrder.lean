import Verif.Proof.Forest2

/-! # Preorder positions -/

namespace Tree
open Cxx Graph

/-- Ancestors come first. -/
theorem pre_anc_le (F : Forest) : ∀ (p : Nat), (p :: F.pre).Nodup → ∀ (i k a u : Nat), (p :: F.pre)[i]? = some a → (p :: F.pre)[k]? = some u → a ∈ rpath p F u → i ≤ k := by
  induction F with
  | nil =>
    intro p hn i k a u hi hk ha
    have hi0 : i = 0 := by cases i <;> simp [Forest.pre] at hi ⊢
    omega
  | cons v ch rest ih1 ih2 =>
    intro p hn i k a u hi hk ha
    have hn' := hn
    rw [Forest.pre, List.nodup_cons, List.nodup_cons, List.mem_cons, List.mem_append, List.mem_append, List.nodup_append] at hn'
    obtain ⟨m1, m2, m3, m4, m5⟩ := hn'
    have n1 : (v :: ch.pre).Nodup := List.nodup_cons.2 ⟨fun h => m2 (Or.inl h), m3⟩
    have n2 : (p :: rest.pre).Nodup := List.nodup_cons.2 ⟨fun h => m1 (Or.inr (Or.inr h)), m4⟩
    rcases Nat.eq_zero_or_pos i with rfl | hi0
    · omega
    obtain ⟨i, rfl⟩ : ∃ i', i = i' + 1 := ⟨i - 1, by omega⟩
    rcases Nat.eq_zero_or_pos k with rfl | hk0
    · simp at hk
      subst hk
      rw [rpath_root, List.mem_singleton] at ha
      subst ha
      rw [List.getElem?_cons_succ] at hi
      have := List.mem_of_getElem? hi
      rw [Forest.pre, List.mem_cons, List.mem_append] at this
      exact absurd this m1
    obtain ⟨k, rfl⟩ : ∃ i', k = i' + 1 := ⟨k - 1, by omega⟩
    rw [List.getElem?_cons_succ, Forest.pre, ← List.cons_append] at hi hk
    by_cases hkA : k < (v :: ch.pre).length
    · by_cases hiA : i < (v :: ch.pre).length
      · rw [List.getElem?_append_left hiA] at hi
        rw [List.getElem?_append_left hkA] at hk
        have hu := List.mem_of_getElem? hk
        rw [rpath_cons_left hn (List.mem_cons.1 hu), List.mem_cons] at ha
        rcases ha with rfl | ha
        · exact absurd (by have := List.mem_of_getElem? hi; simp at this; tauto) m1
        · have := ih1 v n1 i k a u hi hk ha; omega
      · rw [List.getElem?_append_right (by omega)] at hi
        rw [List.getElem?_append_left hkA] at hk
        have hu := List.mem_of_getElem? hk
        have hai := List.mem_of_getElem? hi
        rw [rpath_cons_left hn (List.mem_cons.1 hu), List.mem_cons] at ha
        rcases ha with rfl | ha
        · exact absurd (Or.inr (Or.inr hai)) m1
        · rcases rpath_sub ha with rfl | ha
          · exact absurd (Or.inr hai) m2
          · exact absurd rfl (m5 a ha a hai)
    · by_cases hiA : i < (v :: ch.pre).length
      · omega
      · rw [List.getElem?_append_right (by omega)] at hi hk
        have hu := List.mem_of_getElem? hk
        rw [rpath_cons_right hn (Or.inr hu)] at ha
        have := ih2 p n2 (i - (v :: ch.pre).length + 1) (k - (v :: ch.pre).length + 1) a u (by rw [List.getElem?_cons_succ]; exact hi) (by rw [List.getElem?_cons_succ]; exact hk) ha
        omega

/-- Vertices between a vertex and a descendant are descendants. -/
theorem pre_between (F : Forest) : ∀ (p : Nat), (p :: F.pre).Nodup → ∀ (i j k a w u : Nat), i ≤ j → j ≤ k → (p :: F.pre)[i]? = some a → (p :: F.pre)[j]? = some w →
    (p :: F.pre)[k]? = some u → a ∈ rpath p F u → a ∈ rpath p F w := by
  induction F with
  | nil =>
    intro p hn i j k a w u hij hjk hi hj hk ha
    have hi0 : i = 0 := by cases i <;> simp [Forest.pre] at hi ⊢
    have hj0 : j = 0 := by cases j <;> simp [Forest.pre] at hj ⊢
    subst hi0; subst hj0
    simp at hi hj
    subst hi; subst hj
    exact root_mem _ _ _
  | cons v ch rest ih1 ih2 =>
    intro p hn i j k a w u hij hjk hi hj hk ha
    have hn' := hn
    rw [Forest.pre, List.nodup_cons, List.nodup_cons, List.mem_cons, List.mem_append, List.mem_append, List.nodup_append] at hn'
    obtain ⟨m1, m2, m3, m4, m5⟩ := hn'
    have n1 : (v :: ch.pre).Nodup := List.nodup_cons.2 ⟨fun h => m2 (Or.inl h), m3⟩
    have n2 : (p :: rest.pre).Nodup := List.nodup_cons.2 ⟨fun h => m1 (Or.inr (Or.inr h)), m4⟩
    rcases Nat.eq_zero_or_pos i with rfl | hi0
    · simp at hi
      subst hi
      exact root_mem _ _ _
    obtain ⟨i, rfl⟩ : ∃ i', i = i' + 1 := ⟨i - 1, by omega⟩
    obtain ⟨j, rfl⟩ : ∃ i', j = i' + 1 := ⟨j - 1, by omega⟩
    obtain ⟨k, rfl⟩ : ∃ i', k = i' + 1 := ⟨k - 1, by omega⟩
    rw [List.getElem?_cons_succ, Forest.pre, ← List.cons_append] at hi hj hk
    by_cases hkA : k < (v :: ch.pre).length
    · rw [List.getElem?_append_left (by omega)] at hi hj hk
      rw [rpath_cons_left hn (List.mem_cons.1 (List.mem_of_getElem? hk)), List.mem_cons] at ha
      rw [rpath_cons_left hn (List.mem_cons.1 (List.mem_of_getElem? hj)), List.mem_cons]
      exact ha.imp id (ih1 v n1 i j k a w u (by omega) (by omega) hi hj hk)
    · rw [List.getElem?_append_right (by omega)] at hk
      have hu := List.mem_of_getElem? hk
      rw [rpath_cons_right hn (Or.inr hu)] at ha
      by_cases hiA : i < (v :: ch.pre).length
      · rw [List.getElem?_append_left hiA] at hi
        have hai := List.mem_of_getElem? hi
        rcases rpath_sub ha with rfl | ha
        · exact root_mem _ _ _
        · rcases List.mem_cons.1 hai with rfl | hai
          · exact absurd (Or.inr ha) m2
          · exact absurd rfl (m5 a hai a ha)
      · rw [List.getElem?_append_right (by omega)] at hi hj
        rw [rpath_cons_right hn (Or.inr (List.mem_of_getElem? hj))]
        exact ih2 p n2 (i - (v :: ch.pre).length + 1) (j - (v :: ch.pre).length + 1) (k - (v :: ch.pre).length + 1) a w u (by omega) (by omega) (by rw [List.getElem?_cons_succ]; exact hi)
          (by rw [List.getElem?_cons_succ]; exact hj) (by rw [List.getElem?_cons_succ]; exact hk) ha

/-- The ancestor at a given depth. -/
theorem exists_anc {r : Nat} {F : Forest} (hn : (r :: F.pre).Nodup) {u d : Nat} (hu : u = r ∨ u ∈ F.pre) (hd : d ≤ depth r F u) : ∃ a, a ∈ rpath r F u ∧ depth r F a = d := by
  have hl := rpath_length r F u
  obtain ⟨a, h⟩ : ∃ a, (rpath r F u)[d]? = some a := ⟨_, List.getElem?_eq_getElem (show d < (rpath r F u).length by omega)⟩
  have ha : a ∈ rpath r F u := List.mem_of_getElem? h
  refine ⟨a, ha, ?_⟩
  obtain ⟨t, ht⟩ := rpath_prefix hn ha
  have hlast := rpath_last (rpath_sub ha)
  rw [List.getLast?_eq_getElem?, rpath_length, Nat.add_sub_cancel] at hlast
  have hnd : (rpath r F u).Nodup := by
    unfold rpath
    split
    · simp
    · rename_i hne
      rw [List.nodup_cons]
      exact ⟨fun h => (List.nodup_cons.1 hn).1 (Forest.path_sub h), Forest.path_nodup (List.nodup_cons.1 hn).2 u⟩
  have h2 : (rpath r F u)[depth r F a]? = some a := by
    rw [← ht, List.getElem?_append_left (by rw [rpath_length]; omega), hlast]
  have h3 := List.getElem?_eq_some_iff.1 h2
  have h4 := List.getElem?_eq_some_iff.1 h
  obtain ⟨l3, h3⟩ := h3
  obtain ⟨l4, h4⟩ := h4
  exact (List.Nodup.getElem_inj_iff hnd).1 (h3.trans h4.symm)

end Tree
