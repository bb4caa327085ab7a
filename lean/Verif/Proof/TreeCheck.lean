import Verif.Proof.Forest

/-! # A checker for small concrete trees, used in examples -/

namespace Tree
open Graph

/-- All walks with at most `k` edges. -/
def chains (g : Array (List Nat)) : Nat → Nat → List (List Nat)
  | 0, u => [[u]]
  | k + 1, u => [u] :: (adj g u).flatMap fun w => (chains g k w).map (u :: ·)

theorem mem_chains {g : Array (List Nat)} (k : Nat) : ∀ (u : Nat) (p : List Nat), p.head? = some u → p.IsChain (E g) → p.length ≤ k + 1 → p ∈ chains g k u := by
  induction k with
  | zero =>
    intro u p h1 h2 h3
    match p, h1, h3 with
    | [x], h1, _ => simp at h1; subst h1; simp [chains]
  | succ k ih =>
    intro u p h1 h2 h3
    match p, h1, h2, h3 with
    | [x], h1, _, _ => simp at h1; subst h1; simp [chains]
    | x :: y :: p, h1, h2, h3 =>
      simp at h1
      subst h1
      rw [List.isChain_cons] at h2
      simp only [chains, List.mem_cons, List.mem_flatMap, List.mem_map]
      right
      exact ⟨y, h2.1 y (by simp), y :: p, ih y _ rfl h2.2 (by simp at h3 ⊢; omega), rfl⟩

/-- The checker. -/
def check (g : Array (List Nat)) : Bool :=
  decide (0 < g.size) && (List.range g.size).all fun u => decide (adj g u).Nodup && !(adj g u).contains u && ((adj g u).all fun v => decide (v < g.size) && (adj g v).contains u) &&
    (List.range g.size).all fun v => ((chains g g.size u).filter fun p => decide p.Nodup && p.getLast? == some v).length == 1

theorem chains_chain {g : Array (List Nat)} (k : Nat) : ∀ (u : Nat) (p : List Nat), p ∈ chains g k u → p.head? = some u ∧ p.IsChain (E g) := by
  induction k with
  | zero => intro u p h; simp [chains] at h; subst h; simp
  | succ k ih =>
    intro u p h
    simp only [chains, List.mem_cons, List.mem_flatMap, List.mem_map] at h
    rcases h with rfl | ⟨w, hw, q, hq, rfl⟩
    · simp
    · obtain ⟨h1, h2⟩ := ih w q hq
      refine ⟨rfl, ?_⟩
      rw [List.isChain_cons]
      refine ⟨fun y hy => ?_, h2⟩
      rw [h1] at hy
      simp at hy
      subst hy
      exact hw

theorem isTree_of_check {g : Array (List Nat)} (h : check g = true) : IsTree g := by
  unfold check at h
  simp only [Bool.and_eq_true, decide_eq_true_eq, List.all_eq_true, List.mem_range, Bool.not_eq_true', List.contains_eq_mem, decide_eq_false_iff_not, beq_iff_eq] at h
  obtain ⟨h0, h1⟩ := h
  have hlt : ∀ u v, E g u v → u < g.size := fun u v h => h.lt
  have hv : Valid g := fun u v huv => ((h1 u huv.lt).1.2 v huv).1
  refine ⟨h0, hv, fun u => ?_, fun u hu => (h1 u hu.lt).1.1.2 hu, fun u v huv => ((h1 u huv.lt).1.2 v huv).2, fun u v hu hv' => ?_⟩
  · by_cases hu : u < g.size
    · exact (h1 u hu).1.1.1
    · rw [adj_ge (by omega)]; simp
  · have := (h1 u hu).2 v hv'
    rw [List.length_eq_one_iff] at this
    obtain ⟨p, hp⟩ := this
    have hmem : ∀ q, IsPath g u v q ↔ q ∈ (chains g g.size u).filter fun p => decide p.Nodup && p.getLast? == some v := by
      intro q
      simp only [List.mem_filter, Bool.and_eq_true, decide_eq_true_eq, beq_iff_eq]
      constructor
      · intro hq
        refine ⟨mem_chains _ _ _ hq.head hq.chain ?_, hq.nodup, hq.last⟩
        have hsub : q ⊆ List.range g.size := by
          intro x hx
          rw [List.mem_range]
          obtain ⟨s, t, e⟩ := List.append_of_mem hx
          rcases List.eq_nil_or_concat s with rfl | ⟨s, y, rfl⟩
          · have := hq.head
            rw [e] at this
            simp at this
            omega
          · have := hq.chain
            rw [e, List.isChain_append] at this
            exact hv y x (this.2.2 y (by simp) x (by simp))
        have := (List.subperm_of_subset hq.nodup hsub).length_le
        simp at this
        omega
      · rintro ⟨h2, h3, h4⟩
        obtain ⟨h5, h6⟩ := chains_chain _ _ _ h2
        exact ⟨h5, h4, h3, h6⟩
    rw [hp] at hmem
    exact ⟨p, (hmem p).2 (by simp), fun q hq => by simpa using (hmem q).1 hq⟩

end Tree
