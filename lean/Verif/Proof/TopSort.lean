import Verif.Proof.GraphBasic

/-! # Proofs about `library/graph/topological_sort.hpp` -/

namespace TopSort
open Cxx Graph

/-- Number of edges to `v` from vertices outside `S`. -/
def deg (g : Array (List Nat)) (S : List Nat) (v : Nat) : Nat := ∑ w ∈ (Finset.range g.size).filter (· ∉ S), (adj g w).count v

theorem deg_snoc (g : Array (List Nat)) (S : List Nat) (v : Nat) {u : Nat} (hu : u < g.size) (hS : u ∉ S) :
    deg g S v = (adj g u).count v + deg g (S ++ [u]) v := by
  unfold deg
  rw [← Finset.add_sum_erase _ _ (show u ∈ (Finset.range g.size).filter (· ∉ S) by simp [hu, hS])]
  congr 1
  apply Finset.sum_congr _ fun _ _ => rfl
  ext w
  simp only [Finset.mem_erase, Finset.mem_filter, Finset.mem_range, List.mem_append, List.mem_singleton]
  constructor
  · rintro ⟨h1, h2, h3⟩
    exact ⟨h2, fun h => h.elim h3 h1⟩
  · rintro ⟨h1, h2⟩
    exact ⟨fun h => h2 (Or.inr h), h1, fun h => h2 (Or.inl h)⟩

theorem deg_eq_zero {g : Array (List Nat)} {S : List Nat} {v : Nat} : deg g S v = 0 ↔ ∀ u, E g u v → u ∈ S := by
  unfold deg
  rw [Finset.sum_eq_zero_iff]
  constructor
  · intro h u hu
    by_contra hn
    have := h u (by simp [hu.lt, hn])
    rw [List.count_eq_zero] at this
    exact this hu
  · intro h u hu
    simp only [Finset.mem_filter, Finset.mem_range] at hu
    rw [List.count_eq_zero]
    intro hm
    exact hu.2 (h u hm)

theorem count_tot (n : Nat) (l : List Nat) (hl : ∀ v ∈ l, v < n) (a : Array Int) (f : Nat → Nat) (hs : a.size = n) (h : ∀ v < n, a[v]? = some (f v : Int)) :
    Tot (forEach l a countStep) fun b => b.size = n ∧ ∀ v < n, b[v]? = some ((f v + l.count v : Nat) : Int) := by
  refine Tot.forEach (P := fun pre (b : Array Int) => b.size = n ∧ ∀ v < n, b[v]? = some ((f v + pre.count v : Nat) : Int)) ⟨hs, by simpa using h⟩ ?_
  rintro pre j post b he ⟨h1, h2⟩
  have hj : j < n := hl j (by simp [he])
  rw [countStep, rd_some (h2 j hj), ok_bind, wr_eq (by omega)]
  refine ⟨_, rfl, by simpa using h1, fun v hv => ?_⟩
  rw [Array.getElem?_setIfInBounds, List.count_append]
  by_cases hjv : j = v
  · subst hjv
    rw [if_pos rfl, if_pos (by omega)]
    simp
    omega
  · rw [if_neg hjv, h2 v hv]
    simp [List.count_cons, hjv]

theorem indeg_tot (g : Array (List Nat)) (hg : Valid g) : Tot (indeg g) fun a => a.size = g.size ∧ ∀ v < g.size, a[v]? = some (deg g [] v : Int) := by
  rw [indeg]
  refine (Tot.forEach (P := fun pre (b : Array Int) => b.size = g.size ∧ ∀ v < g.size, b[v]? = some ((∑ w ∈ Finset.range pre.length, (adj g w).count v : Nat) : Int))
    ⟨by simp, fun v hv => by simp [hv]⟩ ?_).mono ?_
  · rintro pre l post b he ⟨h1, h2⟩
    have hl : adj g pre.length = l := by
      rw [adj, ← Array.getElem?_toList, he]
      simp
    refine (count_tot g.size l (fun v hv => hg pre.length v (by rw [E, hl]; exact hv)) b _ h1 h2).mono ?_
    rintro c ⟨g1, g2⟩
    refine ⟨g1, fun v hv => ?_⟩
    rw [g2 v hv, List.length_append, List.length_singleton, Finset.sum_range_succ, hl]
  · rintro b ⟨h1, h2⟩
    refine ⟨h1, fun v hv => ?_⟩
    rw [h2 v hv, Array.length_toList]
    simp [deg]

theorem init_tot {n : Nat} (inn : Array Int) (f : Nat → Nat) (h : ∀ v < n, inn[v]? = some (f v : Int)) :
    Tot (forUp 0 n [] (initStep inn)) fun dq => dq = (List.range n).filter fun v => decide (f v = 0) := by
  refine (Tot.forUp (P := fun i (dq : List Nat) => dq = (List.range i).filter fun v => decide (f v = 0)) (Nat.zero_le _) (by simp) ?_)
  rintro i dq - hi rfl
  rw [initStep, rd_some (h i hi), ok_bind]
  refine Tot.pure ?_
  rw [List.range_succ, List.filter_append]
  by_cases h0 : f i = 0
  · simp [h0]
  · have : ¬ ((f i : Int) = 0) := by omega
    simp [h0, this]

/-- Invariant about the order. -/
structure Inv (g : Array (List Nat)) (dq ord : List Nat) : Prop where
  nodup : (ord ++ dq).Nodup
  lt : ∀ v ∈ ord ++ dq, v < g.size
  zero : ∀ v < g.size, v ∈ ord ++ dq ↔ deg g ord v = 0
  before : ∀ a v b, ord = a ++ v :: b → ∀ u, E g u v → u ∈ a

/-- One vertex: the loop over its edges. -/
theorem dec_tot {g : Array (List Nat)} (hg : Valid g) {ord dq : List Nat} {u : Nat} {inn : Array Int} (h : Inv g (u :: dq) ord) (hsz : inn.size = g.size)
    (hin : ∀ v < g.size, inn[v]? = some (deg g ord v : Int)) :
    Tot (forEach (adj g u) (inn, dq) decStep) fun t => t.1.size = g.size ∧ (∀ v < g.size, t.1[v]? = some (deg g (ord ++ [u]) v : Int)) ∧
      Inv g t.2 (ord ++ [u]) := by
  have hu : u < g.size := h.lt u (by simp)
  have huo : u ∉ ord := fun hm => (List.nodup_append.1 h.nodup).2.2 u hm u (by simp) rfl
  have hd := fun v => deg_snoc g ord v hu huo
  have hbu : ∀ w, E g w u → w ∈ ord := deg_eq_zero.1 ((h.zero u hu).1 (by simp))
  refine (Tot.forEach (P := fun pre (t : Array Int × List Nat) => t.1.size = g.size ∧
    (∀ v < g.size, t.1[v]? = some ((deg g ord v - pre.count v : Nat) : Int)) ∧ (ord ++ [u] ++ t.2).Nodup ∧ (∀ v ∈ ord ++ [u] ++ t.2, v < g.size) ∧
    ∀ v < g.size, v ∈ ord ++ [u] ++ t.2 ↔ deg g ord v - pre.count v = 0) ?_ ?_).mono ?_
  · refine ⟨hsz, by simpa using hin, by simpa using h.nodup, fun v hv => h.lt v (by simpa using hv), fun v hv => ?_⟩
    have := h.zero v hv
    simpa using this
  · rintro pre v post ⟨a, q⟩ he ⟨h1, h2, h3, h4, h5⟩
    dsimp only at h1 h2 h3 h4 h5
    have hev : E g u v := by rw [E, he]; simp
    have hv := hg _ _ hev
    have hcv : pre.count v + 1 ≤ deg g ord v := by
      have := hd v
      rw [he, List.count_append, List.count_cons_self] at this
      omega
    rw [decStep]
    dsimp only
    rw [rd_some (h2 v hv), ok_bind, wr_eq (by omega), ok_bind]
    have hget : ∀ w < g.size, (a.setIfInBounds v (((deg g ord v - pre.count v : Nat) : Int) - 1))[w]? = some ((deg g ord w - (pre ++ [v]).count w : Nat) : Int) := by
      intro w hw
      rw [Array.getElem?_setIfInBounds, List.count_append]
      by_cases hvw : v = w
      · subst hvw
        rw [if_pos rfl, if_pos (by omega)]
        simp
        omega
      · rw [if_neg hvw, h2 w hw]
        simp [List.count_cons, hvw]
    have hnv : v ∉ ord ++ [u] ++ q := by
      rw [h5 v hv]
      omega
    have hcnt : ∀ w, w ≠ v → (pre ++ [v]).count w = pre.count w := by
      intro w hw
      simp [List.count_append, List.count_cons, Ne.symm hw]
    have hcntv : (pre ++ [v]).count v = pre.count v + 1 := by simp
    by_cases h0 : ((deg g ord v - pre.count v : Nat) : Int) - 1 = 0
    · rw [if_pos h0]
      refine Tot.pure ⟨by simpa using h1, hget, ?_, ?_, fun w hw => ?_⟩
      · rw [← List.append_assoc, List.nodup_append]
        exact ⟨h3, by simp, fun x hx y hy e => by simp at hy; subst hy; subst e; exact hnv hx⟩
      · intro w hw
        rw [← List.append_assoc, List.mem_append] at hw
        rcases hw with hw | hw
        · exact h4 w hw
        · simp at hw; subst hw; exact hv
      · rw [← List.append_assoc, List.mem_append, List.mem_singleton]
        by_cases hwv : w = v
        · subst hwv
          rw [hcntv]
          exact ⟨fun _ => by omega, fun _ => Or.inr rfl⟩
        · rw [hcnt w hwv, ← h5 w hw]
          exact ⟨fun h => h.resolve_right hwv, Or.inl⟩
    · rw [if_neg h0]
      refine Tot.pure ⟨by simpa using h1, hget, h3, h4, fun w hw => ?_⟩
      dsimp only
      by_cases hwv : w = v
      · subst hwv
        rw [hcntv]
        exact ⟨fun h => absurd h hnv, fun h => by omega⟩
      · rw [hcnt w hwv, h5 w hw]
  · rintro ⟨a, q⟩ ⟨h1, h2, h3, h4, h5⟩
    have he : ∀ v, deg g ord v - (adj g u).count v = deg g (ord ++ [u]) v := fun v => by rw [hd v]; omega
    simp only [he] at h2 h5
    refine ⟨h1, h2, h3, h4, h5, ?_⟩
    intro x v y hxy w hw
    rcases List.eq_nil_or_concat' y with rfl | ⟨y', z, rfl⟩
    · obtain ⟨e1, e2⟩ := List.append_inj' hxy rfl
      cases e2
      rw [← e1]
      exact hbu w hw
    · rw [← List.cons_append, ← List.append_assoc] at hxy
      obtain ⟨e1, e2⟩ := List.append_inj' hxy rfl
      exact h.before x v y' e1 w hw

theorem sorted_tot (g : Array (List Nat)) (hg : Valid g) : Tot (sorted g) fun ord => Inv g [] ord := by
  rw [sorted]
  refine Tot.bind (indeg_tot g hg) fun inn ⟨h1, h2⟩ => ?_
  refine Tot.bind (init_tot inn _ h2) fun dq hdq => ?_
  refine Tot.bind (P := fun (r : List Nat × Array Int × List Nat) => Inv g [] r.2.2) ?_ fun r hr => Tot.pure hr
  refine Tot.loop (P := fun (s : List Nat × Array Int × List Nat) => Inv g s.1 s.2.2 ∧ s.2.1.size = g.size ∧
    ∀ v < g.size, s.2.1[v]? = some (deg g s.2.2 v : Int)) (fun s => g.size - s.2.2.length) ?_ ⟨?_, h1, h2⟩ (by simp)
  · rintro ⟨dq, inn, ord⟩ ⟨h1, h2, h3⟩
    rw [step]
    dsimp only at h1 h2 h3 ⊢
    cases dq with
    | nil => exact Tot.pure h1
    | cons u dq =>
      dsimp only
      rw [rd_some (adj_eq (h1.lt u (by simp))), ok_bind]
      refine Tot.bind (dec_tot hg h1 h2 h3) ?_
      rintro ⟨a, q⟩ ⟨g1, g2, g3⟩
      refine Tot.pure ⟨⟨g3, g1, g2⟩, ?_⟩
      have hsub : ord ++ u :: dq ⊆ List.range g.size := fun v hv => List.mem_range.2 (h1.lt v hv)
      have := (List.subperm_of_subset h1.nodup hsub).length_le
      simp at this ⊢
      omega
  · subst hdq
    refine ⟨by simpa using List.nodup_range.filter _, ?_, ?_, ?_⟩
    · intro v hv
      simp at hv
      exact hv.1
    · intro v hv
      simp [hv]
    · intro a v b h
      simp at h

theorem length_le {g : Array (List Nat)} {ord : List Nat} (h : Inv g [] ord) : ord.length ≤ g.size := by
  have hsub : ord ⊆ List.range g.size := fun v hv => List.mem_range.2 (h.lt v (by simpa using hv))
  have := (List.subperm_of_subset (by simpa using h.nodup) hsub).length_le
  simpa using this

/-- All vertices are sorted iff the graph is acyclic. -/
theorem acyclic_iff {g : Array (List Nat)} (hg : Valid g) {ord : List Nat} (h : Inv g [] ord) : ord.length = g.size ↔ Acyclic g := by
  constructor
  · intro hl v hv
    have hall : ∀ v < g.size, v ∈ ord := by
      intro v hv
      have hsub : ord ⊆ List.range g.size := fun v hv => List.mem_range.2 (h.lt v (by simpa using hv))
      have hp : ord.Perm (List.range g.size) := (List.subperm_of_subset (by simpa using h.nodup) hsub).perm_of_length_le (by simp [hl])
      exact hp.mem_iff.2 (List.mem_range.2 hv)
    have key : ∀ u v, Relation.TransGen (E g) u v → ∀ a b, ord = a ++ v :: b → u ∈ a := by
      intro u v huv
      induction huv with
      | single h1 => intro a b e; exact h.before a _ b e _ h1
      | @tail _ c _ h1 ih =>
        intro a b e
        have hm := h.before a _ b e _ h1
        obtain ⟨a1, a2, rfl⟩ := List.append_of_mem hm
        have := ih a1 (a2 ++ c :: b) (by rw [e]; simp)
        simp [this]
    have hvl : v < g.size := by
      obtain ⟨w, hw, _⟩ := Relation.TransGen.head'_iff.1 hv
      exact hw.lt
    obtain ⟨a, b, e⟩ := List.append_of_mem (hall v hvl)
    have hva := key v v hv a b e
    have hn := h.nodup
    rw [List.append_nil, e, List.nodup_append] at hn
    exact hn.2.2 v hva v (by simp) rfl
  · intro hac
    by_contra hl
    have hle := length_le h
    obtain ⟨v, hv, hvo⟩ : ∃ v, v < g.size ∧ v ∉ ord := by
      by_contra hn
      push_neg at hn
      have hsub : List.range g.size ⊆ ord := fun v hv => hn v (List.mem_range.1 hv)
      have := (List.subperm_of_subset List.nodup_range hsub).length_le
      simp at this
      omega
    obtain ⟨v, hv, hvo, hpred⟩ := exists_source hg hac (· ∉ ord) hv hvo
    apply hvo
    have := (h.zero v hv).2 (deg_eq_zero.2 fun u hu => not_not.1 (hpred u hu))
    simpa using this

end TopSort
