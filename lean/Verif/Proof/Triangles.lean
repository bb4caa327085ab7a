import Verif.Model.Triangles
import Verif.Spec.Graph
import Mathlib.Data.Nat.Count
import Mathlib.Data.List.Perm.Subperm
import Mathlib.Data.List.Nodup

/-! # Enumeration of triangles -/

namespace Triangles
open Cxx Graph

/-- The argument is a simple undirected graph. -/
structure Simple (g : Array (List Nat)) : Prop where
  valid : Valid g
  symm : ∀ u v, E g u v → E g v u
  irrefl : ∀ u, ¬ E g u u
  nodup : ∀ u, (adj g u).Nodup

/-- Degrees. -/
def deg (g : Array (List Nat)) (i : Nat) : Nat := (adj g i).length

theorem deg_lt {g : Array (List Nat)} (h : Simple g) {i : Nat} (hi : i < g.size) : deg g i < g.size := by
  have h1 : (i :: adj g i).Nodup := List.nodup_cons.2 ⟨h.irrefl i, h.nodup i⟩
  have h2 : (i :: adj g i) ⊆ List.range g.size := by
    intro x hx
    rw [List.mem_range]
    rcases List.mem_cons.1 hx with rfl | hx
    · exact hi
    · exact h.valid i x hx
  have := (List.subperm_of_subset h1 h2).length_le
  rw [List.length_cons, List.length_range] at this
  exact this

theorem rd_adj {g : Array (List Nat)} {i : Nat} (hi : i < g.size) : rd g i = .ok (adj g i) := rd_at [] hi

theorem countStep_tot {g : Array (List Nat)} (h : Simple g) :
    Tot (forUp 0 g.size (Array.replicate (g.size + 1) 0) (fun i cnt => countStep g cnt i)) fun cnt =>
      cnt.size = g.size + 1 ∧ at' 0 cnt 0 = 0 ∧ ∀ d, d < g.size → at' 0 cnt (d + 1) = Nat.count (fun i => deg g i = d) g.size := by
  refine (Tot.forUp (P := fun i (cnt : Array Nat) => cnt.size = g.size + 1 ∧ at' 0 cnt 0 = 0 ∧ ∀ d, d < g.size → at' 0 cnt (d + 1) = Nat.count (fun i => deg g i = d) i) (Nat.zero_le _) ?_ ?_)
  · refine ⟨by simp, by simp [at'], fun d hd => ?_⟩
    simp [at', hd]
  · rintro i cnt - hi ⟨h1, h2, h3⟩
    have hd := deg_lt h hi
    unfold countStep
    rw [rd_adj hi, ok_bind, rd_at 0 (by rw [h1]; show deg g i + 1 < _; omega), ok_bind, wr_eq (by rw [h1]; show deg g i + 1 < _; omega)]
    refine Tot.pure ⟨by simpa using h1, ?_, fun d hd' => ?_⟩
    · rw [at_set 0 (by rw [h1]; show deg g i + 1 < _; omega), if_neg (by omega), h2]
    · rw [at_set 0 (by rw [h1]; show deg g i + 1 < _; omega), Nat.count_succ]
      show (if deg g i + 1 = d + 1 then at' 0 cnt (deg g i + 1) + 1 else _) = _
      split
      · next he =>
        have he : deg g i = d := by omega
        rw [if_pos he, he, h3 d hd']
      · next he => rw [if_neg (by omega), h3 d hd', Nat.add_zero]

theorem count_lt_succ (g : Array (List Nat)) (d n : Nat) : Nat.count (fun i => deg g i < d + 1) n = Nat.count (fun i => deg g i < d) n + Nat.count (fun i => deg g i = d) n := by
  induction n with
  | zero => simp
  | succ n ih =>
    rw [Nat.count_succ, Nat.count_succ, Nat.count_succ, ih]
    split <;> split <;> split <;> omega

theorem prefStep_tot {g : Array (List Nat)} {cnt : Array Nat} (h1 : cnt.size = g.size + 1) (h2 : at' 0 cnt 0 = 0)
    (h3 : ∀ d, d < g.size → at' 0 cnt (d + 1) = Nat.count (fun i => deg g i = d) g.size) :
    Tot (forUp 0 g.size cnt (fun i cnt => prefStep cnt i)) fun cnt => cnt.size = g.size + 1 ∧ ∀ d, d ≤ g.size → at' 0 cnt d = Nat.count (fun i => deg g i < d) g.size := by
  refine (Tot.forUp (P := fun i (cnt : Array Nat) => cnt.size = g.size + 1 ∧ (∀ d, d ≤ i → at' 0 cnt d = Nat.count (fun i => deg g i < d) g.size) ∧ ∀ d, i ≤ d → d < g.size → at' 0 cnt (d + 1) = Nat.count (fun i => deg g i = d) g.size) (Nat.zero_le _) ?_ ?_).mono fun c hc => ⟨hc.1, hc.2.1⟩
  · refine ⟨h1, fun d hd => ?_, fun d _ => h3 d⟩
    have : d = 0 := by omega
    subst this
    rw [h2]
    symm
    rw [Nat.count_iff_forall_not]
    intro k _
    omega
  · rintro i c - hi ⟨k1, k2, k3⟩
    unfold prefStep
    rw [rd_at 0 (by omega), ok_bind, rd_at 0 (by omega), ok_bind, wr_eq (by omega)]
    refine Tot.pure ⟨by simpa using k1, fun d hd => ?_, fun d hd hd' => ?_⟩
    · rw [at_set 0 (by omega)]
      split
      · next he =>
        subst he
        rw [count_lt_succ, k2 i le_rfl, k3 i le_rfl hi, Nat.add_comm]
      · exact k2 d (by omega)
    · rw [at_set 0 (by omega), if_neg (by omega)]
      exact k3 d (by omega) hd'

/-- The rank of a vertex: by degree, then by number. -/
def rank (g : Array (List Nat)) (i : Nat) : Nat := Nat.count (fun j => deg g j < deg g i) g.size + Nat.count (fun j => deg g j = deg g i) i

theorem count_restrict (p : Nat → Prop) [DecidablePred p] (i n : Nat) (h : i ≤ n) : Nat.count (fun j => p j ∧ j < i) n = Nat.count p i := by
  induction n, h using Nat.le_induction with
  | base =>
    rw [Nat.count_eq_card_filter_range, Nat.count_eq_card_filter_range]
    congr 1
    ext x
    simp only [Finset.mem_filter, Finset.mem_range]
    tauto
  | succ n hn ih => rw [Nat.count_succ, ih, if_neg (by omega), Nat.add_zero]

theorem count_disj (p q : Nat → Prop) [DecidablePred p] [DecidablePred q] (h : ∀ j, p j → ¬ q j) (n : Nat) :
    Nat.count p n + Nat.count q n = Nat.count (fun j => p j ∨ q j) n := by
  induction n with
  | zero => simp
  | succ n ih =>
    have := h n
    rw [Nat.count_succ, Nat.count_succ, Nat.count_succ, ← ih]
    by_cases hp : p n <;> by_cases hq : q n <;> simp [hp, hq] <;> first | omega | exact absurd hq (this hp)

theorem rank_eq {g : Array (List Nat)} {i : Nat} (hi : i < g.size) : rank g i = Nat.count (fun j => deg g j < deg g i ∨ (deg g j = deg g i ∧ j < i)) g.size := by
  unfold rank
  rw [← count_restrict _ i g.size hi.le, count_disj]
  intro j h1 h2
  omega

theorem rank_lt_of {g : Array (List Nat)} {i j : Nat} (hi : i < g.size) (hj : j < g.size) (h : deg g i < deg g j ∨ (deg g i = deg g j ∧ i < j)) : rank g i < rank g j := by
  rw [rank_eq hi, rank_eq hj, Nat.count_eq_card_filter_range, Nat.count_eq_card_filter_range]
  refine Finset.card_lt_card (Finset.ssubset_iff_subset_ne.2 ⟨fun x hx => ?_, fun he => ?_⟩)
  · simp only [Finset.mem_filter, Finset.mem_range] at hx ⊢
    omega
  · have : i ∈ (Finset.range g.size).filter fun x => deg g x < deg g j ∨ (deg g x = deg g j ∧ x < j) := by
      simp only [Finset.mem_filter, Finset.mem_range]; exact ⟨hi, h⟩
    rw [← he] at this
    simp only [Finset.mem_filter, Finset.mem_range] at this
    omega

theorem rank_inj {g : Array (List Nat)} {i j : Nat} (hi : i < g.size) (hj : j < g.size) (h : rank g i = rank g j) : i = j := by
  by_contra hne
  by_cases h1 : deg g i < deg g j ∨ (deg g i = deg g j ∧ i < j)
  · have := rank_lt_of hi hj h1; omega
  · have := rank_lt_of hj hi (by omega); omega

theorem rank_lt {g : Array (List Nat)} {i : Nat} (hi : i < g.size) : rank g i < g.size := by
  rw [rank_eq hi, Nat.count_eq_card_filter_range]
  calc _ < (Finset.range g.size).card := Finset.card_lt_card (Finset.ssubset_iff_subset_ne.2 ⟨Finset.filter_subset _ _, fun he => by
        have : i ∈ Finset.range g.size := Finset.mem_range.2 hi
        rw [← he, Finset.mem_filter] at this
        omega⟩)
    _ = g.size := Finset.card_range _

theorem rankStep_tot {g : Array (List Nat)} (h : Simple g) {cnt : Array Nat} (h1 : cnt.size = g.size + 1)
    (h2 : ∀ d, d ≤ g.size → at' 0 cnt d = Nat.count (fun i => deg g i < d) g.size) :
    Tot (forUp 0 g.size (cnt, Array.replicate g.size 0, Array.replicate g.size 0) (fun i s => rankStep g s i)) fun s =>
      (s.2.2.size = g.size ∧ ∀ i, i < g.size → at' 0 s.2.2 i = rank g i) ∧ s.2.1.toList.Perm (List.range g.size) := by
  refine (Tot.forUp (P := fun i (s : Array Nat × Array Nat × Array Nat) => (s.1.size = g.size + 1 ∧ ∀ d, d ≤ g.size → at' 0 s.1 d = Nat.count (fun i => deg g i < d) g.size + Nat.count (fun i => deg g i = d) i)
      ∧ (s.2.2.size = g.size ∧ ∀ j, j < i → at' 0 s.2.2 j = rank g j) ∧ (s.2.1.size = g.size ∧ ∀ j, j < i → at' 0 s.2.1 (rank g j) = j)) (Nat.zero_le _) ?_ ?_).mono ?_
  · exact ⟨⟨h1, fun d hd => by rw [h2 d hd]; simp⟩, ⟨by simp, fun j hj => by omega⟩, by simp, fun j hj => by omega⟩
  · rintro i ⟨c, o, x⟩ - hi ⟨⟨k1, k2⟩, ⟨k3, k4⟩, k5, k6⟩
    dsimp only at k1 k2 k3 k4 k5 k6
    have hd := deg_lt h hi
    unfold rankStep
    dsimp only
    have hc : at' 0 c (deg g i) = rank g i := k2 _ (by omega)
    have hr := rank_lt hi
    rw [rd_adj hi, ok_bind, rd_at 0 (by rw [k1]; show deg g i < _; omega), ok_bind, wr_eq (by rw [k1]; show deg g i < _; omega), ok_bind, wr_eq (by omega), ok_bind]
    show Tot (wr o (at' 0 c (deg g i)) i >>= _) _
    rw [hc, wr_eq (by omega), ok_bind]
    refine Tot.pure ⟨⟨by simpa using k1, fun d hd' => ?_⟩, ⟨by simpa using k3, fun j hj => ?_⟩, by simpa using k5, fun j hj => ?_⟩
    · dsimp only
      rw [at_set 0 (by rw [k1]; show deg g i < _; omega), Nat.count_succ]
      show (if deg g i = d then at' 0 c (deg g i) + 1 else _) = _
      split
      · next he => rw [he, k2 d hd']; omega
      · next he => rw [k2 d hd', Nat.add_zero]
    · dsimp only
      rw [at_set 0 (by omega)]
      split
      · next he => subst he; exact hc
      · exact k4 j (by omega)
    · dsimp only
      rw [at_set 0 (by omega)]
      split
      · next he => exact rank_inj hi (by omega) he
      · next he => exact k6 j (by rcases Nat.lt_or_ge j i with h | h; exact h; exact absurd (by rw [show j = i by omega]) he)
  · rintro ⟨c, o, x⟩ ⟨-, h3, h5, h6⟩
    refine ⟨h3, ?_⟩
    dsimp only at h5 h6 ⊢
    have hsub : List.range g.size ⊆ o.toList := by
      intro j hj
      rw [List.mem_range] at hj
      have h7 := h6 j hj
      have hr := rank_lt hj
      unfold at' at h7
      rw [Array.getElem?_eq_getElem (by omega), Option.getD_some] at h7
      rw [← h7, Array.mem_toList_iff]
      exact Array.getElem_mem _
    refine ((List.subperm_of_subset List.nodup_range hsub).perm_of_length_le ?_).symm
    rw [Array.length_toList, h5, List.length_range]

theorem removeLess_tot {g : Array (List Nat)} {idx : Array Nat} (h1 : idx.size = g.size) (h2 : ∀ i, i < g.size → at' 0 idx i = rank g i) (r : Nat) :
    ∀ l : List Nat, (∀ j ∈ l, j < g.size) → removeLess idx r l = .ok (l.filter fun j => decide (r ≤ rank g j)) := by
  intro l
  induction l with
  | nil => intro _; rfl
  | cons j l ih =>
    intro hl
    have hj := hl j (by simp)
    unfold removeLess
    rw [rd_at 0 (by omega), ok_bind, ih (fun j hj => hl j (List.mem_cons_of_mem _ hj)), ok_bind, h2 j hj, List.filter_cons]
    by_cases hr : rank g j < r
    · rw [if_pos hr, if_neg (by simpa using hr)]; rfl
    · rw [if_neg hr, if_pos (by simpa using hr)]; rfl

/-- The neighbours of higher rank. -/
def up (g : Array (List Nat)) (i : Nat) : List Nat := (adj g i).filter fun j => decide (rank g i ≤ rank g j)

theorem filterStep_tot {g : Array (List Nat)} (h : Simple g) {idx : Array Nat} (h1 : idx.size = g.size) (h2 : ∀ i, i < g.size → at' 0 idx i = rank g i) :
    Tot (forUp 0 g.size g (fun i g => filterStep idx g i)) fun g' => g'.size = g.size ∧ ∀ i, i < g.size → adj g' i = up g i := by
  refine (Tot.forUp (P := fun i (g' : Array (List Nat)) => g'.size = g.size ∧ (∀ j, j < i → adj g' j = up g j) ∧ ∀ j, i ≤ j → adj g' j = adj g j) (Nat.zero_le _) ?_ ?_).mono fun g' hg => ⟨hg.1, hg.2.1⟩
  · exact ⟨rfl, fun j hj => by omega, fun j _ => rfl⟩
  · rintro i g' - hi ⟨k1, k2, k3⟩
    unfold filterStep
    have hset : ∀ (x : List Nat) j, adj (g'.setIfInBounds i x) j = if i = j then x else adj g' j := fun x j => at_set [] (by omega) x j
    rw [rd_adj (by omega), ok_bind, rd_at 0 (by omega), ok_bind, k3 i le_rfl, h2 i hi, removeLess_tot h1 h2 _ _ (fun j hj => h.valid i j hj), ok_bind, wr_eq (by omega)]
    refine Tot.pure ⟨by simpa using k1, fun j hj => ?_, fun j hj => ?_⟩
    · rw [hset]
      split
      · next he => subst he; rfl
      · exact k2 j (by omega)
    · rw [hset, if_neg (by omega)]
      exact k3 j (by omega)

/-- The calls of the inner loops for vertex `i`. -/
def calls (A : Nat → List Nat) (i : Nat) : List (Nat × Nat × Nat) := (A i).flatMap fun j => ((A j).filter fun k => decide (k ∈ A i)).map fun k => (i, j, k)

theorem mark_tot {n : Nat} {ex : Array Bool} (hx : ex.size = n) (b : Bool) (l : List Nat) (hl : ∀ j ∈ l, j < n) :
    Tot (forEach l ex fun ex j => wr ex j b) fun ex' => ex'.size = n ∧ ∀ k, at' false ex' k = if k ∈ l then b else at' false ex k := by
  refine (Tot.forEach (P := fun pre (ex' : Array Bool) => ex'.size = n ∧ ∀ k, at' false ex' k = if k ∈ pre then b else at' false ex k) ?_ ?_)
  · exact ⟨hx, fun k => by simp⟩
  · rintro pre x post s he ⟨h1, h2⟩
    have hxn := hl x (by rw [he]; simp)
    rw [wr_eq (by omega)]
    refine Tot.pure ⟨by simpa using h1, fun k => ?_⟩
    rw [at_set false (by omega), h2]
    by_cases h3 : x = k
    · subst h3; simp
    · have : ¬ k = x := fun h => h3 h.symm
      simp [h3, this]

theorem kStep_tot {n : Nat} {ex : Array Bool} (hx : ex.size = n) {A : List Nat} (hA : ∀ k, at' false ex k = decide (k ∈ A)) (i j : Nat) (l : List Nat) (hl : ∀ k ∈ l, k < n) (out : List (Nat × Nat × Nat)) :
    Tot (forEach l out (kStep ex i j)) fun out' => out' = out ++ (l.filter fun k => decide (k ∈ A)).map fun k => (i, j, k) := by
  refine (Tot.forEach (P := fun pre out' => out' = out ++ (pre.filter fun k => decide (k ∈ A)).map fun k => (i, j, k)) (by simp) ?_)
  rintro pre x post s he rfl
  have hxn := hl x (by rw [he]; simp)
  unfold kStep
  rw [rd_at false (by omega), ok_bind, hA]
  refine Tot.pure ?_
  by_cases h : x ∈ A <;> simp [h, List.filter_append]

theorem iStep_tot {n : Nat} {g : Array (List Nat)} (hg : g.size = n) (hv : ∀ i, i < n → ∀ j ∈ adj g i, j < n) {s : Array Bool × List (Nat × Nat × Nat)}
    (hs : s.1.size = n) (hf : ∀ k, at' false s.1 k = false) {i : Nat} (hi : i < n) :
    Tot (iStep g s i) fun s' => s'.1.size = n ∧ (∀ k, at' false s'.1 k = false) ∧ s'.2 = s.2 ++ calls (adj g) i := by
  unfold iStep
  rw [rd_adj (by omega), ok_bind]
  refine Tot.bind (mark_tot hs true _ (hv i hi)) fun ex ⟨e1, e2⟩ => ?_
  refine Tot.bind (P := fun out => out = s.2 ++ calls (adj g) i) ?_ fun out ho => ?_
  · refine Tot.forEach (P := fun pre out => out = s.2 ++ pre.flatMap fun j => ((adj g j).filter fun k => decide (k ∈ adj g i)).map fun k => (i, j, k)) (by simp) ?_
    rintro pre j post out he rfl
    have hj : j < n := hv i hi j (by rw [he]; simp)
    unfold jStep
    rw [rd_adj (by omega), ok_bind]
    refine (kStep_tot e1 (A := adj g i) (fun k => ?_) i j _ (hv j hj) _).mono fun out ho => ?_
    · rw [e2, hf]
      by_cases h : k ∈ adj g i <;> simp [h]
    · rw [ho]; simp
  · refine Tot.bind (mark_tot e1 false _ (hv i hi)) fun ex' ⟨f1, f2⟩ => ?_
    refine Tot.pure ⟨f1, fun k => ?_, ho⟩
    dsimp only
    rw [f2, e2, hf]
    by_cases h : k ∈ adj g i <;> simp [h]

theorem enumerate_tot {g : Array (List Nat)} (h : Simple g) :
    Tot (enumerate g) fun out => ∃ ord : List Nat, ord.Perm (List.range g.size) ∧ out = ord.flatMap (calls (up g)) := by
  unfold enumerate
  dsimp only
  refine Tot.bind (countStep_tot h) fun c1 ⟨a1, a2, a3⟩ => ?_
  refine Tot.bind (prefStep_tot a1 a2 a3) fun c2 ⟨b1, b2⟩ => ?_
  refine Tot.bind (rankStep_tot h b1 b2) fun s ⟨⟨d1, d2⟩, d3⟩ => ?_
  refine Tot.bind (filterStep_tot h d1 d2) fun g' ⟨e1, e2⟩ => ?_
  have hup : ∀ i, i < g.size → ∀ j ∈ up g i, j < g.size := fun i _ j hj => h.valid i j (List.mem_of_mem_filter hj)
  refine Tot.bind (P := fun (r : Array Bool × List (Nat × Nat × Nat)) => r.2 = s.2.1.toList.flatMap (calls (adj g'))) ?_ fun r hr => ?_
  · refine (Tot.forEach (P := fun pre (r : Array Bool × List (Nat × Nat × Nat)) => r.1.size = g.size ∧ (∀ k, at' false r.1 k = false) ∧ r.2 = pre.flatMap (calls (adj g'))) ?_ ?_).mono fun r hr => hr.2.2
    · refine ⟨by simp, fun k => ?_, rfl⟩
      by_cases hk : k < g.size <;> simp [at', hk]
    · rintro pre i post r he ⟨r1, r2, r3⟩
      have hi : i < g.size := by
        rw [← List.mem_range]
        exact d3.subset (by rw [he]; simp)
      refine (iStep_tot e1 (fun i hi => by rw [e2 i hi]; exact hup i hi) r1 r2 hi).mono fun r' ⟨q1, q2, q3⟩ => ⟨q1, q2, ?_⟩
      rw [q3, r3]; simp
  · refine Tot.pure ⟨_, d3, ?_⟩
    rw [hr]
    refine List.flatMap_congr fun i hi => ?_
    have hi : i < g.size := by rw [← List.mem_range]; exact d3.subset hi
    unfold calls
    rw [e2 i hi]
    refine List.flatMap_congr fun j hj => ?_
    rw [e2 j (hup i hi j hj)]

theorem mem_up {g : Array (List Nat)} {i j : Nat} : j ∈ up g i ↔ E g i j ∧ rank g i ≤ rank g j := by
  unfold up
  rw [List.mem_filter, decide_eq_true_iff]
  rfl

theorem mem_calls {A : Nat → List Nat} {i : Nat} {t : Nat × Nat × Nat} : t ∈ calls A i ↔ t.1 = i ∧ t.2.1 ∈ A i ∧ t.2.2 ∈ A t.2.1 ∧ t.2.2 ∈ A i := by
  obtain ⟨a, b, c⟩ := t
  unfold calls
  simp only [List.mem_flatMap, List.mem_map, List.mem_filter, decide_eq_true_iff, Prod.mk.injEq]
  constructor
  · rintro ⟨j, hj, k, ⟨hk1, hk2⟩, rfl, rfl, rfl⟩; exact ⟨rfl, hj, hk1, hk2⟩
  · rintro ⟨rfl, h1, h2, h3⟩; exact ⟨b, h1, c, ⟨h2, h3⟩, rfl, rfl, rfl⟩

theorem nodup_calls {A : Nat → List Nat} (h : ∀ i, (A i).Nodup) (i : Nat) : (calls A i).Nodup := by
  unfold calls
  rw [List.nodup_flatMap]
  refine ⟨fun j _ => ?_, (h i).imp fun {a b} hab => ?_⟩
  · exact ((h j).filter _).map fun a b hab => by simpa using hab
  · rw [Function.onFun, List.disjoint_left]
    intro t h1 h2
    simp only [List.mem_map] at h1 h2
    obtain ⟨k, -, rfl⟩ := h1
    obtain ⟨k', -, he⟩ := h2
    simp only [Prod.mk.injEq] at he
    exact hab he.2.1.symm

/-- All calls: no triple twice, and exactly the triangles in increasing rank. -/
theorem out_spec {g : Array (List Nat)} (h : Simple g) {ord : List Nat} (ho : ord.Perm (List.range g.size)) :
    (ord.flatMap (calls (up g))).Nodup ∧
    ∀ a b c, (a, b, c) ∈ ord.flatMap (calls (up g)) ↔ (E g a b ∧ E g b c ∧ E g a c) ∧ rank g a < rank g b ∧ rank g b < rank g c := by
  have hlt : ∀ {i j}, E g i j → (rank g i ≤ rank g j ↔ rank g i < rank g j) := by
    intro i j hij
    have hj := h.valid _ _ hij
    have hi := h.valid _ _ (h.symm _ _ hij)
    constructor
    · intro hle
      rcases Nat.lt_or_ge (rank g i) (rank g j) with h1 | h1
      · exact h1
      · exact absurd hij (rank_inj hi hj (by omega) ▸ h.irrefl i)
    · exact Nat.le_of_lt
  constructor
  · rw [List.nodup_flatMap]
    refine ⟨fun i _ => nodup_calls (fun i => (h.nodup i).filter _) i, ?_⟩
    refine (ho.nodup_iff.2 List.nodup_range).imp fun {a b} hab => ?_
    rw [Function.onFun, List.disjoint_left]
    intro t h1 h2
    exact hab ((mem_calls.1 h1).1.symm.trans (mem_calls.1 h2).1)
  · intro a b c
    rw [List.mem_flatMap]
    constructor
    · rintro ⟨i, -, hi⟩
      obtain ⟨rfl, h1, h2, h3⟩ := mem_calls.1 hi
      dsimp only at h1 h2 h3
      rw [mem_up] at h1 h2 h3
      exact ⟨⟨h1.1, h2.1, h3.1⟩, (hlt h1.1).1 h1.2, (hlt h2.1).1 h2.2⟩
    · rintro ⟨⟨h1, h2, h3⟩, h4, h5⟩
      refine ⟨a, ?_, mem_calls.2 ⟨rfl, mem_up.2 ⟨h1, h4.le⟩, mem_up.2 ⟨h2, h5.le⟩, mem_up.2 ⟨h3, (h4.trans h5).le⟩⟩⟩
      rw [ho.mem_iff, List.mem_range]
      exact h.valid _ _ (h.symm _ _ h1)

end Triangles
