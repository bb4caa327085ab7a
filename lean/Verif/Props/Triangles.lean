import Verif.Proof.Triangles
import Mathlib.Data.Finset.Insert

/-! # Theorems about `enumerate_triangles.hpp` -/

namespace TrianglesProps
open Cxx Graph Triangles

/-- The three vertices are pairwise adjacent. -/
def Triangle (g : Array (List Nat)) (a b c : Nat) : Prop := E g a b ∧ E g b c ∧ E g a c

/-- The call has these three vertices, in some order. -/
def Covers (a b c : Nat) (t : Nat × Nat × Nat) : Prop := ({t.1, t.2.1, t.2.2} : Finset Nat) = {a, b, c}

instance (a b c : Nat) (t : Nat × Nat × Nat) : Decidable (Covers a b c t) := by unfold Covers; infer_instance

theorem triangle_perm {g : Array (List Nat)} (h : Simple g) {a b c : Nat} (ht : Triangle g a b c) : Triangle g b a c ∧ Triangle g a c b := by
  obtain ⟨h1, h2, h3⟩ := ht
  exact ⟨⟨h.symm _ _ h1, h3, h2⟩, ⟨h3, h.symm _ _ h2, h1⟩⟩

/-- Every triangle can be listed in increasing rank. -/
theorem exists_sorted {g : Array (List Nat)} (h : Simple g) {a b c : Nat} (ht : Triangle g a b c) :
    ∃ x y z, ({x, y, z} : Finset Nat) = {a, b, c} ∧ Triangle g x y z ∧ rank g x < rank g y ∧ rank g y < rank g z := by
  have lt : ∀ {u v}, E g u v → rank g u ≠ rank g v := fun {u v} hu he => h.irrefl u (by
    have := rank_inj (h.valid _ _ (h.symm _ _ hu)) (h.valid _ _ hu) he
    subst this; exact hu)
  have e1 : rank g a ≠ rank g b := lt ht.1
  have e2 : rank g b ≠ rank g c := lt ht.2.1
  have e3 : rank g a ≠ rank g c := lt ht.2.2
  obtain ⟨p1, p2⟩ := triangle_perm h ht
  obtain ⟨-, p3⟩ := triangle_perm h p1
  obtain ⟨p4, -⟩ := triangle_perm h p2
  obtain ⟨p5, -⟩ := triangle_perm h p3
  by_cases h1 : rank g a < rank g b
  · by_cases h2 : rank g b < rank g c
    · exact ⟨a, b, c, rfl, ht, h1, h2⟩
    · by_cases h3 : rank g a < rank g c
      · exact ⟨a, c, b, by ext x; simp; tauto, p2, h3, by omega⟩
      · exact ⟨c, a, b, by ext x; simp; tauto, p4, by omega, h1⟩
  · by_cases h2 : rank g b < rank g c
    · by_cases h3 : rank g a < rank g c
      · exact ⟨b, a, c, by ext x; simp; tauto, p1, by omega, h3⟩
      · exact ⟨b, c, a, by ext x; simp; tauto, p3, h2, by omega⟩
    · exact ⟨c, b, a, by ext x; simp; tauto, p5, by omega, by omega⟩

/-- **C92** For every simple undirected graph the function is called only with triangles, and exactly once for each set of three pairwise adjacent vertices. -/
theorem triangles_once (g : Array (List Nat)) (h : Simple g) :
    ∃ out, enumerate g = .ok out ∧ (∀ t ∈ out, Triangle g t.1 t.2.1 t.2.2) ∧
      ∀ a b c, Triangle g a b c → out.countP (fun t => decide (Covers a b c t)) = 1 := by
  obtain ⟨out, e, ord, ho, rfl⟩ := enumerate_tot h
  obtain ⟨hn, hm⟩ := out_spec h ho
  refine ⟨_, e, fun t ht => ((hm _ _ _).1 ht).1, fun a b c ht => ?_⟩
  obtain ⟨x, y, z, hs, hxyz, h1, h2⟩ := exists_sorted h ht
  have huniq : ∀ t ∈ ord.flatMap (calls (up g)), decide (Covers a b c t) = true ↔ t = (x, y, z) := by
    rintro ⟨u, v, w⟩ ht'
    obtain ⟨h3, h4, h5⟩ := (hm _ _ _).1 ht'
    rw [decide_eq_true_iff]
    unfold Covers
    dsimp only
    rw [← hs]
    constructor
    · intro he
      have m1 : u = x ∨ u = y ∨ u = z := by simpa using (he ▸ (by simp : u ∈ ({u, v, w} : Finset Nat)) : u ∈ ({x, y, z} : Finset Nat))
      have m2 : v = x ∨ v = y ∨ v = z := by simpa using (he ▸ (by simp : v ∈ ({u, v, w} : Finset Nat)) : v ∈ ({x, y, z} : Finset Nat))
      have m3 : w = x ∨ w = y ∨ w = z := by simpa using (he ▸ (by simp : w ∈ ({u, v, w} : Finset Nat)) : w ∈ ({x, y, z} : Finset Nat))
      rcases m1 with rfl | rfl | rfl <;> rcases m2 with rfl | rfl | rfl <;> rcases m3 with rfl | rfl | rfl <;> first | rfl | omega
    · intro he
      simp only [Prod.mk.injEq] at he
      obtain ⟨rfl, rfl, rfl⟩ := he
      rfl
  have hin : (x, y, z) ∈ ord.flatMap (calls (up g)) := (hm _ _ _).2 ⟨hxyz, h1, h2⟩
  rw [List.countP_congr (q := fun t => t == (x, y, z)) (fun t ht' => by rw [huniq t ht', beq_iff_eq])]
  exact List.count_eq_one_of_mem hn hin

/-- Two triangles sharing an edge, and a pendant vertex. -/
def sample : Array (List Nat) := #[[1, 2], [2, 0, 3], [3, 0, 1], [1, 4, 2], [3]]

instance (g : Array (List Nat)) (u v : Nat) : Decidable (E g u v) := by unfold E; infer_instance

theorem simple_of {g : Array (List Nat)} (h1 : ∀ u, u < g.size → ∀ v ∈ adj g u, v < g.size ∧ u ∈ adj g v) (h2 : ∀ u, u < g.size → u ∉ adj g u ∧ (adj g u).Nodup) : Simple g := by
  have h0 : ∀ u, ¬ u < g.size → adj g u = [] := fun u hu => by unfold adj; rw [Array.getElem?_eq_none (by omega)]; rfl
  refine ⟨fun u v hv => ?_, fun u v hv => ?_, fun u hv => ?_, fun u => ?_⟩
  · by_cases hu : u < g.size
    · exact (h1 u hu v hv).1
    · rw [E, h0 u hu] at hv; simp at hv
  · by_cases hu : u < g.size
    · exact (h1 u hu v hv).2
    · rw [E, h0 u hu] at hv; simp at hv
  · by_cases hu : u < g.size
    · exact (h2 u hu).1 hv
    · rw [E, h0 u hu] at hv; simp at hv
  · by_cases hu : u < g.size
    · exact (h2 u hu).2
    · rw [h0 u hu]; exact List.nodup_nil

example : Simple sample := simple_of (by decide) (by decide)
example : Triangle sample 3 1 2 := by unfold Triangle; decide
example : enumerate sample = .ok [(0, 2, 1), (1, 2, 3)] ∨ enumerate sample = .ok [(0, 1, 2), (1, 2, 3)] := by decide +kernel

end TrianglesProps
