import Verif.Proof.GraphBasic

/-! # Proofs about `library/graph/remove_multiedges.hpp` -/

namespace RemoveMultiedges
open Cxx Graph

theorem set_tot {n : Nat} (vs : List Nat) (hv : ∀ v ∈ vs, v < n) (ex : Array Bool) (hs : ex.size = n) (h : ∀ v, at' false ex v = false) :
    Tot (forEach vs ex fun ex v => wr ex v true) fun ex => ex.size = n ∧ ∀ v, at' false ex v = decide (v ∈ vs) := by
  refine Tot.forEach (P := fun pre (ex : Array Bool) => ex.size = n ∧ ∀ v, at' false ex v = decide (v ∈ pre)) ⟨hs, by simpa using h⟩ ?_
  rintro pre v post ex he ⟨h1, h2⟩
  have := hv v (by simp [he])
  rw [wr_eq (by omega)]
  refine Tot.pure ⟨by simpa using h1, fun w => ?_⟩
  rw [at_set' false (by omega), h2]
  by_cases hw : w = v <;> simp [hw]

theorem keep_tot {n : Nat} (vs : List Nat) (hv : ∀ v ∈ vs, v < n) (ex : Array Bool) (hs : ex.size = n) (h : ∀ v, at' false ex v = decide (v ∈ vs)) :
    Tot (forEach vs (ex, []) keepStep) fun t => t.1.size = n ∧ (∀ v, at' false t.1 v = false) ∧ t.2 = vs.eraseDups := by
  refine (Tot.forEach (P := fun pre (t : Array Bool × List Nat) => t.1.size = n ∧ (∀ v, at' false t.1 v = decide (v ∈ vs ∧ v ∉ pre)) ∧ t.2 = pre.eraseDups) ⟨hs, by simpa using h, by simp⟩ ?_).mono ?_
  · rintro pre v post ⟨ex, l⟩ he ⟨h1, h2, h3⟩
    have := hv v (by simp [he])
    dsimp only at h1 h2 h3
    rw [keepStep]
    dsimp only
    rw [rd_at false (by omega), ok_bind, wr_eq (by omega), ok_bind]
    have hvm : v ∈ vs := by simp [he]
    refine Tot.pure ⟨by simpa using h1, fun w => ?_, ?_⟩
    · dsimp only
      rw [at_set' false (by omega), h2]
      by_cases hw : w = v <;> simp [hw]
    · dsimp only
      rw [h2, h3, List.eraseDups_append]
      by_cases hp : v ∈ pre
      · simp [hp, List.removeAll]
      · simp [hp, hvm, List.removeAll, List.eraseDups_cons]
  · rintro ⟨ex, l⟩ ⟨h1, h2, h3⟩
    refine ⟨h1, fun v => ?_, h3⟩
    rw [h2]
    simp

theorem run_tot (g : Array (List Nat)) (hg : Valid g) : Tot (run g) fun r => r = g.map List.eraseDups := by
  rw [run]
  refine Tot.bind (P := fun (t : Array Bool × List (List Nat)) => t.2 = g.toList.map List.eraseDups) ?_ ?_
  · refine (Tot.forEach (P := fun pre (t : Array Bool × List (List Nat)) => t.1.size = g.size ∧ (∀ v, at' false t.1 v = false) ∧ t.2 = pre.map List.eraseDups) ⟨by simp, fun v => ?_, rfl⟩ ?_).mono ?_
    · by_cases h : v < g.size <;> simp [at', h]
    · rintro pre l post ⟨ex, res⟩ he ⟨h1, h2, h3⟩
      have hl : adj g pre.length = l := by
        rw [adj, ← Array.getElem?_toList, he]
        simp
      have hlt : ∀ v ∈ l, v < g.size := fun v hv => hg pre.length v (by rw [E, hl]; exact hv)
      rw [listStep]
      dsimp only at h1 h2 h3 ⊢
      refine Tot.bind (set_tot l hlt ex h1 h2) ?_
      rintro ex' ⟨k1, k2⟩
      refine Tot.bind (keep_tot l hlt ex' k1 k2) ?_
      rintro ⟨ex2, kept⟩ ⟨j1, j2, j3⟩
      dsimp only at j3
      subst j3
      refine Tot.pure ⟨j1, j2, ?_⟩
      dsimp only
      rw [h3]
      simp
    · rintro t ⟨_, _, h⟩
      exact h
  · rintro t ht
    refine Tot.pure ?_
    rw [ht]
    apply Array.toList_inj.1
    simp

end RemoveMultiedges
