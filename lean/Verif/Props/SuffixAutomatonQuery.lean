import Verif.Proof.SuffixAutomatonSearch

/-!
# Property theorems for the queries of `SuffixAutomaton`

`occs s t` is the list of the positions in `s` at which `t` begins.
-/

namespace SuffixAutomaton
open Cxx Spec

variable {α : Type} [DecidableEq α]

/-- `topological_order` lists every state once; `w u` being the longest word that leads to the state `u`, the states are in the order of these words' lengths. -/
theorem topological_correct (s : List α) : ∃ st, build s = .ok st ∧ ∀ rev, ∃ res, topologicalOrder st rev = .ok res ∧
    res.Perm (List.range st.nodes.size) ∧ ∃ w : Nat → List α,
      (∀ u, u < st.nodes.size → transition st (w u) = .ok (some u) ∧ ∀ t, transition st t = .ok (some u) → t.length ≤ (w u).length) ∧
      (if rev then res.Pairwise fun a b => (w b).length ≤ (w a).length else res.Pairwise fun a b => (w a).length ≤ (w b).length) := by
  obtain ⟨st, e, L, h⟩ := build_tot s
  refine ⟨st, e, fun rev => ?_⟩
  obtain ⟨res, e1, h1, h2⟩ := topologicalOrder_tot h.graded rev
  refine ⟨res, e1, h1, L, fun u hu => ⟨?_, fun t ht => ?_⟩, h2⟩
  · obtain ⟨r, hr, g1, g2⟩ := h.transition (L u)
    cases r with
    | none => exact absurd (h.isCan hu).1 (g2 rfl)
    | some u' =>
      obtain ⟨a, b⟩ := g1 u' rfl
      rw [hr, h.inj u u' hu a (cl_unique (cl_self (h.isCan hu)) b)]
  · obtain ⟨r, hr, g1, g2⟩ := h.transition t
    rw [ht] at hr
    obtain rfl : some u = r := by simpa using hr
    exact (g1 u rfl).2.2.2.1.length_le

example : (build [0, 1, 1, 0]).bind (fun st => topologicalOrder st true) = .ok [5, 3, 2, 4, 1, 0] := by decide +kernel

/-- `count(t)` is the number of occurrences of `t`. -/
theorem count_correct (s : List α) : ∃ st dp, build s = .ok st ∧ counter st = .ok dp ∧ ∀ t, count st dp t = .ok (occs s t).length := by
  obtain ⟨st, e, L, h⟩ := build_tot s
  obtain ⟨dp, e1, h1, h2⟩ := h.counter
  refine ⟨st, dp, e, e1, fun t => ?_⟩
  obtain ⟨r, hr, g1, g2⟩ := h.transition t
  unfold count
  rw [hr, ok_bind]
  cases r with
  | none => rw [no_occs (g2 rfl)]; rfl
  | some u =>
    obtain ⟨a, b⟩ := g1 u rfl
    dsimp only
    rw [rd_at 0 (by omega), h2 u a]
    unfold G
    rw [← cl_ends b, ← (occs_ends s t).length_eq, List.length_map]

example : (build [0, 1, 1, 0, 1]).bind (fun st => do count st (← counter st) [0, 1]) = .ok 2 := by decide +kernel

/-- `enumerate_all_occurrence(t)` returns the positions at which `t` begins, each once. -/
theorem enumerate_correct (s : List α) : ∃ st g, build s = .ok st ∧ linkTree st = .ok g ∧
    ∀ t, ∃ r, enumerate st g t = .ok r ∧ r.Perm ((occs s t).map fun i : Nat => (i : Int)) := by
  obtain ⟨st, e, L, h⟩ := build_tot s
  obtain ⟨g, e1, h1, h2⟩ := h.linkTree
  refine ⟨st, g, e, e1, fun t => ?_⟩
  obtain ⟨r, hr, g1, g2⟩ := h.transition t
  unfold enumerate
  rw [hr, ok_bind]
  cases r with
  | none => exact ⟨_, rfl, by rw [no_occs (g2 rfl)]; simp⟩
  | some u =>
    obtain ⟨a, b⟩ := g1 u rfl
    have := h.many
    obtain ⟨r, er, R, r1, r2, r3⟩ := h.dfs h1 h2 t.length (st.nodes.size + 1) u [] a (by omega)
    refine ⟨r, er, ?_⟩
    have hp : R.Perm (ends s t) := by
      rw [List.perm_ext_iff_of_nodup r2 (show (ends s t).Nodup from List.nodup_range.filter _)]
      intro e
      rw [r3, cl_ends b, mem_ends]
    rw [r1, List.nil_append]
    refine ((hp.trans (occs_ends s t).symm).map _).trans ?_
    rw [List.map_map]
    refine List.Perm.of_eq (List.map_congr_left fun i _ => ?_)
    simp

example : (build [0, 1, 1, 0, 1]).bind (fun st => do enumerate st (← linkTree st) [0, 1]) = .ok [0, 3] := by decide +kernel

/-- `first_occurrence(t)` is the first position at which `t` begins, or -1 if there is none. -/
theorem first_correct (s : List α) (hs : s.length ≤ 2147483647) : ∃ st dp, build s = .ok st ∧ firstTable st = .ok dp ∧
    ∀ t, ∃ r, firstOccurrence st dp t = .ok r ∧
      (occs s t = [] ∧ r = -1 ∨ ∃ i : Nat, r = i ∧ i ∈ occs s t ∧ ∀ j, j ∈ occs s t → i ≤ j) := by
  obtain ⟨st, e, L, h⟩ := build_tot s
  obtain ⟨dp, e1, h1, h2⟩ := h.firstTable hs
  refine ⟨st, dp, e, e1, fun t => ?_⟩
  obtain ⟨r, hr, g1, g2⟩ := h.transition t
  unfold firstOccurrence
  rw [hr, ok_bind]
  cases r with
  | none => exact ⟨_, rfl, Or.inl ⟨no_occs (g2 rfl), rfl⟩⟩
  | some u =>
    obtain ⟨a, b⟩ := g1 u rfl
    obtain ⟨e, x1, x2, x3⟩ := h2 u a
    dsimp only
    rw [rd_at 0 (by omega), ok_bind, x1]
    rw [← cl_ends b] at x2 x3
    rw [← (occs_ends s t).mem_iff, List.mem_map] at x2
    obtain ⟨i, i1, rfl⟩ := x2
    refine ⟨_, rfl, Or.inr ⟨i, by push_cast; omega, i1, fun j hj => ?_⟩⟩
    have := x3 (j + t.length) ((occs_ends s t).mem_iff.1 (List.mem_map.2 ⟨j, hj, rfl⟩))
    omega

example : (build [0, 1, 1, 0, 1]).bind (fun st => do firstOccurrence st (← firstTable st) [1]) = .ok 1 := by decide +kernel
example : (build [0, 1, 1, 0, 1]).bind (fun st => do firstOccurrence st (← firstTable st) [0, 0]) = .ok (-1) := by decide +kernel

/-- `longest_common_substring(t)` returns a word that is at the stated positions in both sequences, and no longer word occurs in both. -/
theorem lcs_correct (s : List α) : ∃ st, build s = .ok st ∧ ∀ t : Array α, ∃ a b m : Nat,
    longestCommonSubstring st t = .ok ((a : Int), (b : Int), (m : Int)) ∧ a + m ≤ s.length ∧ b + m ≤ t.size ∧
    (s.drop a).take m = (t.toList.drop b).take m ∧ ∀ z, z <:+: s → z <:+: t.toList → z.length ≤ m := by
  obtain ⟨st, e, L, h⟩ := build_tot s
  refine ⟨st, e, fun t => ?_⟩
  obtain ⟨r, er, a, b, m, rfl, h'⟩ := h.lcs t
  exact ⟨a, b, m, er, h'⟩

example : (build [0, 1, 1, 0, 1]).bind (fun st => longestCommonSubstring st #[2, 1, 0, 1, 0]) = .ok (2, 1, 3) := by decide +kernel

end SuffixAutomaton
