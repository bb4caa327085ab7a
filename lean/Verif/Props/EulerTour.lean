import Verif.Proof.EulerTour
import Verif.Proof.TreeCheck

/-! # C96: lowest common ancestors, distances and times of the Euler tour -/

namespace EulerTourProps
open Cxx Graph Tree EulerTour

/-- C96: for every tree with at most `2^28` vertices and every root, the constructor succeeds, and for all vertices `lca` is the lowest common ancestor, `dist` the number of edges between them, `depth` the distance from the root, and `parent` the parent, or `-1` for the root. -/
theorem eulerTour_correct (g : Array (List Nat)) (hg : IsTree g) (hn : g.size ≤ 2 ^ 28) (root : Nat) (hr : root < g.size) : ∃ t, make g root = .ok t ∧
    (∀ u v, u < g.size → v < g.size → ∃ w, lca t u v = .ok w ∧ IsLCA g root u v w) ∧
    (∀ u v, u < g.size → v < g.size → ∃ d : Nat, dist t u v = .ok (d : Int) ∧ Dist g u v d) ∧
    (∀ u, u < g.size → ∃ d : Nat, EulerTour.depth t u = .ok (d : Int) ∧ Dist g root u d) ∧
    parent t root = .ok (-1) ∧ (∀ u, u < g.size → u ≠ root → ∃ p : Nat, parent t u = .ok (p : Int) ∧ Parent g root p u) := by
  obtain ⟨F, hF⟩ := exists_rooted hg hr
  obtain ⟨t, ht, b⟩ := make_tot hg hn hF
  refine ⟨t, ht, fun u v hu hv => ?_, fun u v hu hv => ?_, fun u hu => ?_, ?_, fun u hu hur => ?_⟩
  · obtain ⟨w, h1, h2, h3⟩ := lca_tot hg hn b hu hv
    exact ⟨w, h1, (hF.lca_iff hg hu hv h2).2 h3⟩
  · obtain ⟨d, h1, k, rfl, h2⟩ := dist_tot hg hn b hu hv
    exact ⟨k, h1, h2⟩
  · refine ⟨Tree.depth root F u, ?_, (hF.depth_iff hg hu).2 rfl⟩
    have := b.dsize
    rw [EulerTour.depth, rd_at 0 (by omega), b.dep u hu]
  · obtain ⟨p, h1, h2 | h2⟩ := parent_tot hg hn b hr
    · rw [h1, h2.2]
    · exact absurd rfl h2.1
  · obtain ⟨p, h1, h2 | ⟨-, q, rfl, h3, h4⟩⟩ := parent_tot hg hn b hu
    · exact absurd h2.1 hur
    · exact ⟨q, h1, hF.parent_of hg hu h3 h4⟩

/-- C96: the time intervals `[visit_time, leave_time]` are nested for a vertex and its ancestors and disjoint for unrelated vertices; all times are below `2 n`. -/
theorem eulerTour_times (g : Array (List Nat)) (hg : IsTree g) (hn : g.size ≤ 2 ^ 28) (root : Nat) (hr : root < g.size) : ∃ t, make g root = .ok t ∧ ∃ a b : Nat → Nat,
    (∀ u, u < g.size → visitTime t u = .ok (a u) ∧ leaveTime t u = .ok (b u) ∧ a u < b u ∧ b u < 2 * g.size) ∧
    (∀ u v, u < g.size → v < g.size → (Anc g root u v ↔ a u ≤ a v ∧ b v ≤ b u)) ∧
    (∀ u v, u < g.size → v < g.size → ¬ Anc g root u v → ¬ Anc g root v u → b u < a v ∨ b v < a u) := by
  obtain ⟨F, hF⟩ := exists_rooted hg hr
  obtain ⟨t, ht, B⟩ := make_tot hg hn hF
  have hm : ∀ x, x < g.size → x ∈ (Forest.cons root F .nil).pre := by
    intro x hx
    simp only [Forest.pre, List.append_nil, List.mem_cons]
    exact (hF.lt_iff x).1 hx
  have hnd : (Forest.cons root F .nil).pre.Nodup := by simpa [Forest.pre] using hF.nodup
  have hanc : ∀ x y, y < g.size → (x ∈ (Forest.cons root F .nil).path y ↔ Anc g root x y) := by
    intro x y hy
    rw [hF.anc_iff hg hy, rpath, Forest.path]
    by_cases hyr : y = root
    · rw [if_pos hyr, if_pos hyr]
    · rw [if_neg hyr, if_neg hyr, if_pos (((hF.lt_iff y).1 hy).resolve_left hyr)]
  have hs := rooted_size hF
  refine ⟨t, ht, vt (.cons root F .nil) 0, lv (.cons root F .nil) 0, fun u hu => ?_, fun u v hu hv => ?_, fun u v hu hv h1 h2 => ?_⟩
  · have h1 := B.vsize
    have h2 := B.lsize
    have h3 := lv_lt (.cons root F .nil) (k := 0) (hm u hu)
    rw [Forest.size_cons, Forest.size_nil] at h3
    rw [visitTime, leaveTime, rd_at 0 (by omega), rd_at 0 (by omega), B.visit u hu, B.leave u hu]
    exact ⟨rfl, rfl, by omega, by omega⟩
  · have l1 := lv_lt (.cons root F .nil) (k := 0) (hm u hu)
    have l2 := lv_lt (.cons root F .nil) (k := 0) (hm v hv)
    rw [← hanc u v hv]
    rcases nested (.cons root F .nil) (k := 0) hnd (hm u hu) (hm v hv) with ⟨h1, h2, h3⟩ | ⟨h1, h2, h3⟩ | ⟨h1, h2, h3⟩
    · exact ⟨fun _ => ⟨h2, h3⟩, fun _ => h1⟩
    · constructor
      · intro h
        have hpre := (Forest.path_prefix hnd h).length_le
        have hpre' := Forest.path_prefix hnd h1
        have heq := hpre'.eq_of_length_le hpre
        have e1 := Forest.path_last (hm u hu)
        have e2 := Forest.path_last (hm v hv)
        rw [heq, e1] at e2
        simp at e2
        subst e2
        exact ⟨le_refl _, le_refl _⟩
      · rintro ⟨h4, h5⟩
        have e : vt (.cons root F .nil) 0 u = vt (.cons root F .nil) 0 v := by omega
        have t1 := (vt_spec (.cons root F .nil) 0 0 u (hm u hu)).2
        have t2 := (vt_spec (.cons root F .nil) 0 0 v (hm v hv)).2
        rw [e, t2] at t1
        simp at t1
        subst t1
        exact h1
    · refine ⟨fun h => absurd h h1, fun h => ?_⟩
      omega
  · rw [← hanc u v hv] at h1
    rw [← hanc v u hu] at h2
    rcases nested (.cons root F .nil) (k := 0) hnd (hm u hu) (hm v hv) with h | h | h
    · exact absurd h.1 h1
    · exact absurd h.1 h2
    · exact h.2.2

/-- A tree meeting the hypotheses. -/
def sample : Array (List Nat) := #[[1, 3], [2, 0, 4], [1], [0], [1]]

example : IsTree sample ∧ sample.size ≤ 2 ^ 28 := ⟨isTree_of_check (by decide +kernel), by decide⟩

example : (make sample 0 >>= fun t => lca t 2 4) = .ok 1 ∧ (make sample 0 >>= fun t => dist t 2 3) = .ok 3 ∧ (make sample 2 >>= fun t => parent t 0) = .ok 1 := by
  refine ⟨?_, ?_, ?_⟩ <;> decide +kernel

end EulerTourProps
