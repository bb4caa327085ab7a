import Verif.Proof.LevelAncestor
import Verif.Proof.TreeCheck

/-! # C97: level ancestors -/

namespace LevelAncestorProps
open Cxx Graph Tree LevelAncestor

/-- C97: for every tree and every root, the constructor succeeds and `query(u, k)` returns the `k`-th ancestor of `u` for `0 ≤ k ≤ depth(u)` and `-1` for every other `k`, in which case there is no such ancestor; `get_depth` is the distance from the root. -/
theorem levelAncestor_correct (g : Array (List Nat)) (hg : IsTree g) (root : Nat) (hr : root < g.size) : ∃ t, make g root = .ok t ∧
    ∀ u, u < g.size → ∃ d, LevelAncestor.depth t u = .ok d ∧ Dist g root u d ∧
      (∀ k : Nat, k ≤ d → ∃ w : Nat, query t u k = .ok (w : Int) ∧ IsKthAncestor g root u k w) ∧
      (∀ k : Int, k < 0 ∨ k > d → query t u k = .ok (-1)) ∧ ∀ k : Nat, k > d → ∀ w, ¬ IsKthAncestor g root u k w := by
  obtain ⟨F, hF⟩ := exists_rooted hg hr
  obtain ⟨t, ht, b⟩ := make_tot hg hF
  have bd := b.dsize
  refine ⟨t, ht, fun u hu => ⟨Tree.depth root F u, ?_, (hF.depth_iff hg hu).2 rfl, fun k hk => ?_, fun k hk => ?_, fun k hk w hw => ?_⟩⟩
  · rw [LevelAncestor.depth, rd_at 0 (by omega), b.dep u hu]
  · obtain ⟨w, h1, h2, h3⟩ := find_tot hg hF b hu (Nat.sub_le (Tree.depth root F u) k)
    refine ⟨w, ?_, (hF.anc_iff hg hu).2 h2, ?_⟩
    · rw [query, rd_at 0 (by omega), ok_bind, b.dep u hu, if_neg (by omega), Int.toNat_natCast]
      exact h1
    · have hw := hF.mem_lt h2
      have h4 := (hF.dist_of_lca hg hw hu (w := w) (fun a => ⟨fun ha => ⟨ha, rpath_trans hF.nodup ha h2⟩, fun ha => ha.1⟩) hw).1
      rwa [h3, show Tree.depth root F u - k + Tree.depth root F u - 2 * (Tree.depth root F u - k) = k by omega] at h4
  · rw [query, rd_at 0 (by omega), ok_bind, b.dep u hu, if_pos hk]; rfl
  · obtain ⟨h1, h2⟩ := hw
    rw [hF.anc_iff hg hu] at h1
    have hwl := hF.mem_lt h1
    have h4 := (hF.dist_of_lca hg hwl hu (w := w) (fun a => ⟨fun ha => ⟨ha, rpath_trans hF.nodup ha h1⟩, fun ha => ha.1⟩) hwl).1
    obtain ⟨p, hp, hpl⟩ := h2
    obtain ⟨q, hq, hql⟩ := h4
    have := (hg.path w u hwl hu).unique hp hq
    subst this
    omega

/-- C97: the visit times number the vertices `0..n-1`, `get_visit_time_inv` inverts them, every vertex is visited after its ancestors and the descendants of a vertex are visited consecutively. -/
theorem levelAncestor_times (g : Array (List Nat)) (hg : IsTree g) (root : Nat) (hr : root < g.size) : ∃ t, make g root = .ok t ∧ ∃ a : Nat → Nat,
    (∀ u, u < g.size → visitTime t u = .ok (a u) ∧ a u < g.size ∧ visitTimeInv t (a u) = .ok u) ∧
    (∀ i, i < g.size → ∃ u, u < g.size ∧ visitTimeInv t i = .ok u ∧ a u = i) ∧
    (∀ u v, u < g.size → v < g.size → Anc g root u v → a u ≤ a v ∧ ∀ w, w < g.size → a u ≤ a w → a w ≤ a v → Anc g root u w) := by
  obtain ⟨F, hF⟩ := exists_rooted hg hr
  obtain ⟨t, ht, b⟩ := make_tot hg hF
  have b1 := b.vsize
  have b2 := b.isize
  have hlen := rooted_length hF
  have hm : ∀ u, u < g.size → (root :: F.pre)[(root :: F.pre).idxOf u]? = some u := fun u hu => List.getElem?_idxOf (List.mem_cons.2 ((hF.lt_iff u).1 hu))
  have hinv : ∀ i, i < g.size → rd t.inv i = .ok ((root :: F.pre)[i]?.getD 0) := fun i hi => by
    rw [rd_at 0 (by omega), at', ← Array.getElem?_toList, b.inv]
  have hl : ∀ u, u < g.size → (root :: F.pre).idxOf u < g.size := fun u hu => by
    rw [← hlen]; exact (List.getElem?_eq_some_iff.1 (hm u hu)).1
  refine ⟨t, ht, fun u => (root :: F.pre).idxOf u, fun u hu => ⟨?_, hl u hu, ?_⟩, fun i hi => ?_, fun u v hu hv ha => ?_⟩
  · rw [visitTime, rd_at 0 (by omega), b.vis u hu]
  · rw [visitTimeInv, hinv _ (hl u hu), hm u hu]; rfl
  · obtain ⟨u, hu⟩ : ∃ u, (root :: F.pre)[i]? = some u := ⟨_, List.getElem?_eq_getElem (by omega)⟩
    refine ⟨u, (hF.lt_iff u).2 (List.mem_cons.1 (List.mem_of_getElem? hu)), ?_, ?_⟩
    · rw [visitTimeInv, hinv i hi, hu]; rfl
    · obtain ⟨l1, e1⟩ := List.getElem?_eq_some_iff.1 hu
      rw [← e1]
      exact List.Nodup.idxOf_getElem hF.nodup _ _
  · rw [hF.anc_iff hg hv] at ha
    refine ⟨pre_anc_le F root hF.nodup _ _ u v (hm u hu) (hm v hv) ha, fun w hw h1 h2 => ?_⟩
    rw [hF.anc_iff hg hw]
    exact pre_between F root hF.nodup _ _ _ u w v h1 h2 (hm u hu) (hm w hw) (hm v hv) ha

/-- A tree meeting the hypotheses. -/
def sample : Array (List Nat) := #[[1, 3], [2, 0, 4], [1], [0], [1]]

example : IsTree sample ∧ 0 < sample.size := ⟨isTree_of_check (by decide +kernel), by decide⟩

example : (make sample 3 >>= fun t => query t 4 2) = .ok 0 ∧ (make sample 3 >>= fun t => query t 4 4) = .ok (-1) := by
  refine ⟨?_, ?_⟩ <;> decide +kernel

end LevelAncestorProps
