import Verif.Model.GetTreePath
import Verif.Proof.PreOrder

/-! # Proofs about `library/tree/get_path.hpp` -/

namespace GetTreePath
open Cxx Graph Tree

theorem done {cur : Nat} {par : Option Nat} {rec : Nat → Option Nat → Array Nat → M (Bool × Array Nat)} (l : List Nat) (res : Array Nat) : forEach l (true, res) (kid cur par rec) = .ok (true, res) := by
  induction l with
  | nil => rfl
  | cons x l ih =>
    rw [forEach, kid, if_pos rfl]
    exact ih

theorem kids_dfs {g : Array (List Nat)} {v : Nat} (F : Forest) : ∀ (u : Nat) (p : Option Nat) (fuel : Nat) (l : List Nat) (res : Array Nat), (l.filter fun w => decide (some w ≠ p)) = F.roots →
    F.Fits g (some u) → F.height ≤ fuel → F.pre.Nodup → Tot (forEach l (false, res) (kid u p (dfs g v fuel))) fun s => s.1 = decide (v ∈ F.pre) ∧ s.2.toList = res.toList ++ F.path v := by
  induction F with
  | nil =>
    intro u p fuel l res hl hf hh hn
    rw [kids_nil (q := fun w => decide (some w ≠ p)) (fun s x hx => by simp at hx; rw [kid]; split; rfl; rw [if_neg (by simp [hx])]; rfl) hl]
    exact Tot.pure ⟨by simp [Forest.pre], by simp [Forest.path]⟩
  | cons w ch rest ih1 ih2 =>
    intro u p fuel l res hl hf hh hn
    obtain ⟨hw, f1, f2, f3⟩ := hf
    rw [Forest.pre, List.nodup_cons, List.mem_append, List.nodup_append] at hn
    obtain ⟨m2, m3, m4, m5⟩ := hn
    simp only [Forest.height] at hh
    obtain ⟨fuel, rfl⟩ : ∃ f, fuel = f + 1 := ⟨fuel - 1, by omega⟩
    have hwp : some w ≠ p := by
      obtain ⟨a, b, -, -, h, -⟩ := kids_cons hl
      simpa using h
    refine kids_tot (q := fun w => decide (some w ≠ p)) (R := rest.roots) (v := w) (fun s x hx => by simp at hx; rw [kid]; split; rfl; rw [if_neg (by simp [hx])]; rfl) hl ?_
    rw [kid, if_neg (by simp), if_pos hwp, dfs]
    simp only [Forest.pre, Forest.path]
    by_cases hwv : w = v
    · subst hwv
      rw [if_pos rfl]
      refine Tot.pure fun b _ _ => ?_
      rw [done]
      exact Tot.pure ⟨by simp, by simp⟩
    · rw [if_neg hwv, if_neg (Ne.symm hwv), rd_some (adj_eq hw), ok_bind]
      refine Tot.bind (ih1 w (some u) fuel (adj g w) _ f1.symm f2 (by omega) m3) ?_
      rintro ⟨b, q⟩ ⟨h1, h2⟩
      dsimp only at h1 h2
      unfold leave
      by_cases hvc : v ∈ ch.pre
      · rw [decide_eq_true hvc] at h1
        subst h1
        rw [if_pos rfl]
        refine Tot.pure fun b _ _ => ?_
        rw [done]
        refine Tot.pure ⟨by simp [hvc], ?_⟩
        dsimp only
        rw [h2, if_pos hvc]
        simp
      · rw [decide_eq_false hvc] at h1
        subst h1
        rw [Forest.path_nil hvc, List.append_nil] at h2
        have hq : q = res.push w := Array.toList_inj.1 h2
        subst hq
        rw [if_neg (by simp), if_neg (by simp)]
        dsimp only
        rw [Array.pop_push]
        refine Tot.pure fun b _ hb => ?_
        refine (ih2 u p (fuel + 1) b res hb f3 (by omega) m4).mono ?_
        rintro s ⟨h3, h4⟩
        refine ⟨?_, ?_⟩
        · rw [h3]
          simp [hvc, Ne.symm hwv]
        · rw [h4, if_neg hvc]

theorem getTreePath_tot {g : Array (List Nat)} {u v : Nat} {F : Forest} (hg : IsTree g) (h : Rooted g u F) (hv : v < g.size) : Tot (getTreePath g u v) fun p => p.toList = rpath u F v := by
  have hn0 := hg.pos
  obtain ⟨f, hf⟩ : ∃ f, g.size = f + 1 := ⟨g.size - 1, by omega⟩
  have hsz : F.size + 1 = g.size := by
    have := h.perm.length_eq
    simpa [Forest.size] using this
  have hh := F.height_le
  unfold getTreePath
  rw [hf, dfs]
  by_cases huv : u = v
  · rw [if_pos huv, ← huv, rpath_root]
    exact Tot.pure rfl
  · rw [if_neg huv, rd_some (adj_eq h.lt), ok_bind]
    refine Tot.bind (P := fun s : Bool × Array Nat => s.2.toList = rpath u F v) ?_ fun s hs => Tot.pure hs
    refine Tot.bind (kids_dfs F u none f (adj g u) _ (by rw [h.roots]; simp) h.fits (by omega) (List.nodup_cons.1 h.nodup).2) ?_
    rintro ⟨b, q⟩ ⟨h1, h2⟩
    dsimp only at h1 h2
    rw [decide_eq_true (((h.lt_iff v).1 hv).resolve_left (Ne.symm huv))] at h1
    subst h1
    rw [leave, if_pos rfl, rpath_ne F (Ne.symm huv)]
    refine Tot.pure ?_
    dsimp only
    rw [h2]; rfl

end GetTreePath
