import Verif.Model.Util
import Mathlib.Data.List.Chain
import Mathlib.Tactic.Common

/-! # Lemmas on run-length encoding -/

namespace RunLength
open Cxx
variable {α : Type} [DecidableEq α]

/-- The sequence a list of runs stands for. -/
def expand (l : List (α × Nat)) : List α := l.flatMap fun x => List.replicate x.2 x.1

/-- Positive lengths, and neighbouring runs have different values. -/
def Runs (l : List (α × Nat)) : Prop := (∀ x ∈ l, 0 < x.2) ∧ l.IsChain fun a b => a.1 ≠ b.1

theorem expand_append (l m : List (α × Nat)) : expand (l ++ m) = expand l ++ expand m := by
  simp [expand]

theorem expand_single (v : α) (n : Nat) : expand [(v, n)] = List.replicate n v := by simp [expand]

/-- Adding a run whose value differs from the last one. -/
theorem runs_push {l : List (α × Nat)} (h : Runs l) {v : α} {n : Nat} (hn : 0 < n)
    (hl : ∀ x, l.getLast? = some x → x.1 ≠ v) : Runs (l ++ [(v, n)]) := by
  refine ⟨fun x hx => ?_, ?_⟩
  · rcases List.mem_append.1 hx with hx | hx
    · exact h.1 x hx
    · rw [List.mem_singleton.1 hx]; exact hn
  · rw [List.isChain_append]
    refine ⟨h.2, by simp, ?_⟩
    intro x hx y hy
    simp at hy
    rw [← hy]
    exact hl x hx

/-- The last run made longer. -/
theorem runs_bump {l : List (α × Nat)} {v : α} {n k : Nat} (h : Runs (l ++ [(v, n)])) : Runs (l ++ [(v, n + k)]) := by
  obtain ⟨h1, h2⟩ := h
  rw [List.isChain_append] at h2
  have hn : 0 < n := h1 (v, n) (by simp)
  have hR : Runs l := ⟨fun x hx => h1 x (by simp [hx]), h2.1⟩
  refine runs_push hR (by omega) fun x hx => ?_
  exact h2.2.2 x hx (v, n) (by simp)

/-- The run starting at `l` ends at `r`. -/
theorem run_tot (c : Array α) (l : Nat) (hl : l < c.size) (v : α) (hv : c[l]? = some v) :
    Tot (loop (runStep c l) c.size l) fun r => l < r ∧ r ≤ c.size ∧ (∀ i, l ≤ i → i < r → c[i]? = some v) ∧
      (r < c.size → c[r]? ≠ some v) := by
  refine (Tot.loop (P := fun (r : Nat) => l ≤ r ∧ r ≤ c.size ∧ ∀ i, l ≤ i → i < r → c[i]? = some v)
    (μ := fun r => c.size - r) ?_ ⟨Nat.le_refl _, by omega, fun i h1 h2 => by omega⟩ ?_)
  rotate_left
  · show c.size - l ≤ c.size
    omega
  · rintro r ⟨h1, h2, h3⟩
    rw [runStep]
    split
    · rename_i he
      refine Tot.pure ⟨?_, by omega, h3, by omega⟩
      omega
    · rename_i he
      rw [rd_some hv, ok_bind, rd_eq (by omega : r < c.size), ok_bind]
      split
      · rename_i hx
        refine Tot.pure ⟨⟨by omega, by omega, ?_⟩, by omega⟩
        intro i hi hir
        rcases Nat.lt_or_ge i r with h | h
        · exact h3 i hi h
        · have : i = r := by omega
          subst this
          rw [hx, Array.getElem?_eq_getElem]
      · rename_i hx
        refine Tot.pure ⟨?_, by omega, h3, ?_⟩
        · rcases Nat.lt_or_ge l r with h | h
          · exact h
          · exfalso
            have hr : r = l := by omega
            subst hr
            rw [Array.getElem?_eq_getElem hl] at hv
            cases hv
            exact hx rfl
        · intro _ hr
          rw [Array.getElem?_eq_getElem (by omega)] at hr
          cases hr
          exact hx rfl

theorem take_replicate {c : Array α} {l r : Nat} {v : α} (hr : r ≤ c.size) (hlr : l ≤ r)
    (h : ∀ i, l ≤ i → i < r → c[i]? = some v) : c.toList.take r = c.toList.take l ++ List.replicate (r - l) v := by
  apply List.ext_getElem?
  intro i
  rw [List.getElem?_take, List.getElem?_append, List.length_take, List.getElem?_take, List.getElem?_replicate]
  rw [Array.length_toList, Nat.min_eq_left (by omega : l ≤ c.size), Array.getElem?_toList]
  rcases Nat.lt_or_ge i l with h1 | h1
  · rw [if_pos (by omega), if_pos h1, if_pos h1]
  · rw [if_neg (by omega : ¬ i < l)]
    rcases Nat.lt_or_ge i r with h2 | h2
    · rw [if_pos h2, if_pos (by omega), h i h1 h2]
    · rw [if_neg (by omega), if_neg (by omega)]

theorem compress_tot (c : Array α) : Tot (compress c) fun r => expand r.toList = c.toList ∧ Runs r.toList := by
  rw [compress]
  refine Tot.bind (P := fun (s : Nat × Nat × Array (α × Nat)) => expand s.2.2.toList = c.toList ∧ Runs s.2.2.toList) ?_
    fun s hs => Tot.pure (Q := fun (r : Array (α × Nat)) => expand r.toList = c.toList ∧ Runs r.toList) hs
  refine Tot.loop (P := fun (s : Nat × Nat × Array (α × Nat)) => s.2.1 = s.1 ∧ s.1 ≤ c.size ∧
      expand s.2.2.toList = c.toList.take s.1 ∧ Runs s.2.2.toList ∧
      ∀ x, s.2.2.toList.getLast? = some x → s.1 < c.size → c[s.1]? ≠ some x.1)
    (μ := fun s => c.size - s.1) ?_ ⟨rfl, Nat.zero_le _, by simp [expand], ⟨by simp, by simp⟩, by simp⟩ (Nat.le_refl _)
  rintro ⟨l, r0, res⟩ ⟨h1, h2, h3, h4, h5⟩
  dsimp only at h1 h2 h3 h4 h5
  subst h1
  rw [compressStep]
  dsimp only
  split
  · rename_i he
    refine Tot.pure ⟨?_, h4⟩
    rw [h3, he, List.take_of_length_le (by simp)]
  · rename_i he
    have hl : r0 < c.size := by omega
    have hv : c[r0]? = some c[r0] := Array.getElem?_eq_getElem hl
    refine Tot.bind (run_tot c r0 hl _ hv) ?_
    rintro r ⟨g1, g2, g3, g4⟩
    rw [rd_some hv, ok_bind]
    refine Tot.pure ⟨⟨rfl, g2, ?_, ?_, ?_⟩, ?_⟩
    · dsimp only
      rw [Array.toList_push, expand_append, h3, expand_single, ← take_replicate g2 (by omega) g3]
    · dsimp only
      rw [Array.toList_push]
      refine runs_push h4 (by omega) ?_
      intro x hx hxv
      exact h5 x hx hl (by rw [hv, hxv])
    · dsimp only
      intro x hx hr
      simp at hx
      rw [← hx]
      exact g4 hr
    · show c.size - r < c.size - r0
      omega

theorem push_tot (s : State α) (seq : List α) (he : expand s.comp.toList = seq) (hR : Runs s.comp.toList)
    (hl : s.length = seq.length) (v : α) (num : Nat) (hn : 1 ≤ num) :
    Tot (pushBack s v num) fun t => expand t.comp.toList = seq ++ List.replicate num v ∧ Runs t.comp.toList ∧
      t.length = (seq ++ List.replicate num v).length := by
  have hadd : ∀ x, s.comp.toList.getLast? = some x → x.1 ≠ v →
      Runs (s.comp.push (v, num)).toList := by
    intro x hx hxv
    rw [Array.toList_push]
    refine runs_push hR (by omega) ?_
    intro y hy
    rw [hx] at hy
    cases hy
    exact hxv
  have hE : expand (s.comp.push (v, num)).toList = seq ++ List.replicate num v := by
    rw [Array.toList_push, expand_append, he, expand_single]
  rw [pushBack]
  split
  · rename_i x hx
    rw [Array.back?] at hx
    have hlast : s.comp.toList.getLast? = some x := by
      rw [List.getLast?_eq_getElem?, Array.length_toList, Array.getElem?_toList]
      exact hx
    split
    · rename_i hxv
      rw [bump, rd_some hx, ok_bind]
      have hsz : s.comp.size - 1 < s.comp.size := (Array.getElem?_eq_some_iff.1 hx).1
      rw [wr_eq hsz, ok_bind]
      have hcs : (s.comp.setIfInBounds (s.comp.size - 1) (x.1, x.2 + num)).toList = s.comp.toList.dropLast ++ [(x.1, x.2 + num)] := by
        apply List.ext_getElem?
        intro i
        rw [Array.getElem?_toList, Array.getElem?_setIfInBounds, List.getElem?_append, List.length_dropLast, Array.length_toList]
        split
        · rename_i h
          subst h
          simp
        · split
          · rename_i h1 h2
            rw [List.getElem?_dropLast, if_pos (by simpa using h2), Array.getElem?_toList]
          · rename_i h1 h2
            rw [Array.getElem?_eq_none (by omega)]
            simp
            omega
      have hold : s.comp.toList = s.comp.toList.dropLast ++ [(x.1, x.2)] := by
        exact (List.dropLast_append_getLast? x hlast).symm
      refine Tot.pure ⟨?_, ?_, ?_⟩
      · dsimp only
        rw [hcs, expand_append, expand_single, ← hxv, Nat.add_comm x.2, Nat.add_comm num, List.replicate_add, ← List.append_assoc,
          ← expand_single, ← expand_append, ← hold, he]
      · dsimp only
        rw [hcs]
        exact runs_bump (hold ▸ hR)
      · simp [hl]
    · rename_i hxv
      exact Tot.pure ⟨hE, hadd x hlast hxv, by simp [hl]⟩
  · rename_i hx
    have h0 : s.comp.size = 0 := by
      rw [Array.back?, Array.getElem?_eq_none_iff] at hx
      omega
    refine Tot.pure ⟨hE, ?_, by simp [hl]⟩
    dsimp only
    rw [Array.toList_push]
    refine runs_push hR (by omega) ?_
    intro x hx
    rw [List.getLast?_eq_getElem?, Array.length_toList, h0] at hx
    simp [h0] at hx

end RunLength
