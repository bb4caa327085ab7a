import Verif.Proof.PalindromicTree

/-!
# Property theorems for `PalindromicTree`

`addAll init s` is the tree after `add` was called for the symbols of `s` in turn; `outs` are the results of these calls. Nodes 0 and 1 are the two roots.
-/

namespace PalindromicTree
open Cxx Spec

variable {α : Type} [DecidableEq α]

/-- `w i` is the palindrome of the node `i`, and the functions of the tree answer for it. -/
structure Describes (s : List α) (outs : List Nat) (st : State α) (w : Nat → List α) : Prop where
  /-- Node 1 is the empty palindrome. -/
  root : getPalindrome st 1 = .ok [] ∧ w 1 = [] ∧ getPalindrome st 0 = .ok []
  /-- The nodes from 2 on are the non-empty palindromes that occur in `s`. -/
  nodes : ∀ v, (v ≠ [] ∧ Pal v ∧ v <:+: s) ↔ ∃ i, 2 ≤ i ∧ i < nodeNum st ∧ w i = v
  /-- No palindrome has two nodes. -/
  distinct : ∀ i j, 1 ≤ i → i < nodeNum st → 1 ≤ j → j < nodeNum st → w i = w j → i = j
  word : ∀ i, 2 ≤ i → i < nodeNum st → getPalindrome st i = .ok (w i)
  len : ∀ i, 2 ≤ i → i < nodeNum st → length st i = .ok ((w i).length : Int)
  first : ∀ i, 2 ≤ i → i < nodeNum st → ∃ p : Nat, firstOccurence st i = .ok (p : Int) ∧ FirstOcc s (w i) p
  /-- The suffix link is the longest palindrome that is a proper suffix. -/
  link : ∀ i, 2 ≤ i → i < nodeNum st → ∃ j, suffixLink st i = .ok j ∧ 1 ≤ j ∧ j < nodeNum st ∧ LongestProper (w i) (w j)
  /-- The children prolong the palindrome by the same symbol at both ends. -/
  children : ∀ i, i < nodeNum st → ∃ m, children st i = .ok m ∧
    ∀ c j, (c, j) ∈ m ↔ 2 ≤ j ∧ j < nodeNum st ∧ w j = if i = 0 then [c] else c :: (w i ++ [c])
  /-- `add` returned the node of the longest palindromic suffix of what was there. -/
  added : outs.length = s.length ∧
    ∀ p j, outs[p]? = some j → 2 ≤ j ∧ j < nodeNum st ∧ LongestPalSuffix (s.take (p + 1)) (w j)
  mult : ∀ i, 2 ≤ i → i < nodeNum st → nodeMultiplicity st i = .ok (outs.count i)

/-- Any sequence of symbols can be added, and the tree describes its palindromes. -/
theorem tree_correct (s : List α) : ∃ st outs w, addAll init s = .ok (st, outs) ∧ Describes s outs st w := by
  obtain ⟨⟨st, outs⟩, e, w, h⟩ := addAll_tot s
  dsimp only at h
  refine ⟨st, outs, w, e, ?_⟩
  have h2 := h.lk.two
  refine ⟨⟨?_, h.lk.o.2.2, rfl⟩, ?_, h.inj, fun i i1 i2 => h.getPalindrome (by omega) i2, ?_, ?_, ?_, ?_, ⟨h.olen, h.out⟩, ?_⟩
  · rw [h.getPalindrome (Nat.le_refl _) (by omega), h.lk.o.2.2]
  · intro v
    refine ⟨fun ⟨a, b, c⟩ => h.comp v a b c, ?_⟩
    rintro ⟨i, i1, i2, rfl⟩
    exact ⟨(h.lk.nd i i1 i2).1, (h.lk.nd i i1 i2).2.1, h.inf i i1 i2⟩
  · intro i i1 i2
    unfold length
    rw [rd_at d0 i2, ok_bind, h.lk.len (by omega) i2]; rfl
  · intro i i1 i2
    obtain ⟨p, p1, p2⟩ := h.first i i1 i2
    refine ⟨p, ?_, p2⟩
    unfold firstOccurence
    rw [rd_at d0 i2, ok_bind, p1]; rfl
  · intro i i1 i2
    obtain ⟨l1, l2, l3⟩ := h.lk.lk i i1 i2
    refine ⟨_, ?_, l1, Nat.lt_trans l2 i2, l3⟩
    unfold suffixLink
    rw [rd_at d0 i2, ok_bind]; rfl
  · intro i hi
    refine ⟨_, by unfold PalindromicTree.children; rw [rd_at d0 hi, ok_bind]; rfl, fun c j => h.mem_ch hi c j⟩
  · intro i i1 i2
    unfold nodeMultiplicity
    rw [rd_at d0 i2, ok_bind, h.mult i i1 i2]; rfl

/-- Five symbols: the nodes 2, 3, 4, 5, 6 are a, b, aba, bab and ababa. -/
example : (addAll (init (α := Nat)) [0, 1, 0, 1, 0]).map (·.2) = .ok [2, 3, 4, 5, 6] := by decide +kernel

/-- `frequency_table` counts the occurrences of every palindrome. -/
theorem frequency_correct (s : List α) : ∃ st outs res, addAll init s = .ok (st, outs) ∧ frequencyTable st = .ok res ∧ res.size = nodeNum st ∧
    ∀ i v, 2 ≤ i → i < nodeNum st → getPalindrome st i = .ok v → res[i]? = some (occ s v) := by
  obtain ⟨⟨st, outs⟩, e, w, h⟩ := addAll_tot s
  dsimp only at h
  obtain ⟨res, hr, r1, r2⟩ := h.frequency
  refine ⟨st, outs, res, e, hr, r1, fun i v i1 i2 hv => ?_⟩
  rw [h.getPalindrome (by omega) i2] at hv
  injection hv with hv
  rw [← hv]
  exact r2 i i1 i2

example : ((addAll (init (α := Nat)) [0, 1, 0, 1, 0]).bind fun r => frequencyTable r.1).map (·.toList.drop 2) = .ok [3, 2, 2, 1, 1] := by
  decide +kernel
example : occ [0, 1, 0, 1, 0] [0, 1, 0] = 2 := by decide

/-- `parents` is the inverse of `children`; the roots have the parent -1. -/
theorem parents_correct (s : List α) : ∃ st outs res, addAll init s = .ok (st, outs) ∧ parents st = .ok res ∧ res.size = nodeNum st ∧
    res[0]? = some (-1) ∧ res[1]? = some (-1) ∧
    ∀ j v, 2 ≤ j → j < nodeNum st → getPalindrome st j = .ok v →
      ∃ i c u, i < nodeNum st ∧ res[j]? = some (i : Int) ∧ getPalindrome st i = .ok u ∧ v = if i = 0 then [c] else c :: (u ++ [c]) := by
  obtain ⟨⟨st, outs⟩, e, w, h⟩ := addAll_tot s
  dsimp only at h
  obtain ⟨res, hr, r1, r2, r3, r4⟩ := h.parents
  refine ⟨st, outs, res, e, hr, r1, r2, r3, fun j v j1 j2 hv => ?_⟩
  rw [h.getPalindrome (by omega) j2] at hv
  injection hv with hv
  rw [← hv]
  obtain ⟨i, c, i1, i2, i3⟩ := r4 j j1 j2
  by_cases e : i = 0
  · subst e
    exact ⟨0, c, [], i1, i2, rfl, i3⟩
  · exact ⟨i, c, w i, i1, i2, h.getPalindrome (by omega) i1, i3⟩

example : ((addAll (init (α := Nat)) [0, 1, 0, 1, 0]).bind fun r => parents r.1).map (·.toList) = .ok [-1, -1, 0, 0, 3, 2, 5] := by
  decide +kernel

/-- The full property says that a tree is as good as new after `clear()`. This holds when nothing was added. -/
theorem clear_partial (st : State α) (outs : List Nat) (h : addAll init [] = .ok (st, outs)) : clear st = .ok init := by
  injection h with h
  injection h with h _
  rw [← h]
  rfl

/-- `clear()` erases the nodes but not the children of the roots: to add any symbol that was added before reads a node that is not there. -/
theorem clear_counterexample (s : List α) (c : α) (hc : c ∈ s) : ∃ st outs st', addAll init s = .ok (st, outs) ∧ clear st = .ok st' ∧
    add st' c = .error .ub := by
  obtain ⟨⟨st, outs⟩, e, w, h⟩ := addAll_tot s
  obtain ⟨st', h1, h2⟩ := h.clear_add hc
  exact ⟨st, outs, st', e, h1, h2⟩

example : ((addAll (init (α := Nat)) [0]).bind fun r => (clear r.1).bind fun t => add t 0).map (·.2) = .error .ub := by decide +kernel
example : (add (init (α := Nat)) 0).map (·.2) = .ok 2 := by decide +kernel

end PalindromicTree
