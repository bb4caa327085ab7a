import Verif.Proof.CartesianTree

/-!
# C117: `CartesianTreeBuilder` builds the Cartesian tree

For every sequence and every strict weak order: the root of every segment is its first smallest element, the subtrees are the Cartesian trees of
the parts to its left and right. `parent(i)` is the parent in that tree, and `ranges()` lists for every element the largest segment in which it
is the first smallest element. `at' d a i` is element `i` of `a`; the value `d` outside of the array never matters.
-/

namespace CartesianTree
open Cxx
variable {α : Type}

/-- The order of the elements at two positions. -/
def smaller (lt : α → α → Bool) (d : α) (a : Array α) (i j : Nat) : Bool := lt (at' d a i) (at' d a j)

/-- `build` returns the Cartesian tree of the whole sequence. -/
theorem build_correct {lt : α → α → Bool} (hs : StrictWeak lt) (d : α) (a : Array α) :
    ∃ root g, build lt a = .ok (root, g) ∧ g.size = a.size ∧ IsCart (smaller lt d a) g 0 root a.size := by
  obtain ⟨t, e, h1, h2, -⟩ := build_tot hs d a
  exact ⟨t.1, t.2, e, h1, h2⟩

/-- `parent(i)` is `-1` for the root of the built tree, and otherwise the node of which `i` is the left or right child. -/
theorem parent_correct {lt : α → α → Bool} (hs : StrictWeak lt) (a : Array α) {i : Nat} (hi : i < a.size) :
    ∃ root g p, build lt a = .ok (root, g) ∧ parent lt a i = .ok p ∧
      ((p = -1 ∧ root = i) ∨ ∃ q : Nat, p = q ∧ ∃ l r : Int, g[q]? = some (l, r) ∧ (l = i ∨ r = i)) := by
  obtain ⟨t, e, h1, h2, par, e2, h3, h4, h5⟩ := build_tot hs (a[i]'hi) a
  refine ⟨t.1, t.2, at' 0 par i, e, ?_, ?_⟩
  · unfold parent
    rw [e2, ok_bind, decide_eq_true hi, check_true, ok_bind, rd_at 0 (by omega)]
  · rcases par_cases (h5 i hi) with hp | ⟨hp0, hp1, hp2⟩
    · exact .inl ⟨hp, h4.root i hi hp⟩
    · right
      refine ⟨(at' 0 par i).toNat, by omega, (at' (0, 0) t.2 (at' 0 par i).toNat).1, (at' (0, 0) t.2 (at' 0 par i).toNat).2, ?_, ?_⟩
      · unfold at'
        rw [Array.getElem?_eq_getElem (show (par[i]?.getD 0).toNat < t.2.size by
          have : par[i]?.getD 0 = at' 0 par i := rfl
          omega)]
        rfl
      · rcases Nat.lt_or_ge i (at' 0 par i).toNat with hlt | hge
        · exact .inl (h4.left i _ hi hlt (by omega) (by omega))
        · exact .inr (h4.right i _ hi (by omega) (by omega) (by omega))

/-- Other indices are rejected. -/
theorem parent_assert {lt : α → α → Bool} (hs : StrictWeak lt) (d : α) (a : Array α) {i : Nat} (hi : a.size ≤ i) :
    parent lt a i = .error .assertion := by
  obtain ⟨par, e, -⟩ := calcPar_tot hs d a
  unfold parent
  rw [e, ok_bind, decide_eq_false (by omega), check_false]
  rfl

/-- `ranges()` of the built tree: entry `i` is the largest segment in which element `i` is the first smallest one. -/
theorem ranges_correct {lt : α → α → Bool} (hs : StrictWeak lt) (d : α) (a : Array α) :
    ∃ t rs, build lt a = .ok t ∧ ranges t = .ok rs ∧ rs.length = a.size ∧
      ∀ i, i < a.size → ∃ l r : Nat, rs[i]? = some ((l : Int), (r : Int)) ∧ MaxRange (smaller lt d a) a.size i l r := by
  obtain ⟨t, e, h1, h2, -⟩ := build_tot hs d a
  obtain ⟨-, h⟩ := ranges_tot h2 (le_refl _) (.inl rfl) (.inl rfl)
  obtain ⟨rs, e2, seg, e3, hl, hq⟩ := h (a.size + 1) (by omega) []
  rw [List.nil_append] at e3
  subst e3
  refine ⟨t, rs, e, ?_, by omega, fun i hi => hq i (by omega) hi⟩
  unfold ranges
  rw [h1]
  simpa using e2

/-- A default-constructed tree has the root `0` but no nodes; `ranges()` reads outside of the vector. -/
theorem default_ranges : ranges default = .error .ub := by decide +kernel

/-! ### Examples -/

theorem nat_strict : StrictWeak fun x y : Nat => decide (x < y) :=
  ⟨by simp, by simp only [decide_eq_true_eq]; omega, by simp only [decide_eq_false_iff_not]; omega⟩

example : build (fun x y : Nat => decide (x < y)) #[3, 1, 4, 1, 5] = .ok (1, #[(-1, -1), (0, 3), (-1, -1), (2, 4), (-1, -1)]) := by decide +kernel

example : ranges (1, #[(-1, -1), (0, 3), (-1, -1), (2, 4), (-1, -1)]) = .ok [(0, 1), (0, 5), (2, 3), (2, 5), (4, 5)] := by decide +kernel

example : ∃ root g, build (fun x y : Nat => decide (x < y)) #[3, 1, 4, 1, 5] = .ok (root, g) ∧ g.size = 5 ∧
    IsCart (smaller (fun x y : Nat => decide (x < y)) 0 #[3, 1, 4, 1, 5]) g 0 root 5 := build_correct nat_strict 0 #[3, 1, 4, 1, 5]

end CartesianTree
