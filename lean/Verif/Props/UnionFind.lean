import Verif.Proof.UnionFind
import Mathlib.Data.Set.Card

/-!
# UnionFind: properties C01, C02

Specification: the abstract state is the list `es` of all pairs passed to `merge` so far.
-/

namespace UnionFind
open Cxx

/-- `x` and `y` are connected by the merged pairs: reflexive-symmetric-transitive closure. -/
def Connected (es : List (Nat × Nat)) (x y : Nat) : Prop := Relation.EqvGen (fun a b => (a, b) ∈ es) x y

/-- Arguments are vertices `0 .. n-1`. -/
def Pre (n : Nat) (_ : List (Nat × Nat)) : Op → Prop
  | .root x => x < n
  | .merge x y => x < n ∧ y < n
  | .same x y => x < n ∧ y < n
  | .size x => x < n
  | .groups => True

/-- Only `merge` changes the abstract state. -/
def next (es : List (Nat × Nat)) : Op → List (Nat × Nat)
  | .merge x y => (x, y) :: es
  | _ => es

/-- The answers a user relies on. -/
def Ans (n : Nat) (es : List (Nat × Nat)) : Op → Out → Prop
  | .root x, .vertex r => r < n ∧ Connected es x r
  | .merge x y, .bool b => b = true ↔ ¬ Connected es x y
  | .same x y, .bool b => b = true ↔ Connected es x y
  | .size x, .int k => k = Set.ncard {y | y < n ∧ Connected es x y}
  | .groups, .groups gs =>
      (∀ g ∈ gs, g ≠ []) ∧ gs.flatten.Perm (List.range n) ∧
      ∀ g ∈ gs, ∀ x ∈ g, ∀ y < n, (y ∈ g ↔ Connected es x y)
  | _, _ => False

instance : ∀ n es op, Decidable (Pre n es op) := fun n _ op => by
  cases op <;> simp only [Pre] <;> infer_instance

/-- The simulation relation between `_dat` and the merged pairs. -/
def Sim (n : Nat) (dat : Array Int) (es : List (Nat × Nat)) : Prop :=
  ∃ R rk, Inv n R rk dat ∧ ∀ x y, x < n → y < n → (R x = R y ↔ Connected es x y)

theorem connected_nil {x y : Nat} : Connected [] x y ↔ x = y := by
  constructor
  · intro h
    induction h with
    | rel _ _ h => simp at h
    | refl => rfl
    | symm _ _ _ ih => exact ih.symm
    | trans _ _ _ _ _ ih1 ih2 => exact ih1.trans ih2
  · rintro rfl; exact .refl _

theorem sim_init (n : Nat) : Sim n (init n) [] :=
  ⟨_, _, inv_init n, fun _ _ _ _ => connected_nil.symm⟩

theorem connected_cons (x y : Nat) (es : List (Nat × Nat)) (z w : Nat) :
    Connected ((x, y) :: es) z w ↔
      Relation.EqvGen (fun a b => (a = x ∧ b = y) ∨ (a, b) ∈ es) z w := by
  unfold Connected; simp

theorem flatten_filter_ne_nil {α} [DecidableEq α] (l : List (List α)) : (l.filter (· ≠ [])).flatten = l.flatten := by
  induction l with
  | nil => rfl
  | cons a l ih =>
    by_cases h : a = []
    · subst h; simpa using ih
    · simp only [ne_eq, List.filter_cons, h, not_false_eq_true, decide_true, if_true, List.flatten_cons] at *
      rw [ih]

theorem size_ans {n : Nat} {R : Nat → Nat} {es : List (Nat × Nat)}
    (hR : ∀ x y, x < n → y < n → (R x = R y ↔ Connected es x y)) {x : Nat} (hx : x < n) :
    ((cls n R (R x)).card : Int) = Set.ncard {y | y < n ∧ Connected es x y} := by
  rw [← Set.ncard_coe_finset]
  congr 2
  ext y
  simp only [Finset.mem_coe, mem_cls, Set.mem_ofPred_eq]
  constructor
  · rintro ⟨hy, e⟩; exact ⟨hy, (hR x y hx hy).mp e.symm⟩
  · rintro ⟨hy, e⟩; exact ⟨hy, ((hR x y hx hy).mpr e).symm⟩

theorem groups_ans {n : Nat} {R : Nat → Nat} {es : List (Nat × Nat)} (hlt : ∀ x, x < n → R x < n)
    (hR : ∀ x y, x < n → y < n → (R x = R y ↔ Connected es x y)) {gs : List (List Nat)}
    (hg : gs = ((List.range n).map fun x => (List.range n).filter (R · = x)).filter (· ≠ [])) :
    (∀ g ∈ gs, g ≠ []) ∧ gs.flatten.Perm (List.range n) ∧
      ∀ g ∈ gs, ∀ x ∈ g, ∀ y < n, (y ∈ g ↔ Connected es x y) := by
  subst hg
  refine ⟨?_, ?_, ?_⟩
  · intro g hg; simpa using (List.mem_filter.mp hg).2
  · rw [flatten_filter_ne_nil]
    rw [List.perm_ext_iff_of_nodup]
    · intro a
      simp only [List.mem_flatten, List.mem_map, List.mem_range]
      constructor
      · rintro ⟨l, ⟨x, hx, rfl⟩, ha⟩; simpa using (List.mem_filter.mp ha).1
      · intro ha; exact ⟨_, ⟨R a, hlt a ha, rfl⟩, by simp [ha]⟩
    · rw [List.nodup_flatten]
      constructor
      · intro l hl
        obtain ⟨x, -, rfl⟩ := List.mem_map.mp hl
        exact List.nodup_range.filter _
      · rw [List.pairwise_map]
        refine List.nodup_range.imp ?_
        intro a b hab
        rw [List.disjoint_left]
        intro z hz hz'
        simp only [List.mem_filter, decide_eq_true_eq] at hz hz'
        exact hab (hz.2.symm.trans hz'.2)
    · exact List.nodup_range
  · intro g hg x hx y hy
    obtain ⟨hg, -⟩ := List.mem_filter.mp hg
    obtain ⟨r, -, rfl⟩ := List.mem_map.mp hg
    simp only [List.mem_filter, List.mem_range, decide_eq_true_eq] at hx ⊢
    rw [← hR x y hx.1 hy]
    grind

/-- A pair that is already connected changes nothing. -/
theorem sim_cons_of_connected {n : Nat} {R : Nat → Nat} {es : List (Nat × Nat)} {x y : Nat} (hx : x < n) (hy : y < n)
    (hR : ∀ x y, x < n → y < n → (R x = R y ↔ Connected es x y)) (e : R x = R y) :
    ∀ z w, z < n → w < n → (R z = R w ↔ Connected ((x, y) :: es) z w) := by
  intro z w hz hw
  rw [connected_cons, eqvGen_cons, hR z w hz hw]
  have exy := (hR x y hx hy).mp e
  unfold Connected at *
  constructor
  · exact Or.inl
  · rintro (h | ⟨g1, g2⟩ | ⟨g1, g2⟩)
    · exact h
    · exact (g1.trans _ _ _ exy).trans _ _ _ g2
    · exact (g1.trans _ _ _ (.symm _ _ exy)).trans _ _ _ g2

theorem step_sim (n : Nat) (dat : Array Int) (es : List (Nat × Nat)) (op : Op) (hs : Sim n dat es)
    (hp : Pre n es op) : Tot (step dat op) fun r => Sim n r.1 (next es op) ∧ Ans n es op r.2 := by
  obtain ⟨R, rk, hI, hR⟩ := hs
  cases op with
  | root x =>
    refine Tot.bind (root_tot hI hp) ?_
    rintro ⟨d, r⟩ ⟨h1, h2⟩
    simp only at h1 h2; subst h1
    exact Tot.pure ⟨⟨R, rk, h2, hR⟩, hI.lt x hp, (hR x _ hp (hI.lt x hp)).mp (hI.idem x hp).symm⟩
  | merge x y =>
    obtain ⟨hx, hy⟩ := hp
    refine Tot.bind (merge_tot hI hx hy) ?_
    rintro ⟨d, b⟩ ⟨h1, h2⟩
    simp only at h1 h2
    refine Tot.pure ⟨?_, ?_⟩
    · by_cases e : R x = R y
      · exact ⟨R, rk, (h1 e).2, sim_cons_of_connected hx hy hR e⟩
      · obtain ⟨-, p, c, rk', hpc, hI'⟩ := h2 e
        refine ⟨_, _, hI', fun z w hz hw => ?_⟩
        rw [show next es (.merge x y) = (x, y) :: es from rfl, connected_cons]
        exact link_iff hx hy hR hpc z w hz hw
    · show b = true ↔ ¬ Connected es x y
      rw [← hR x y hx hy]
      by_cases e : R x = R y
      · simp [(h1 e).1, e]
      · simp [(h2 e).1, e]
  | same x y =>
    obtain ⟨hx, hy⟩ := hp
    refine Tot.bind (same_tot hI hx hy) ?_
    rintro ⟨d, b⟩ ⟨h1, h2⟩
    exact Tot.pure ⟨⟨R, rk, h2, hR⟩, h1.trans (hR x y hx hy)⟩
  | size x =>
    refine Tot.bind (size_tot hI hp) ?_
    rintro ⟨d, k⟩ ⟨h1, h2⟩
    exact Tot.pure ⟨⟨R, rk, h2, hR⟩, Eq.trans h1 (size_ans hR hp)⟩
  | groups =>
    refine Tot.bind (groups_tot hI) ?_
    rintro ⟨d, gs⟩ ⟨h1, h2⟩
    exact Tot.pure ⟨⟨R, rk, h1, hR⟩, groups_ans hI.lt hR h2⟩

/-- **C01/C02.** Every history of in-range calls on a fresh `UnionFind(n)` runs to completion (no out-of-range access,
no divergence) and every answer is the one the merged pairs dictate: `merge` is true iff the vertices were not connected before, `same` is
connectivity, `size` is the cardinality of the component, `groups` is the partition into components. -/
theorem unionFind_correct (n : Nat) (ops : List Op) (hv : ValidOps (Pre n) next [] ops) :
    ∃ dat outs, runOps step (init n) ops = .ok (dat, outs) ∧ TraceOk next (Ans n) [] ops outs := by
  obtain ⟨⟨dat, outs⟩, e, -, h⟩ := refine (step_sim n) (sim_init n) hv
  exact ⟨dat, outs, e, h⟩

example : ValidOps (Pre 5) next []
    [.merge 0 1, .merge 2 3, .same 0 3, .merge 3 0, .same 1 2, .size 2, .groups, .merge 0 2] := by decide

example : (runOps step (init 5)
    [.merge 0 1, .merge 2 3, .same 0 3, .merge 3 0, .same 1 2, .size 2, .groups, .merge 0 2]).toOption.map (·.2)
    = some [.bool true, .bool true, .bool false, .bool true, .bool true, .int 4,
        .groups [[0, 1, 2, 3], [4]], .bool false] := by decide

/-- **C01 (roots).** After every history there is one representative per component: `root` returns it, whatever calls
to `root` are made in which order. -/
theorem unionFind_root_canonical (n : Nat) (ops : List Op) (hv : ValidOps (Pre n) next [] ops) :
    ∃ dat outs, runOps step (init n) ops = .ok (dat, outs) ∧
      ∃ rep : Nat → Nat, (∀ x < n, ∀ y < n, (rep x = rep y ↔ Connected (ops.foldl next []) x y)) ∧
        ∀ xs : List Nat, (∀ x ∈ xs, x < n) →
          ∃ dat', runOps step dat (xs.map .root) = .ok (dat', xs.map fun x => .vertex (rep x)) := by
  obtain ⟨⟨dat, outs⟩, e, ⟨R, rk, hI, hR⟩, -⟩ := refine (step_sim n) (sim_init n) hv
  refine ⟨dat, outs, e, R, fun x hx y hy => hR x y hx hy, ?_⟩
  simp only at hI
  intro xs
  clear e
  induction xs generalizing dat with
  | nil => intro _; exact ⟨dat, rfl⟩
  | cons x xs ih =>
    intro hxs
    obtain ⟨⟨d1, r⟩, e1, h1, h2⟩ := root_tot hI (hxs x (by simp))
    simp only at h1 h2; subst h1
    obtain ⟨d2, e2⟩ := ih d1 h2 fun x hx => hxs x (by simp [hx])
    exact ⟨d2, by simp [runOps, step, e1, e2]⟩

example : ValidOps (Pre 4) next [] [.merge 0 1, .merge 1 2, .root 0] := by decide

end UnionFind
