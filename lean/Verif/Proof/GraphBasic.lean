import Verif.Model.GraphAlgo
import Verif.Spec.Graph
import Mathlib.Data.List.Nodup
import Mathlib.Data.Fintype.Card
import Mathlib.Data.Fintype.EquivFin
import Mathlib.Order.WellFounded
import Mathlib.Order.Fin.Basic
import Mathlib.Data.Finite.Defs
import Mathlib.Data.Fintype.Order
import Mathlib.Algebra.BigOperators.Group.Finset.Basic
import Mathlib.Order.Bounds.Basic
import Mathlib.Algebra.Order.Group.Nat
import Mathlib.Algebra.Order.Group.Int
import Mathlib.Logic.Relation

/-! # Graphs as arrays of adjacency lists -/

namespace Graph
open Cxx

theorem adj_eq {ε : Type} {g : Array (List ε)} {u : Nat} (h : u < g.size) : g[u]? = some (adj g u) := by
  rw [adj, Array.getElem?_eq_getElem h]; rfl

theorem adj_ge {ε : Type} {g : Array (List ε)} {u : Nat} (h : g.size ≤ u) : adj g u = [] := by
  rw [adj, Array.getElem?_eq_none h]; rfl

theorem E.lt {g : Array (List Nat)} {u v : Nat} (h : E g u v) : u < g.size := by
  by_contra hn
  rw [E, adj_ge (by omega)] at h
  simp at h

theorem at_set' {α : Type} (d : α) {a : Array α} {i : Nat} (h : i < a.size) (x : α) (j : Nat) :
    at' d (a.setIfInBounds i x) j = if j = i then x else at' d a j := by
  rw [at_set d h]
  by_cases hij : i = j
  · rw [if_pos hij, if_pos hij.symm]
  · rw [if_neg hij, if_neg (Ne.symm hij)]

/-- The number of entries equal to the default. -/
def unset {α : Type} [DecidableEq α] (d : α) (a : Array α) : Nat := ((Finset.range a.size).filter fun v => at' d a v = d).card

theorem unset_set {α : Type} [DecidableEq α] {d : α} {a : Array α} {v : Nat} (hv : v < a.size) (h : at' d a v = d) {x : α} (hx : x ≠ d) :
    unset d (a.setIfInBounds v x) + 1 = unset d a := by
  have hm : v ∈ (Finset.range a.size).filter fun v => at' d a v = d := by simp [hv, h]
  unfold unset
  rw [← Finset.card_erase_add_one hm]
  congr 2
  ext w
  simp only [Finset.mem_filter, Finset.mem_range, Finset.mem_erase, Array.size_setIfInBounds, at_set' d hv]
  by_cases hw : w = v
  · subst hw
    simp [hx]
  · rw [if_neg hw]
    simp [hw]

theorem unset_le {α : Type} [DecidableEq α] (d : α) (a : Array α) : unset d a ≤ a.size := by
  unfold unset
  refine le_trans (Finset.card_filter_le _ _) ?_
  simp

theorem walk_reach {g : Array (List Nat)} {k u v : Nat} (h : Walk g k u v) : Reach g u v := by
  induction k generalizing v with
  | zero => cases h; exact .refl
  | succ k ih =>
    obtain ⟨w, h1, h2⟩ := h
    exact (ih h1).tail h2

theorem reach_walk {g : Array (List Nat)} {u v : Nat} (h : Reach g u v) : ∃ k, Walk g k u v := by
  induction h with
  | refl => exact ⟨0, rfl⟩
  | tail _ h ih =>
    obtain ⟨k, hk⟩ := ih
    exact ⟨k + 1, _, hk, h⟩

theorem walk_lt {g : Array (List Nat)} (hg : Valid g) {k u v : Nat} (hu : u < g.size) (h : Walk g k u v) : v < g.size := by
  cases k with
  | zero => cases h; exact hu
  | succ k => obtain ⟨w, _, h2⟩ := h; exact hg _ _ h2

/-- In an acyclic graph every nonempty set of vertices contains one without predecessor in the set. -/
theorem exists_source {g : Array (List Nat)} (hg : Valid g) (hac : Acyclic g) (P : Nat → Prop) {v : Nat} (hv : v < g.size) (hP : P v) :
    ∃ v, v < g.size ∧ P v ∧ ∀ u, E g u v → ¬ P u := by
  let r : Fin g.size → Fin g.size → Prop := fun a b => Relation.TransGen (E g) a b
  have htr : IsTrans (Fin g.size) r := ⟨fun _ _ _ h1 h2 => h1.trans h2⟩
  have hir : Std.Irrefl r := ⟨fun a h => hac a h⟩
  have hwf : WellFounded r := Finite.wellFounded_of_trans_of_irrefl r
  obtain ⟨m, hm, hmin⟩ := hwf.has_min {a : Fin g.size | P a} ⟨⟨v, hv⟩, hP⟩
  refine ⟨m, m.2, hm, fun u hu hPu => ?_⟩
  exact hmin ⟨u, hu.lt⟩ hPu (.single hu)

/-- Shortest walks have fewer than `n` edges. -/
theorem least_lt {g : Array (List Nat)} (hg : Valid g) {S : Nat → Prop} (hS : ∀ s, S s → s < g.size) {k v : Nat}
    (h : IsLeast {k | ∃ s, S s ∧ Walk g k s v} k) : k < g.size := by
  have hpre : ∀ j k v, IsLeast {k | ∃ s, S s ∧ Walk g k s v} k → j ≤ k → ∃ w, w < g.size ∧ IsLeast {k | ∃ s, S s ∧ Walk g k s w} j := by
    intro j k
    induction k with
    | zero =>
      intro v h hj
      obtain rfl : j = 0 := by omega
      have h0 := h
      obtain ⟨⟨s, hs, hw⟩, _⟩ := h0
      exact ⟨v, walk_lt hg (hS s hs) hw, h⟩
    | succ k ih =>
      intro v h hj
      by_cases hjk : j = k + 1
      · subst hjk
        have h0 := h
        obtain ⟨⟨s, hs, hw⟩, _⟩ := h0
        exact ⟨v, walk_lt hg (hS s hs) hw, h⟩
      · obtain ⟨⟨s, hs, w, hw1, hw2⟩, hl⟩ := h
        refine ih w ⟨⟨s, hs, hw1⟩, ?_⟩ (by omega)
        rintro k' ⟨s', hs', hw'⟩
        have := hl (show k' + 1 ∈ _ from ⟨s', hs', w, hw', hw2⟩)
        omega
  choose f hf1 hf2 using fun (j : Fin (k + 1)) => hpre j k v h (by omega)
  have hinj : Function.Injective fun j : Fin (k + 1) => (⟨f j, hf1 j⟩ : Fin g.size) := by
    intro a b hab
    have e : f a = f b := by simpa using hab
    have h1 := hf2 a
    rw [e] at h1
    exact Fin.ext (h1.unique (hf2 b))
  have := Fintype.card_le_of_injective _ hinj
  simp at this
  omega

theorem Cost.nonneg {g : Array (List (Nat × Int))} (hc : ∀ u, ∀ e ∈ adj g u, 0 ≤ e.2) {s v : Nat} {x : Int} (h : Cost g s v x) : 0 ≤ x := by
  induction h with
  | refl => exact le_refl _
  | step _ he ih => have := hc _ _ he; dsimp only at this; omega

theorem Cost.lt {g : Array (List (Nat × Int))} (hg : ∀ u, ∀ e ∈ adj g u, e.1 < g.size) {s v : Nat} (hs : s < g.size) {x : Int} (h : Cost g s v x) : v < g.size := by
  cases h with
  | refl => exact hs
  | step _ he => exact hg _ _ he

end Graph
