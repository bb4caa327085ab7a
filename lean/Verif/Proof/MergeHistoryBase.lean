import Verif.Model.MergeHistoryForest
import Verif.Props.UnionFind
import Mathlib.Logic.Relation
import Mathlib.Data.List.Nodup
import Mathlib.Data.List.Perm.Subperm

namespace MergeHistory
open Cxx
open UnionFind (Connected)

/-- The parent, the children, the time, the root and the label as total functions. -/
def par (o : Obj) (x : Nat) : Option Nat := at' none o.parent x
def ch (o : Obj) (x : Nat) : List Nat := at' [] o.g x
def cr (o : Obj) (x : Nat) : Nat := at' 0 o.created x
def rt (o : Obj) (x : Nat) : Nat := at' 0 o.root x
def lb (o : Obj) (x : Nat) : Nat := at' 0 o.lab x

/-- `y` is reached from `x` by going to parents. -/
def Anc (o : Obj) : Nat → Nat → Prop := Relation.ReflTransGen fun a b => par o a = some b

theorem at_push {α : Type} (d : α) (a : Array α) (x : α) (i : Nat) : at' d (a.push x) i = if i = a.size then x else at' d a i := by
  unfold at'
  rw [Array.getElem?_push]
  split_ifs <;> rfl

theorem at_map {α β : Type} (d : α) (e : β) (a : Array α) (f : α → β) {i : Nat} (h : i < a.size) : at' e (a.map f) i = f (at' d a i) := by
  unfold at'
  simp [h]

/-- The shape of the forest. -/
structure WF (o : Obj) : Prop where
  nm : o.n ≤ o.g.size
  psz : o.parent.size = o.g.size
  csz : o.created.size = o.g.size
  rsz : o.root.size = o.n
  lsz : o.lab.size = o.n
  par : ∀ x p, par o x = some p → x < p ∧ p < o.g.size ∧ o.n ≤ p ∧ cr o x ≤ cr o p
  kids : ∀ p, o.n ≤ p → p < o.g.size → (ch o p).Nodup ∧ ∀ c, c ∈ ch o p ↔ MergeHistory.par o c = some p
  leaf : ∀ x, x < o.n → cr o x = 0
  node : ∀ x, o.n ≤ x → x < o.g.size → 0 < cr o x ∧ cr o x ≤ o.time

theorem Anc.le {o : Obj} (w : WF o) {x y : Nat} (h : Anc o x y) : x ≤ y ∧ cr o x ≤ cr o y := by
  induction h with
  | refl => exact ⟨Nat.le_refl _, Nat.le_refl _⟩
  | tail _ h ih =>
    have := w.par _ _ h
    omega

theorem Anc.chain {o : Obj} {x y z : Nat} (h1 : Anc o x y) (h2 : Anc o x z) : Anc o y z ∨ Anc o z y := by
  refine Relation.ReflTransGen.total_of_right_unique ?_ h1 h2
  intro a b c hb hc
  rw [hb] at hc
  exact Option.some.inj hc

/-- The strict ancestors go through the parent. -/
theorem Anc.step {o : Obj} {x y : Nat} (h : Anc o x y) (hne : x ≠ y) : ∃ p, par o x = some p ∧ Anc o p y := by
  rcases Relation.ReflTransGen.cases_head h with e | ⟨p, h1, h2⟩
  · exact absurd e hne
  · exact ⟨p, h1, h2⟩

theorem Anc.top {o : Obj} {x y : Nat} (h : Anc o x y) (hx : par o x = none) : x = y := by
  by_contra hne
  obtain ⟨p, h1, -⟩ := h.step hne
  rw [hx] at h1
  cases h1

theorem Anc.lt {o : Obj} (w : WF o) {x y : Nat} (h : Anc o x y) (hx : x < o.g.size) : y < o.g.size := by
  induction h with
  | refl => exact hx
  | tail _ h _ => exact (w.par _ _ h).2.1

/-- `o'` is `o` with a new node above the tops `xs`. -/
structure Adopt (o o' : Obj) (xs : List Nat) : Prop where
  n : o'.n = o.n
  time : o'.time = o.time
  gsz : o'.g.size = o.g.size + 1
  psz : o'.parent.size = o.parent.size + 1
  csz : o'.created.size = o.created.size + 1
  rsz : o'.root.size = o.root.size
  lsz : o'.lab.size = o.lab.size
  par : ∀ x, MergeHistory.par o' x = if x ∈ xs then some o.g.size else MergeHistory.par o x
  cr : ∀ x, MergeHistory.cr o' x = if x = o.g.size then o.time else MergeHistory.cr o x
  new : ch o' o.g.size = xs
  ch : ∀ p, o.n ≤ p → p < o.g.size → MergeHistory.ch o' p = MergeHistory.ch o p
  nodup : xs.Nodup
  tops : ∀ x ∈ xs, x < o.g.size ∧ MergeHistory.par o x = none

theorem Adopt.wf {o o' : Obj} {xs : List Nat} (a : Adopt o o' xs) (w : WF o) (ht : 0 < o.time) : WF o' := by
  have nm := w.nm
  have psz := w.psz
  have csz := w.csz
  refine ⟨by rw [a.n, a.gsz]; omega, by rw [a.psz, a.gsz]; omega, by rw [a.csz, a.gsz]; omega, by rw [a.rsz, a.n]; exact w.rsz, by rw [a.lsz, a.n]; exact w.lsz, ?_, ?_, ?_, ?_⟩
  · intro x p h
    rw [a.par] at h
    rw [a.cr, a.cr, a.n, a.gsz]
    split_ifs at h with hx
    · obtain rfl := Option.some.inj h
      have hlt := (a.tops x hx).1
      rw [if_neg (by omega), if_pos rfl]
      refine ⟨hlt, by omega, nm, ?_⟩
      by_cases hl : x < o.n
      · rw [w.leaf x hl]; omega
      · exact (w.node x (by omega) hlt).2
    · obtain ⟨h1, h2, h3, h4⟩ := w.par x p h
      rw [if_neg (by omega), if_neg (by omega)]
      exact ⟨h1, by omega, h3, h4⟩
  · intro p h1 h2
    rw [a.n] at h1
    rw [a.gsz] at h2
    by_cases e : p = o.g.size
    · subst e
      rw [a.new]
      refine ⟨a.nodup, ?_⟩
      intro c
      rw [a.par]
      constructor
      · intro h
        rw [if_pos h]
      · intro h
        by_contra hc
        rw [if_neg hc] at h
        have := (w.par c _ h).2.1
        omega
    · rw [a.ch p h1 (by omega)]
      refine ⟨(w.kids p h1 (by omega)).1, ?_⟩
      intro c
      rw [(w.kids p h1 (by omega)).2, a.par]
      split_ifs with hc
      · rw [(a.tops c hc).2]
        simp
        omega
      · rfl
  · intro x hx
    rw [a.n] at hx
    rw [a.cr, if_neg (by omega)]
    exact w.leaf x hx
  · intro x h1 h2
    rw [a.n] at h1
    rw [a.gsz] at h2
    rw [a.cr, a.time]
    split_ifs with e
    · exact ⟨ht, Nat.le_refl _⟩
    · exact w.node x h1 (by omega)

theorem Adopt.mono {o o' : Obj} {xs : List Nat} (a : Adopt o o' xs) {x y : Nat} (h : Anc o x y) : Anc o' x y := by
  induction h with
  | refl => exact .refl
  | @tail b c _ h ih =>
    refine ih.tail ?_
    rw [a.par, if_neg]
    · exact h
    · intro hb
      rw [(a.tops b hb).2] at h
      cases h

theorem Adopt.inv {o o' : Obj} {xs : List Nat} (a : Adopt o o' xs) (w : WF o) {x y : Nat} (h : Anc o' x y) :
    Anc o x y ∨ (y = o.g.size ∧ ∃ z ∈ xs, Anc o x z) := by
  have hnone : MergeHistory.par o o.g.size = none := by
    unfold MergeHistory.par at'
    rw [Array.getElem?_eq_none (by rw [w.psz])]
    rfl
  induction h with
  | refl => exact .inl .refl
  | @tail b c _ h ih =>
    rw [a.par] at h
    split_ifs at h with hb
    · obtain rfl := Option.some.inj h
      rcases ih with ih | ⟨rfl, -⟩
      · exact .inr ⟨rfl, b, hb, ih⟩
      · have := (a.tops _ hb).1
        omega
    · rcases ih with ih | ⟨rfl, -⟩
      · exact .inl (ih.tail h)
      · rw [hnone] at h
        cases h

/-- The edges of the first `t` calls. -/
def edgesUpTo (hist : List (List (Nat × Nat))) (t : Nat) : List (Nat × Nat) := (hist.take t).flatten

/-- The invariant between two calls. -/
structure Inv (o : Obj) (hist : List (List (Nat × Nat))) : Prop where
  wf : WF o
  time : o.time = hist.length
  clean : ∀ u, u < o.n → ch o u = []
  lab_lt : ∀ i, i < o.n → lb o i < o.n
  lab_lab : ∀ i, i < o.n → lb o (lb o i) = lb o i
  lab : ∀ i j, i < o.n → j < o.n → (Connected (edgesUpTo hist hist.length) i j ↔ lb o i = lb o j)
  below : ∀ i j p, i < o.n → j < o.n → Anc o i p → Anc o j p → lb o i = lb o j
  top : ∀ i, i < o.n → Anc o i (rt o (lb o i)) ∧ par o (rt o (lb o i)) = none
  conn : ∀ t i j, i < o.n → j < o.n → (Connected (edgesUpTo hist t) i j ↔ i = j ∨ ∃ p, Anc o i p ∧ Anc o j p ∧ cr o p ≤ t)

/-! ### Merging labels -/

theorem conn_add {n : Nat} {f f' : Nat → Nat} {es : List (Nat × Nat)} {u v r : Nat} (hu : u < n) (hv : v < n)
    (h : ∀ i j, i < n → j < n → (Connected es i j ↔ f i = f j)) (hf' : ∀ i, i < n → f' i = if f i = f u ∨ f i = f v then r else f i) (hr : r = f u ∨ r = f v)
    (he : ∀ e ∈ es, e.1 < n ∧ e.2 < n) :
    ∀ i j, i < n → j < n → (Connected (es ++ [(u, v)]) i j ↔ f' i = f' j) := by
  have mono : ∀ i j, Connected es i j → Connected (es ++ [(u, v)]) i j := by
    intro i j hc
    exact Relation.EqvGen.mono (r := fun a b => (a, b) ∈ es) (p := fun a b => (a, b) ∈ es ++ [(u, v)]) (fun a b hab => List.mem_append_left _ hab) _ _ hc
  have huv : Connected (es ++ [(u, v)]) u v := .rel _ _ (by simp)
  intro i j hi hj
  constructor
  · intro hc
    have key : ∀ i j, Connected (es ++ [(u, v)]) i j → i = j ∨ (i < n ∧ j < n ∧ f' i = f' j) := by
      intro i j hc
      induction hc with
      | rel a b hab =>
        rw [List.mem_append, List.mem_singleton] at hab
        rcases hab with hab | hab
        · obtain ⟨ha, hb⟩ := he _ hab
          dsimp only at ha hb
          have : f a = f b := (h a b ha hb).mp (.rel _ _ hab)
          exact .inr ⟨ha, hb, by rw [hf' a ha, hf' b hb, this]⟩
        · obtain ⟨rfl, rfl⟩ := Prod.mk.injEq _ _ _ _ ▸ hab
          exact .inr ⟨hu, hv, by rw [hf' _ hu, hf' _ hv, if_pos (.inl rfl), if_pos (.inr rfl)]⟩
      | refl a => exact .inl rfl
      | symm a b _ ih =>
        rcases ih with ih | ⟨h1, h2, h3⟩
        · exact .inl ih.symm
        · exact .inr ⟨h2, h1, h3.symm⟩
      | trans a b c _ _ ih1 ih2 =>
        rcases ih1 with rfl | ⟨h1, h2, h3⟩
        · exact ih2
        · rcases ih2 with rfl | ⟨k1, k2, k3⟩
          · exact .inr ⟨h1, h2, h3⟩
          · exact .inr ⟨h1, k2, h3.trans k3⟩
    rcases key i j hc with rfl | ⟨-, -, e⟩
    · rfl
    · exact e
  · intro e
    rw [hf' i hi, hf' j hj] at e
    have toU : ∀ i, i < n → (f i = f u ∨ f i = f v) → Connected (es ++ [(u, v)]) i u := by
      rintro i hi (e | e)
      · exact mono _ _ ((h i u hi hu).mpr e)
      · exact .trans _ _ _ (mono _ _ ((h i v hi hv).mpr e)) huv.symm
    split_ifs at e with c1 c2 c2
    · exact .trans _ _ _ (toU i hi c1) (toU j hj c2).symm
    · exfalso
      apply c2
      rw [← e]
      exact hr
    · exfalso
      apply c1
      rw [e]
      exact hr
    · exact mono _ _ ((h i j hi hj).mpr e)

theorem unite_lab {pick : Array Nat → Nat → Nat → Bool} {o : Obj} {ru rv : Nat} {i : Nat} (hi : i < o.lab.size) :
    lb (unite pick o ru rv).1 i = if lb o i = ru ∨ lb o i = rv then (unite pick o ru rv).2 else lb o i := by
  unfold unite lb
  dsimp only
  rw [at_map 0 0 _ _ hi]

theorem unite_pick {pick : Array Nat → Nat → Nat → Bool} {o : Obj} {ru rv : Nat} : (unite pick o ru rv).2 = ru ∨ (unite pick o ru rv).2 = rv := by
  unfold unite
  dsimp only
  split_ifs
  · exact .inl rfl
  · exact .inr rfl

theorem leader_ok {o : Obj} (w : o.lab.size = o.n) {u : Nat} (hu : u < o.n) : leader o u = .ok (lb o u) := by
  unfold leader
  rw [decide_eq_true hu, check_true, ok_bind, rd_at 0 (by omega)]
  rfl

end MergeHistory
