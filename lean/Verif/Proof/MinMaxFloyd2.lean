import Verif.Proof.MinMaxFloyd
import Verif.Spec.MinMaxPath

/-! # Bottleneck paths by incremental transitive closure -/

namespace MinMaxFloyd
open Cxx FunctionalGraph MinMaxPath

variable {α : Type}

/-- The listed edges as a relation. -/
def rel (es : List (Ed α)) (a b : Nat) : Prop := ∃ e ∈ es, e.2 = (a, b)

/-- Their transitive closure. -/
def clo (es : List (Ed α)) : Nat → Nat → Prop := Relation.TransGen (rel es)

theorem clo_trans (es : List (Ed α)) : ∀ a b c, clo es a b → clo es b c → clo es a c := fun _ _ _ h h' => Relation.TransGen.trans h h'

theorem clo_mono {es es' : List (Ed α)} (h : ∀ e ∈ es, e ∈ es') {a b : Nat} (hab : clo es a b) : clo es' a b :=
  Relation.TransGen.mono (r := rel es) (p := rel es') (fun _ _ h' => h'.imp fun e he => ⟨h e he.1, he.2⟩) a b hab

/-- The edges of the matrix. -/
def Matrix (n : Nat) (c : Nat → Nat → α) (es : List (Ed α)) : Prop := ∀ x a b, (x, a, b) ∈ es ↔ a < n ∧ b < n ∧ x = c a b

theorem walk_of_clo {n : Nat} {c : Nat → Nat → α} {es pre : List (Ed α)} (hM : Matrix n c es) (hp : ∀ e ∈ pre, e ∈ es) {a b : Nat} (h : clo pre a b) :
    ∃ w, Walk n a b w ∧ ∀ e ∈ w, rel pre e.1 e.2 := by
  have hr : ∀ {a b}, rel pre a b → a < n ∧ b < n := by
    rintro a b ⟨⟨x, p⟩, he, he'⟩
    dsimp only at he'
    subst he'
    obtain ⟨h1, h2, -⟩ := (hM _ _ _).1 (hp _ he)
    exact ⟨h1, h2⟩
  unfold clo at h
  induction h using Relation.TransGen.head_induction_on with
  | single h => exact ⟨_, Walk.one (hr h).1 (hr h).2, by intro e he; rw [List.mem_singleton.1 he]; exact h⟩
  | head h _ ih =>
    obtain ⟨w, h1, h2⟩ := ih
    refine ⟨_, Walk.cons (hr h).1 h1, fun e he => ?_⟩
    rcases List.mem_cons.1 he with rfl | he
    · exact h
    · exact h2 e he

theorem clo_of_walk {n : Nat} {pre : List (Ed α)} {a b : Nat} {w : List (Nat × Nat)} (h : Walk n a b w) (hw : ∀ e ∈ w, rel pre e.1 e.2) : clo pre a b := by
  induction h with
  | one _ _ => exact Relation.TransGen.single (hw _ List.mem_cons_self)
  | cons _ _ ih => exact Relation.TransGen.head (hw _ List.mem_cons_self) (ih fun e he => hw e (List.mem_cons_of_mem _ he))

theorem walk_range {n : Nat} {a b : Nat} {w : List (Nat × Nat)} (h : Walk n a b w) : ∀ e ∈ w, e.1 < n ∧ e.2 < n := by
  induction h with
  | one h1 h2 => intro e he; rw [List.mem_singleton.1 he]; exact ⟨h1, h2⟩
  | @cons u w v es h1 h2 ih =>
    intro e he
    rcases List.mem_cons.1 he with rfl | he
    · refine ⟨h1, ?_⟩
      cases h2 with
      | one h3 _ => exact h3
      | cons h3 _ => exact h3
    · exact ih e he

/-- The invariant after the edges `pre`. -/
def LInv (lt : α → α → Bool) (n : Nat) (c : Nat → Nat → α) (pre : List (Ed α)) (s : St α) : Prop :=
  ∃ R, Rep n s (clo pre) R ∧ ∀ a b, clo pre a b → IsMinMax lt n c a b (R a b)

theorem step_tot {lt : α → α → Bool} (hlt : StrictWeak lt) {n : Nat} {c : Nat → Nat → α} {es pre post : List (Ed α)} {e : Ed α} (hM : Matrix n c es) (he : es = pre ++ e :: post)
    (hs : es.Pairwise fun a b => lt b.1 a.1 = false) {s : St α} (h : LInv lt n c pre s) : Tot (edgeStep n (words n) s e) (LInv lt n c (pre ++ [e])) := by
  obtain ⟨R, h1, h2⟩ := h
  have hin : e ∈ es := by rw [he]; simp
  obtain ⟨hu, hv, hc⟩ := (hM e.1 e.2.1 e.2.2).1 hin
  have hXe : clo (pre ++ [e]) e.2.1 e.2.2 := Relation.TransGen.single ⟨e, by simp, rfl⟩
  have hmono : ∀ a b, clo pre a b → clo (pre ++ [e]) a b := fun a b => clo_mono fun e he => List.mem_append_left _ he
  refine (edgeStep_tot h1 (clo_trans pre) hu hv (clo_trans (pre ++ [e])) hmono hXe).mono ?_
  rintro s' ⟨g', R', k1, k2, k3, k4⟩
  have hg : g' = clo (pre ++ [e]) := by
    funext a b
    apply propext
    refine ⟨k2.within a b, fun hab => ?_⟩
    have hr : ∀ a b, rel (pre ++ [e]) a b → g' a b := by
      rintro a b ⟨e', he', hp⟩
      rcases List.mem_append.1 he' with he' | he'
      · exact k2.mono _ _ (Relation.TransGen.single ⟨e', he', hp⟩)
      · rw [List.mem_singleton.1 he'] at hp
        have := k4
        rw [hp] at this
        exact this
    unfold clo at hab
    induction hab with
    | single h => exact hr _ _ h
    | tail _ h ih => exact k3 _ _ _ ih (hr _ _ h)
  subst hg
  refine ⟨R', k1, fun a b hab => ?_⟩
  by_cases hold : clo pre a b
  · rw [k2.old a b hold]
    exact h2 a b hold
  · rw [k2.new a b hab hold]
    rw [he, List.pairwise_append] at hs
    constructor
    · obtain ⟨w, w1, w2⟩ := walk_of_clo hM (pre := pre ++ [e]) (by
        intro e' he'
        rw [he]
        rcases List.mem_append.1 he' with he' | he'
        · exact List.mem_append_left _ he'
        · rw [List.mem_singleton.1 he']; simp) hab
      refine ⟨w, w1, fun p hp => ?_⟩
      obtain ⟨⟨x, q⟩, he', hq⟩ := w2 p hp
      dsimp only at hq
      subst hq
      have hx : x = c p.1 p.2 := by
        refine ((hM x p.1 p.2).1 ?_).2.2
        rw [he]
        rcases List.mem_append.1 he' with he' | he'
        · exact List.mem_append_left _ he'
        · rw [List.mem_singleton.1 he']; simp
      rw [← hx]
      rcases List.mem_append.1 he' with he' | he'
      · exact hs.2.2 _ he' e (by simp)
      · have := List.mem_singleton.1 he'
        rw [← this]
        exact hlt.irrefl _
    · intro w hw
      by_contra hno
      refine hold (clo_of_walk hw fun p hp => ?_)
      have hp' := walk_range hw p hp
      have hpe : (c p.1 p.2, p.1, p.2) ∈ es := (hM _ _ _).2 ⟨hp'.1, hp'.2, rfl⟩
      rw [he] at hpe
      rcases List.mem_append.1 hpe with hpe | hpe
      · exact ⟨_, hpe, rfl⟩
      · exfalso
        refine hno ⟨p, hp, ?_⟩
        rcases List.mem_cons.1 hpe with hpe | hpe
        · rw [show c p.1 p.2 = e.1 by rw [← hpe]]
          exact hlt.irrefl _
        · exact (List.pairwise_cons.1 hs.2.1).1 _ hpe

theorem edges_tot {c : Array (Array α)} {C : Nat → Nat → α} (hc : ∀ i j, i < c.size → j < c.size → rd2 c i j = .ok (C i j)) :
    Tot (forUp 0 c.size [] fun i es => forUp 0 c.size es (cell c i)) fun es => Matrix c.size C es := by
  refine (Tot.forUp (P := fun i es => ∀ x a b, (x, a, b) ∈ es ↔ a < i ∧ b < c.size ∧ x = C a b) (Nat.zero_le _) ?_ ?_)
  · intro x a b
    simp
  · rintro i es - hi h
    refine (Tot.forUp (P := fun j es => ∀ x a b, (x, a, b) ∈ es ↔ (a < i ∧ b < c.size ∧ x = C a b) ∨ (a = i ∧ b < j ∧ x = C a b)) (Nat.zero_le _) ?_ ?_).mono ?_
    · intro x a b
      rw [h x a b]
      constructor
      · exact Or.inl
      · rintro (h | h)
        · exact h
        · omega
    · rintro j es' - hj h'
      unfold cell
      rw [hc i j hi hj, ok_bind]
      refine Tot.pure fun x a b => ?_
      rw [List.mem_append, h' x a b, List.mem_singleton, Prod.mk.injEq, Prod.mk.injEq]
      constructor
      · rintro ((h | ⟨h1, h2, h3⟩) | ⟨rfl, rfl, rfl⟩)
        · exact Or.inl h
        · exact Or.inr ⟨h1, by omega, h3⟩
        · exact Or.inr ⟨rfl, by omega, rfl⟩
      · rintro (h | ⟨rfl, h2, h3⟩)
        · exact Or.inl (Or.inl h)
        · by_cases hb : b = j
          · subst hb; exact Or.inr ⟨h3, rfl, rfl⟩
          · exact Or.inl (Or.inr ⟨rfl, by omega, h3⟩)
    · intro es' h' x a b
      rw [h' x a b]
      constructor
      · rintro (h | h)
        · exact ⟨by omega, h.2.1, h.2.2⟩
        · exact ⟨by omega, h.2.1, h.2.2⟩
      · rintro ⟨h1, h2, h3⟩
        by_cases ha : a = i
        · exact Or.inr ⟨ha, h2, h3⟩
        · exact Or.inl ⟨by omega, h2, h3⟩

theorem rd2_replicate {β : Type} {n m : Nat} {x : β} {i j : Nat} (hi : i < n) (hj : j < m) : rd2 (Array.replicate n (Array.replicate m x)) i j = .ok x := by
  unfold rd2
  rw [rd_some (x := Array.replicate m x) (by simp [hi]), ok_bind, rd_some (x := x) (by simp [hj])]

theorem shape_replicate {β : Type} (n m : Nat) (x : β) : Shape m n (Array.replicate n (Array.replicate m x)) :=
  ⟨by simp, fun i hi => ⟨Array.replicate m x, by simp [hi], by simp⟩⟩

theorem minmax_tot {lt : α → α → Bool} (hlt : StrictWeak lt) {srt : List (Ed α) → List (Ed α)} (hsrt : ∀ l, (srt l).Perm l ∧ (srt l).Pairwise fun a b => lt b.1 a.1 = false) (d : α)
    {c : Array (Array α)} {C : Nat → Nat → α} (hc : ∀ i j, i < c.size → j < c.size → rd2 c i j = .ok (C i j)) :
    Tot (minmax srt d c) fun res => ∀ u v, u < c.size → v < c.size → ∃ x, rd2 res u v = .ok x ∧ IsMinMax lt c.size C u v x := by
  unfold minmax
  dsimp only
  refine Tot.bind (edges_tot hc) fun es hes => ?_
  obtain ⟨hp, hso⟩ := hsrt es
  have hM : Matrix c.size C (srt es) := fun x a b => by rw [hp.mem_iff]; exact hes x a b
  refine Tot.bind (P := LInv lt c.size C (srt es)) ?_ ?_
  · refine Tot.forEach (P := LInv lt c.size C) ?_ ?_
    · have hclo : ∀ a b, ¬ clo ([] : List (Ed α)) a b := by
        intro a b h
        unfold clo at h
        cases h with
        | single h => obtain ⟨e, he, -⟩ := h; simp at he
        | tail _ h => obtain ⟨e, he, -⟩ := h; simp at he
      refine ⟨fun _ _ => d, ⟨fun u v h => absurd h (hclo u v), ⟨shape_replicate _ _ _, ?_⟩, ⟨shape_replicate _ _ _, ?_⟩, shape_replicate _ _ _, fun u v hu hv => rd2_replicate hu hv⟩, fun a b h => absurd h (hclo a b)⟩
      · intro u hu i hi
        exact ⟨0, rd2_replicate hu hi, by norm_num, fun j _ => by simp [hclo]⟩
      · intro u hu i hi
        exact ⟨0, rd2_replicate hu hi, by norm_num, fun j _ => by simp [hclo]⟩
    · rintro pre e post s he h
      exact step_tot hlt hM he hso h
  · rintro s ⟨R, h1, h2⟩
    refine Tot.pure fun u v hu hv => ⟨R u v, h1.res u v hu hv, h2 u v ?_⟩
    exact Relation.TransGen.single ⟨(C u v, u, v), (hM _ _ _).2 ⟨hu, hv, rfl⟩, rfl⟩

end MinMaxFloyd
