import Verif.Proof.EulerianDfs

namespace Eulerian
open Cxx Finset

theorem foldl_size (l : List (Array Nat)) (a : Nat) : l.foldl (fun s r => s + r.size) a = a + ∑ i ∈ range l.length, ((l[i]?).getD #[]).size := by
  induction l generalizing a with
  | nil => simp
  | cons r l ih =>
    rw [List.foldl_cons, ih, List.length_cons, sum_range_succ']
    simp
    omega

theorem total_eq (g : Array (Array Nat)) : total g = ∑ u ∈ range g.size, sz g u := by
  unfold total
  rw [← Array.foldl_toList, foldl_size, Nat.zero_add, Array.length_toList]
  refine sum_congr rfl fun u _ => ?_
  unfold sz at'
  rw [Array.getElem?_toList]

theorem card_slots (g : Array (Array Nat)) : (slots g).card = total g := by
  rw [total_eq]
  unfold slots
  rw [card_biUnion]
  · refine sum_congr rfl fun u _ => ?_
    rw [card_image_of_injective _ (fun a b h => (Prod.mk.inj h).2), card_range]
  · intro a _ b _ hab
    rw [Function.onFun, disjoint_left]
    intro e h1 h2
    rw [mem_image] at h1 h2
    obtain ⟨i, -, rfl⟩ := h1
    obtain ⟨j, -, h⟩ := h2
    exact hab (Prod.mk.inj h).1.symm

theorem search_tot {g : Array (Array Nat)} {mark : Nat → Nat → Used → M Used} (K : Kind g mark) {s : Nat} (hs : s < g.size) (hb : K.Bal (slots g) s s) :
    Tot (search g mark s) (fun t => ∃ es, Walk g s es s ∧ (∀ e ∈ es, e ∈ slots g) ∧ (es.Pairwise fun a b => b ∉ K.cl a) ∧ t.res.toList = (verts g s es).reverse ∧
      ∀ x ∈ verts g s es, ∀ e ∈ slots g \ marked K es, e.1 ≠ x) := by
  unfold search
  have hrem : rem g (Array.replicate g.size 0) = total g := by
    rw [total_eq]
    refine sum_congr rfl fun u hu => ?_
    rw [mem_range] at hu
    unfold at'
    simp [hu]
  refine (dfs_tot K _ s s (slots g) _ hs ?_ ?_ hb ?_).mono ?_
  · refine ⟨by simp, ?_, Subset.refl _, ?_⟩
    · intro u hu
      unfold sz at'
      simp [hu]
    · intro e he
      have hm := mem_slots.mp he
      have h1 : e.1 < g.size := hm.1
      have h2 := hm.2
      unfold sz at' at h2
      simp only [h1, Array.getElem?_eq_getElem, Option.getD_some] at h2
      unfold at'
      simp [h1, h2, he]
  · refine ⟨by simp, fun u i hi => ?_⟩
    exfalso
    unfold at' at hi
    simp only [Array.getElem?_replicate] at hi
    split_ifs at hi
    · simp at hi
    · simp at hi
  · dsimp only
    rw [card_slots, hrem]
    omega
  · rintro t ⟨⟨es, p⟩, -⟩
    exact ⟨es, p.walk, p.sub, p.pair, by simpa using p.res, p.done⟩

/-! ### Walks as lists of vertices -/

theorem steps_cons (a b : Nat) (l : List Nat) : steps (a :: b :: l) = (a, b) :: steps (b :: l) := rfl

theorem steps_append (l : List Nat) (a b : Nat) (r : List Nat) : steps (l ++ a :: b :: r) = steps (l ++ [a]) ++ (a, b) :: steps (b :: r) := by
  induction l with
  | nil => rfl
  | cons x l ih =>
    cases l with
    | nil => rfl
    | cons y l =>
      rw [List.cons_append, List.cons_append, steps_cons, List.cons_append, List.cons_append, steps_cons, List.cons_append]
      rw [List.cons_append] at ih
      rw [ih, List.cons_append]

theorem steps_verts {g : Array (Array Nat)} {es : List Slot} {u c : Nat} (h : Walk g u es c) : steps (verts g u es) = es.map fun e => (e.1, hd g e) := by
  induction es generalizing u with
  | nil => rfl
  | cons e es ih =>
    have := ih h.2
    unfold verts at this ⊢
    rw [List.map_cons, steps_cons, this, List.map_cons, h.1]

theorem last_verts {g : Array (Array Nat)} {es : List Slot} {u c : Nat} (h : Walk g u es c) : (verts g u es).getLast? = some c := by
  induction es generalizing u with
  | nil =>
    have : u = c := h
    rw [this]
    rfl
  | cons e es ih =>
    have := ih h.2
    unfold verts at this ⊢
    rw [List.map_cons, List.getLast?_cons_cons]
    exact this

theorem steps_fst {w : List Nat} : (steps w).map Prod.fst = w.dropLast := by
  induction w with
  | nil => rfl
  | cons a w ih =>
    cases w with
    | nil => rfl
    | cons b w => rw [steps_cons, List.map_cons, ih, List.dropLast_cons₂]

theorem steps_snd {w : List Nat} : (steps w).map Prod.snd = w.tail := by
  cases w with
  | nil => rfl
  | cons a w =>
    induction w generalizing a with
    | nil => rfl
    | cons b w ih =>
      rw [steps_cons, List.map_cons, ih b]
      rfl

theorem steps_length {w : List Nat} : (steps w).length = w.length - 1 := by
  rw [← List.length_map Prod.fst, steps_fst, List.length_dropLast]

theorem steps_reverse (w : List Nat) : steps w.reverse = ((steps w).map Prod.swap).reverse := by
  induction w with
  | nil => rfl
  | cons a w ih =>
    cases w with
    | nil => rfl
    | cons b w =>
      have e : ((a, b).swap :: (steps (b :: w)).map Prod.swap).reverse = ((steps (b :: w)).map Prod.swap).reverse ++ [(b, a)] := by simp
      rw [steps_cons, List.map_cons, e, ← ih, List.reverse_cons, List.reverse_cons, List.append_assoc]
      have := steps_append w.reverse b a []
      rw [show (w.reverse ++ ([b] ++ [a])) = w.reverse ++ b :: a :: [] from rfl, this]
      rfl

/-- How often a vertex is left and entered by a walk from `a` to `b`. -/
theorem count_walk {w : List Nat} {a b : Nat} (h1 : w.head? = some a) (h2 : w.getLast? = some b) (x : Nat) :
    ((steps w).map Prod.fst).count x + (if x = b then 1 else 0) = ((steps w).map Prod.snd).count x + (if x = a then 1 else 0) := by
  rw [steps_fst, steps_snd]
  cases w with
  | nil => cases h1
  | cons y w =>
    have hy : y = a := by simpa using h1
    have e1 : (y :: w).count x = ((y :: w).dropLast).count x + if x = b then 1 else 0 := by
      have hl : (y :: w).getLast (by simp) = b := by
        rw [List.getLast?_eq_getLast_of_ne_nil (by simp)] at h2
        simpa using h2
      conv_lhs => rw [← List.dropLast_append_getLast (l := y :: w) (by simp)]
      rw [List.count_append, hl, List.count_singleton]
      congr 1
      by_cases hx : x = b
      · simp [hx]
      · have hx' : b ≠ x := fun h => hx h.symm
        simp [hx, hx']
    have e2 : (y :: w).count x = w.count x + if x = a then 1 else 0 := by
      rw [List.count_cons, hy]
      congr 1
      by_cases hx : x = a
      · simp [hx]
      · have hx' : a ≠ x := fun h => hx h.symm
        simp [hx, hx']
    rw [← e1, e2]
    rfl

/-- A walk along used entries stays in the set of visited vertices. -/
theorem walk_stays {V : Nat → Prop} {w : List Nat} {a : Nat} (h1 : w.head? = some a) (ha : V a) (h : ∀ p ∈ steps w, V p.1 → V p.2) : ∀ x ∈ w, V x := by
  induction w generalizing a with
  | nil => simp
  | cons y w ih =>
    have hy : y = a := by simpa using h1
    subst hy
    intro x hx
    rcases List.mem_cons.mp hx with rfl | hx
    · exact ha
    · cases w with
      | nil => cases hx
      | cons z w =>
        refine ih (a := z) rfl ?_ ?_ x hx
        · exact h (y, z) (by rw [steps_cons]; simp) ha
        · intro p hp
          exact h p (by rw [steps_cons]; simp [hp])

/-! ### Rotating a closed walk -/

theorem adjacent_some {p : Nat → Nat → Bool} {l : List Nat} {i : Nat} (h : adjacent p l = some i) :
    ∃ a b, p a b = true ∧ ∃ l1 l2, l = l1 ++ a :: b :: l2 ∧ l1.length = i := by
  induction l generalizing i with
  | nil => cases h
  | cons x l ih =>
    cases l with
    | nil => cases h
    | cons y l =>
      rw [adjacent] at h
      split_ifs at h with hp
      · have : i = 0 := by simpa using h.symm
        subst this
        exact ⟨x, y, hp, [], l, rfl, rfl⟩
      · cases hr : adjacent p (y :: l) with
        | none =>
          rw [hr] at h
          cases h
        | some j =>
          rw [hr] at h
          have hj : j + 1 = i := by simpa using h
          obtain ⟨a, b, h1, l1, l2, h2, h3⟩ := ih hr
          refine ⟨a, b, h1, x :: l1, l2, by rw [h2]; rfl, by simp [h3, hj]⟩

theorem adjacent_none {p : Nat → Nat → Bool} {l : List Nat} (h : adjacent p l = none) : ∀ q ∈ steps l, p q.1 q.2 = false := by
  induction l with
  | nil =>
    intro q hq
    cases hq
  | cons x l ih =>
    cases l with
    | nil =>
      intro q hq
      cases hq
    | cons y l =>
      rw [adjacent] at h
      split_ifs at h with hp
      intro q hq
      rw [steps_cons] at hq
      rcases List.mem_cons.mp hq with rfl | hq
      · simpa using hp
      · refine ih ?_ q hq
        cases hr : adjacent p (y :: l) with
        | none => rfl
        | some j =>
          rw [hr] at h
          cases h

/-- The closed walk `r` followed by its first vertex, opened at a step satisfying `p`. -/
theorem rotate_tot {p : Nat → Nat → Bool} {r : List Nat} {s : Nat} (hs : r.head? = some s) {q : Nat × Nat} (hq : q ∈ steps r) (hp : p q.1 q.2 = true) :
    Tot (rotate p r) (fun r' => ∃ a b, p a b = true ∧ r'.head? = some b ∧ r'.getLast? = some a ∧ (steps (r ++ [s])).Perm (steps r' ++ [(a, b)])) := by
  unfold rotate
  cases h : adjacent p r with
  | none =>
    have := adjacent_none h q hq
    rw [hp] at this
    cases this
  | some i =>
    obtain ⟨a, b, h1, l1, l2, h2, h3⟩ := adjacent_some h
    dsimp only
    rw [pure_eq]
    refine tot_ok.mpr ⟨a, b, h1, ?_⟩
    have e1 : r.drop (i + 1) = b :: l2 := by
      rw [h2, ← h3]
      have : l1 ++ a :: b :: l2 = (l1 ++ [a]) ++ b :: l2 := by simp
      rw [this, show l1.length + 1 = (l1 ++ [a]).length by simp, List.drop_left]
    have e2 : r.take (i + 1) = l1 ++ [a] := by
      rw [h2, ← h3]
      have : l1 ++ a :: b :: l2 = (l1 ++ [a]) ++ b :: l2 := by simp
      rw [this, show l1.length + 1 = (l1 ++ [a]).length by simp, List.take_left]
    rw [e1, e2]
    refine ⟨rfl, by rw [← List.append_assoc, List.getLast?_concat], ?_⟩
    -- the steps
    obtain ⟨z, l3, hz⟩ : ∃ z l3, b :: l2 = l3 ++ [z] := ⟨_, _, (List.dropLast_append_getLast (l := b :: l2) (by simp)).symm⟩
    obtain ⟨l4, hl4⟩ : ∃ l4, l1 ++ [a] = s :: l4 := by
      rw [h2] at hs
      cases l1 with
      | nil =>
        have : a = s := by simpa using hs
        exact ⟨[], by rw [this]; rfl⟩
      | cons y l1 =>
        have : y = s := by simpa using hs
        exact ⟨l1 ++ [a], by rw [this]; rfl⟩
    have f1 : steps (r ++ [s]) = steps (l1 ++ [a]) ++ (a, b) :: (steps (b :: l2) ++ [(z, s)]) := by
      rw [h2]
      have e : l1 ++ a :: b :: l2 ++ [s] = l1 ++ a :: b :: (l2 ++ [s]) := by simp
      rw [e, steps_append]
      congr 2
      have e' : b :: (l2 ++ [s]) = l3 ++ z :: s :: [] := by
        have : b :: (l2 ++ [s]) = (b :: l2) ++ [s] := rfl
        rw [this, hz]
        simp
      rw [e', steps_append, ← hz]
      rfl
    have f2 : steps (b :: l2 ++ (l1 ++ [a])) = steps (b :: l2) ++ (z, s) :: steps (l1 ++ [a]) := by
      rw [hl4, hz, List.append_assoc]
      have := steps_append l3 z s l4
      rw [← this]
      rfl
    rw [f1, f2]
    refine List.perm_iff_count.mpr fun x => ?_
    simp only [List.count_append, List.count_cons, List.count_nil]
    omega

end Eulerian
