import Verif.Model.RangeSet
import Mathlib.Order.Interval.Finset.Basic
import Mathlib.Data.Int.Interval
import Mathlib.Tactic.Ring
import Mathlib.Tactic.Linarith

/-! # RangeSet: helper lemmas -/

namespace RangeSet
open Cxx

/-- Membership in one of the ranges. -/
def Mem (m : List (Int × Int)) (x : Int) : Prop := ∃ p ∈ m, p.1 ≤ x ∧ x ≤ p.2

/-- Sorted, non-empty, disjoint (and with `g = 1`: non-adjacent) ranges. -/
structure Ok (g : Int) (m : List (Int × Int)) : Prop where
  ne : ∀ p ∈ m, p.1 ≤ p.2
  sep : m.Pairwise fun p q => p.2 + g < q.1

/-- Number of integers. -/
def tot : List (Int × Int) → Int
  | [] => 0
  | p :: m => (p.2 - p.1 + 1) + tot m

theorem tot_append (a b : List (Int × Int)) : tot (a ++ b) = tot a + tot b := by
  induction a with
  | nil => simp [tot]
  | cons p a ih => simp only [List.cons_append, tot, ih]; ring

theorem mem_nil (x : Int) : ¬ Mem [] x := by rintro ⟨p, hp, -⟩; simp at hp

theorem mem_cons {p : Int × Int} {m : List (Int × Int)} {x : Int} : Mem (p :: m) x ↔ (p.1 ≤ x ∧ x ≤ p.2) ∨ Mem m x := by
  simp [Mem]

theorem mem_append {a b : List (Int × Int)} {x : Int} : Mem (a ++ b) x ↔ Mem a x ∨ Mem b x := by
  simp only [Mem, List.mem_append]
  constructor
  · rintro ⟨p, h1 | h1, h2⟩
    · exact Or.inl ⟨p, h1, h2⟩
    · exact Or.inr ⟨p, h1, h2⟩
  · rintro (⟨p, h1, h2⟩ | ⟨p, h1, h2⟩)
    · exact ⟨p, Or.inl h1, h2⟩
    · exact ⟨p, Or.inr h1, h2⟩

theorem ok_cons {g : Int} {p : Int × Int} {m : List (Int × Int)} : Ok g (p :: m) ↔ p.1 ≤ p.2 ∧ (∀ q ∈ m, p.2 + g < q.1) ∧ Ok g m := by
  constructor
  · rintro ⟨h1, h2⟩
    rw [List.pairwise_cons] at h2
    exact ⟨h1 p (by simp), h2.1, fun q hq => h1 q (by simp [hq]), h2.2⟩
  · rintro ⟨h1, h2, h3, h4⟩
    exact ⟨fun q hq => by rcases List.mem_cons.1 hq with rfl | hq; exacts [h1, h3 q hq], List.pairwise_cons.2 ⟨h2, h4⟩⟩

theorem ok_append {g : Int} {a b : List (Int × Int)} : Ok g (a ++ b) ↔ Ok g a ∧ Ok g b ∧ ∀ p ∈ a, ∀ q ∈ b, p.2 + g < q.1 := by
  constructor
  · rintro ⟨h1, h2⟩
    rw [List.pairwise_append] at h2
    exact ⟨⟨fun p hp => h1 p (by simp [hp]), h2.1⟩, ⟨fun p hp => h1 p (by simp [hp]), h2.2.1⟩, h2.2.2⟩
  · rintro ⟨⟨h1, h2⟩, ⟨h3, h4⟩, h5⟩
    exact ⟨fun p hp => by rcases List.mem_append.1 hp with hp | hp; exacts [h1 p hp, h3 p hp], List.pairwise_append.2 ⟨h2, h4, h5⟩⟩

theorem ok_nil (g : Int) : Ok g [] := ⟨by simp, by simp⟩

theorem ok_one {g : Int} {p : Int × Int} (h : p.1 ≤ p.2) : Ok g [p] := ok_cons.2 ⟨h, by simp, ok_nil g⟩

/-- The number of integers is the cardinality of the set. -/
theorem card_eq {g : Int} (hg : 0 ≤ g) {m : List (Int × Int)} (h : Ok g m) {S : Finset Int} (hS : ∀ x, x ∈ S ↔ Mem m x) : (S.card : Int) = tot m := by
  induction m generalizing S with
  | nil =>
    have : S = ∅ := Finset.eq_empty_of_forall_notMem fun x hx => mem_nil x ((hS x).1 hx)
    simp [this, tot]
  | cons p m ih =>
    obtain ⟨h1, h2, h3⟩ := ok_cons.1 h
    have hI : Finset.Icc p.1 p.2 ⊆ S := by
      intro x hx
      rw [Finset.mem_Icc] at hx
      exact (hS x).2 (mem_cons.2 (Or.inl hx))
    have := ih h3 (S := S \ Finset.Icc p.1 p.2) (by
      intro x
      rw [Finset.mem_sdiff, hS, mem_cons, Finset.mem_Icc]
      constructor
      · rintro ⟨a | a, b⟩
        · exact absurd a b
        · exact a
      · intro a
        refine ⟨Or.inr a, ?_⟩
        obtain ⟨q, hq, q1, q2⟩ := a
        have := h2 q hq
        omega)
    rw [Finset.card_sdiff_of_subset hI, Int.card_Icc] at this
    have hle := Finset.card_le_card hI
    rw [Int.card_Icc] at hle
    unfold tot
    omega

theorem upperBound_spec {g : Int} (hg : 0 ≤ g) {m : List (Int × Int)} (h : Ok g m) (x : Int) :
    m = (upperBound m x).1 ++ (upperBound m x).2 ∧ (∀ p ∈ (upperBound m x).1, p.1 ≤ x) ∧ (∀ p ∈ (upperBound m x).2, x < p.1) := by
  unfold upperBound
  dsimp only
  refine ⟨List.takeWhile_append_dropWhile.symm, fun p hp => by
    have := (List.all_eq_true.1 (List.all_takeWhile (l := m) (p := fun p => decide (p.1 ≤ x)))) p hp
    simpa using this, ?_⟩
  induction m with
  | nil => simp
  | cons p m ih =>
    obtain ⟨h1, h2, h3⟩ := ok_cons.1 h
    rw [List.dropWhile_cons]
    split
    · exact ih h3
    next c =>
      have c' : x < p.1 := by simpa using c
      intro q hq
      rcases List.mem_cons.1 hq with rfl | hq
      · exact c'
      · have := h2 q hq; omega

theorem put_eq {a b : List (Int × Int)} {k v : Int} (ha : ∀ p ∈ a, p.1 < k) (hb : ∀ p ∈ b, k < p.1) : put (a ++ b) k v = a ++ (k, v) :: b := by
  induction a with
  | nil =>
    cases b with
    | nil => rfl
    | cons p b =>
      have := hb p (by simp)
      simp only [List.nil_append, put]
      rw [if_pos this]
  | cons p a ih =>
    have := ha p (by simp)
    simp only [List.cons_append, put]
    rw [if_neg (by omega), if_neg (by omega), ih (fun q hq => ha q (by simp [hq]))]

/-- State invariant. -/
structure Inv (merge : Bool) (s : State) (S : Finset Int) : Prop where
  ok : Ok (gap merge) s.m
  mem : ∀ x, x ∈ S ↔ Mem s.m x
  size : s.size = S.card

theorem gap_nonneg (merge : Bool) : 0 ≤ gap merge := by cases merge <;> simp [gap]
theorem gap_le (merge : Bool) : gap merge ≤ 1 := by cases merge <;> simp [gap]

/-- The element in front of the upper bound, if any, is the only candidate to contain `x`. -/
theorem before {g : Int} (hg : 0 ≤ g) {m : List (Int × Int)} (h : Ok g m) (x : Int) :
    ((upperBound m x).1 = [] ∧ ¬ Mem m x) ∨
    ∃ a p, (upperBound m x).1 = a ++ [p] ∧ m = a ++ p :: (upperBound m x).2 ∧ p.1 ≤ x ∧ (Mem m x ↔ x ≤ p.2) ∧ (∀ q ∈ a, q.2 + g < p.1) := by
  obtain ⟨h1, h2, h3⟩ := upperBound_spec hg h x
  rcases List.eq_nil_or_concat (upperBound m x).1 with e | ⟨a, p, e⟩
  · left
    refine ⟨e, ?_⟩
    rw [e, List.nil_append] at h1
    rintro ⟨p, hp, p1, p2⟩
    rw [h1] at hp
    have := h3 p hp
    omega
  · right
    rw [List.concat_eq_append] at e
    rw [e] at h1 h2
    have h1' : m = a ++ p :: (upperBound m x).2 := by simpa using h1
    have hok := h
    rw [h1', ok_append, ok_cons] at hok
    have hsep : ∀ q ∈ a, q.2 + g < p.1 := fun q hq => hok.2.2 q hq p (by simp)
    have hp1 := h2 p (by simp)
    refine ⟨a, p, e, h1', hp1, ?_, hsep⟩
    constructor
    · rintro ⟨q, hq, q1, q2⟩
      rw [h1'] at hq
      rcases List.mem_append.1 hq with hq | hq
      · have := hsep q hq; omega
      · rcases List.mem_cons.1 hq with rfl | hq
        · exact q2
        · have := h3 q hq; omega
    · intro hx
      exact ⟨p, by rw [h1']; simp, hp1, hx⟩

theorem contains_eq {merge : Bool} {s : State} {S : Finset Int} (h : Inv merge s S) (x : Int) : contains s x = decide (x ∈ S) := by
  unfold contains
  rcases before (gap_nonneg merge) h.ok x with ⟨e, hm⟩ | ⟨a, p, e, -, -, hm, -⟩
  · rw [e]
    symm
    simpa [h.mem] using hm
  · rw [e]
    simp [h.mem, hm]

theorem findRange_eq {merge : Bool} {s : State} {S : Finset Int} (h : Inv merge s S) (x : Int) :
    (findRange s x = none ∧ x ∉ S) ∨ ∃ p ∈ s.m, findRange s x = some p ∧ p.1 ≤ x ∧ x ≤ p.2 := by
  unfold findRange
  rcases before (gap_nonneg merge) h.ok x with ⟨e, hm⟩ | ⟨a, p, e, em, hp, hm, -⟩
  · left
    rw [e]
    exact ⟨rfl, by rwa [h.mem]⟩
  · rw [e]
    simp only [List.getLast?_append, List.getLast?_singleton, Option.some_or]
    by_cases c : x ≤ p.2
    · right
      exact ⟨p, by rw [em]; simp, by rw [if_pos c], hp, c⟩
    · left
      rw [if_neg c]
      exact ⟨rfl, by rw [h.mem, hm]; exact c⟩

/-- A stored range lies in the set and (with merging) is a maximal run. -/
theorem range_spec {merge : Bool} {s : State} {S : Finset Int} (h : Inv merge s S) {p : Int × Int} (hp : p ∈ s.m) :
    (∀ y, p.1 ≤ y → y ≤ p.2 → y ∈ S) ∧ (merge = true → p.1 - 1 ∉ S ∧ p.2 + 1 ∉ S) := by
  refine ⟨fun y y1 y2 => (h.mem y).2 ⟨p, hp, y1, y2⟩, ?_⟩
  rintro rfl
  obtain ⟨a, b, e⟩ := List.append_of_mem hp
  have hok := h.ok
  rw [e, ok_append, ok_cons] at hok
  obtain ⟨-, ⟨h1, h2, -⟩, h3⟩ := hok
  simp only [gap, if_true] at h2 h3
  have hne := h.ok.ne
  constructor
  · rw [h.mem]
    rintro ⟨q, hq, q1, q2⟩
    rw [e] at hq
    rcases List.mem_append.1 hq with hq | hq
    · have := h3 q hq p (by simp); omega
    · rcases List.mem_cons.1 hq with rfl | hq
      · omega
      · have := h2 q hq; omega
  · rw [h.mem]
    rintro ⟨q, hq, q1, q2⟩
    rw [e] at hq
    rcases List.mem_append.1 hq with hq | hq
    · have := h3 q hq p (by simp); omega
    · rcases List.mem_cons.1 hq with rfl | hq
      · omega
      · have := h2 q hq; omega

/-! ### insert -/

theorem mergeLoop_spec (merge : Bool) (l : Int) : ∀ (b : List (Int × Int)) (r ins : Int), Ok (gap merge) b → (∀ p ∈ b, l ≤ p.1) → l ≤ r →
    r ≤ (mergeLoop merge r ins b).1 ∧ Ok (gap merge) (mergeLoop merge r ins b).2.2 ∧
    (∀ p ∈ (mergeLoop merge r ins b).2.2, (mergeLoop merge r ins b).1 + gap merge < p.1) ∧
    (∀ x, ((l ≤ x ∧ x ≤ (mergeLoop merge r ins b).1) ∨ Mem (mergeLoop merge r ins b).2.2 x) ↔ ((l ≤ x ∧ x ≤ r) ∨ Mem b x)) ∧
    (mergeLoop merge r ins b).2.1 = ins - (tot b - tot (mergeLoop merge r ins b).2.2) := by
  intro b
  induction b with
  | nil =>
    intro r ins _ _ _
    exact ⟨le_rfl, ok_nil _, by simp [mergeLoop], fun x => Iff.rfl, by simp [mergeLoop]⟩
  | cons p b ih =>
    intro r ins hok hl hlr
    obtain ⟨h1, h2, h3⟩ := ok_cons.1 hok
    have hp := hl p (by simp)
    have hg := gap_le merge
    have hg0 := gap_nonneg merge
    simp only [mergeLoop]
    split
    next c =>
      have c' : p.1 ≤ r + gap merge := by simpa [mergeable] using c
      obtain ⟨i1, i2, i3, i4, i5⟩ := ih (max r p.2) (ins - (p.2 - p.1 + 1)) h3 (fun q hq => hl q (by simp [hq])) (by omega)
      refine ⟨by omega, i2, i3, fun x => ?_, ?_⟩
      · rw [i4, mem_cons]
        constructor
        · rintro (⟨x1, x2⟩ | hx)
          · by_cases hx : x ≤ r
            · exact Or.inl ⟨x1, hx⟩
            · exact Or.inr (Or.inl ⟨by omega, by omega⟩)
          · exact Or.inr (Or.inr hx)
        · rintro (⟨x1, x2⟩ | ⟨x1, x2⟩ | hx)
          · exact Or.inl ⟨x1, by omega⟩
          · exact Or.inl ⟨by omega, by omega⟩
          · exact Or.inr hx
      · rw [i5]; simp only [tot]; ring
    next c =>
      have c' : r + gap merge < p.1 := by simpa [mergeable] using c
      refine ⟨le_rfl, hok, fun q hq => ?_, fun x => Iff.rfl, by simp⟩
      dsimp only at hq ⊢
      rcases List.mem_cons.1 hq with rfl | hq
      · exact c'
      · have := h2 q hq; omega

theorem insertAt_spec {merge : Bool} {s : State} {S : Finset Int} (hsz : s.size = S.card) {a b : List (Int × Int)} {l r l0 : Int}
    (hm : ∀ x, x ∈ S ↔ Mem (a ++ b) x) (ht : Ok (gap merge) (a ++ b)) (hla : ∀ p ∈ a, p.2 + gap merge < l) (hlb : ∀ p ∈ b, l ≤ p.1)
    (hlr : l ≤ r) (hl0 : l ≤ l0) (hl0r : l0 ≤ r) (hcov : ∀ x, l ≤ x → x < l0 → Mem b x) :
    Inv merge (insertAt merge s a b l r).1 (S ∪ Finset.Icc l0 r) ∧ (insertAt merge s a b l r).2 = ((Finset.Icc l0 r \ S).card : Int) := by
  obtain ⟨hoa, hob, hab⟩ := ok_append.1 ht
  obtain ⟨i1, i2, i3, i4, i5⟩ := mergeLoop_spec merge l b r 0 hob hlb hlr
  have hg0 := gap_nonneg merge
  unfold insertAt
  dsimp only
  obtain ⟨q, hq⟩ : ∃ q, q = mergeLoop merge r 0 b := ⟨_, rfl⟩
  rw [← hq] at i1 i2 i3 i4 i5 ⊢
  have hput : put (a ++ q.2.2) l q.1 = a ++ (l, q.1) :: q.2.2 := by
    refine put_eq (fun p hp => ?_) (fun p hp => ?_)
    · have := hla p hp; have := hoa.ne p hp; omega
    · have := i3 p hp; omega
  have hok : Ok (gap merge) (a ++ (l, q.1) :: q.2.2) := by
    refine ok_append.2 ⟨hoa, ok_cons.2 ⟨by om, i3, i2⟩, fun p hp t ht => ?_⟩
    rcases List.mem_cons.1 ht with rfl | ht
    · exact hla p hp
    · have := hla p hp; have := i3 t ht; omega
  have hmem : ∀ x, x ∈ S ∪ Finset.Icc l0 r ↔ Mem (a ++ (l, q.1) :: q.2.2) x := by
    intro x
    rw [Finset.mem_union, Finset.mem_Icc, hm, mem_append, mem_append, mem_cons]
    dsimp only
    rw [i4]
    constructor
    · rintro ((h | h) | h)
      · exact Or.inl h
      · exact Or.inr (Or.inr h)
      · exact Or.inr (Or.inl ⟨by omega, h.2⟩)
    · rintro (h | h | h)
      · exact Or.inl (Or.inl h)
      · by_cases hx : x < l0
        · exact Or.inl (Or.inr (hcov x h.1 hx))
        · exact Or.inr ⟨by omega, h.2⟩
      · exact Or.inl (Or.inr h)
  have c1 := card_eq hg0 hok hmem
  have c0 := card_eq hg0 ht hm
  have hins : q.2.1 + (q.1 - l + 1) = ((Finset.Icc l0 r \ S).card : Int) := by
    have e : (S ∪ Finset.Icc l0 r).card = S.card + (Finset.Icc l0 r \ S).card := by
      rw [← Finset.card_union_of_disjoint Finset.disjoint_sdiff, Finset.union_sdiff_self_eq_union]
    rw [e] at c1
    push_cast at c1
    rw [c0, i5] at *
    simp only [tot_append, tot] at c1 ⊢
    linarith
  rw [hput]
  refine ⟨⟨hok, hmem, ?_⟩, hins⟩
  dsimp only
  rw [hins, hsz]
  rw [show (S ∪ Finset.Icc l0 r).card = S.card + (Finset.Icc l0 r \ S).card by
      rw [← Finset.card_union_of_disjoint Finset.disjoint_sdiff, Finset.union_sdiff_self_eq_union]]
  push_cast
  rfl

theorem insert_spec {merge : Bool} {s : State} {S : Finset Int} (h : Inv merge s S) (l r : Int) :
    Inv merge (insert merge s l r).1 (S ∪ Finset.Icc l r) ∧ (insert merge s l r).2 = ((Finset.Icc l r \ S).card : Int) := by
  unfold insert
  split
  next c =>
    rw [Finset.Icc_eq_empty (by omega), Finset.union_empty]
    exact ⟨h, by simp⟩
  next c =>
    dsimp only
    have hg0 := gap_nonneg merge
    obtain ⟨e0, h1, h2⟩ := upperBound_spec hg0 h.ok l
    have hok := h.ok
    rcases before hg0 h.ok l with ⟨e, -⟩ | ⟨a, p, e, em, hp, -, hsep⟩
    · rw [e]
      dsimp only [List.getLast?_nil]
      rw [e, List.nil_append] at e0
      exact insertAt_spec h.size (a := []) (by rw [List.nil_append, ← e0]; exact h.mem) (by rw [List.nil_append, ← e0]; exact hok) (by simp)
        (fun p hp => (h2 p hp).le) (by omega) le_rfl (by omega) (fun x _ _ => by omega)
    · rw [e]
      simp only [List.getLast?_append, List.getLast?_singleton, Option.some_or, List.dropLast_concat]
      have hpp : p.1 ≤ p.2 := hok.ne p (by rw [em]; simp)
      split
      next cm =>
        have cm' : l ≤ p.2 + gap merge := by simpa [mergeable] using cm
        have hmin : min l p.1 = p.1 := by omega
        rw [hmin]
        have hg := gap_le merge
        refine insertAt_spec h.size (by rw [← em]; exact h.mem) (by rw [← em]; exact hok) hsep ?_ (by omega) hp (by omega) ?_
        · intro q hq
          rcases List.mem_cons.1 hq with rfl | hq
          · exact le_rfl
          · have := h2 q hq; omega
        · intro x x1 x2
          exact mem_cons.2 (Or.inl ⟨x1, by omega⟩)
      next cm =>
        have cm' : p.2 + gap merge < l := by simpa [mergeable] using cm
        have em' : s.m = (a ++ [p]) ++ (upperBound s.m l).2 := by rw [← e]; exact e0
        refine insertAt_spec h.size (by rw [← em']; exact h.mem) (by rw [← em']; exact hok) ?_ (fun q hq => (h2 q hq).le) (by omega) le_rfl (by omega) (fun x _ _ => by omega)
        intro q hq
        rcases List.mem_append.1 hq with hq | hq
        · have := hsep q hq; omega
        · simp at hq; rw [hq]; exact cm'

/-! ### erase -/

theorem eraseLoop_spec {g : Int} (hg : 0 ≤ g) (r : Int) : ∀ (b : List (Int × Int)) (tr er : Int), Ok g b → tr ≤ r →
    Ok g (eraseLoop r tr er b).2.2 ∧ (∀ p ∈ (eraseLoop r tr er b).2.2, r < p.1) ∧
    (r < (eraseLoop r tr er b).1 → ∀ p ∈ (eraseLoop r tr er b).2.2, (eraseLoop r tr er b).1 + g < p.1) ∧
    (∀ x, r < x → (x ≤ (eraseLoop r tr er b).1 ∨ Mem (eraseLoop r tr er b).2.2 x ↔ Mem b x)) ∧
    (eraseLoop r tr er b).2.1 = er + (tot b - tot (eraseLoop r tr er b).2.2) := by
  intro b
  induction b with
  | nil =>
    intro tr er _ htr
    refine ⟨ok_nil _, by simp [eraseLoop], by simp [eraseLoop], fun x hx => ?_, by simp [eraseLoop]⟩
    simp only [eraseLoop]
    constructor
    · rintro (h | h)
      · omega
      · exact h
    · exact Or.inr
  | cons p b ih =>
    intro tr er hok htr
    obtain ⟨h1, h2, h3⟩ := ok_cons.1 hok
    simp only [eraseLoop]
    split
    next c =>
      rcases le_or_gt p.2 r with hpr | hpr
      · obtain ⟨i1, i2, i3, i4, i5⟩ := ih p.2 (er + (p.2 - p.1 + 1)) h3 hpr
        refine ⟨i1, i2, i3, fun x hx => ?_, ?_⟩
        · rw [i4 x hx, mem_cons]
          constructor
          · exact Or.inr
          · rintro (h | h)
            · omega
            · exact h
        · rw [i5]; simp only [tot]; ring
      · -- the last range that is touched reaches over `r`
        have e : eraseLoop r p.2 (er + (p.2 - p.1 + 1)) b = (p.2, er + (p.2 - p.1 + 1), b) := by
          cases b with
          | nil => rfl
          | cons q b =>
            have := h2 q (by simp)
            simp only [eraseLoop]
            rw [if_neg (by omega)]
        rw [e]
        dsimp only
        refine ⟨h3, fun q hq => by have := h2 q hq; omega, fun _ => h2, fun x hx => ?_, by simp only [tot]; ring⟩
        rw [mem_cons]
        constructor
        · rintro (h | h)
          · exact Or.inl ⟨by omega, h⟩
          · exact Or.inr h
        · rintro (h | h)
          · exact Or.inl h.2
          · exact Or.inr h
    next c =>
      dsimp only
      refine ⟨hok, fun q hq => ?_, by omega, fun x hx => ?_, by simp⟩
      · rcases List.mem_cons.1 hq with rfl | hq
        · omega
        · have := h2 q hq; omega
      · constructor
        · rintro (h | h)
          · omega
          · exact h
        · exact Or.inr

theorem eraseAt_spec {merge : Bool} {s : State} {S : Finset Int} (hsz : s.size = S.card) {a b : List (Int × Int)} {tl l r : Int}
    (hm : ∀ x, x ∈ S ↔ Mem (a ++ b) x) (ht : Ok (gap merge) (a ++ b)) (hla : ∀ p ∈ a, p.2 < l) (hla' : tl < l → ∀ p ∈ a, p.2 + gap merge < tl)
    (hlr : l ≤ r) (htl : tl ≤ l) (hcov : ∀ x, x < l → (Mem b x ↔ tl ≤ x)) :
    Inv merge (eraseAt s a b tl l r).1 (S \ Finset.Icc l r) ∧ (eraseAt s a b tl l r).2 = ((S ∩ Finset.Icc l r).card : Int) := by
  obtain ⟨hoa, hob, hab⟩ := ok_append.1 ht
  have hg0 := gap_nonneg merge
  have hg1 := gap_le merge
  obtain ⟨i1, i2, i3, i4, i5⟩ := eraseLoop_spec hg0 r b r 0 hob le_rfl
  unfold eraseAt
  dsimp only
  obtain ⟨q, hq⟩ : ∃ q, q = eraseLoop r r 0 b := ⟨_, rfl⟩
  rw [← hq] at i1 i2 i3 i4 i5 ⊢
  -- the left remainder
  obtain ⟨L, hL⟩ : ∃ L : List (Int × Int), L = if tl < l then [(tl, l - 1)] else [] := ⟨_, rfl⟩
  obtain ⟨R, hR⟩ : ∃ R : List (Int × Int), R = if r < q.1 then [(r + 1, q.1)] else [] := ⟨_, rfl⟩
  have hLm : ∀ p ∈ L, p = (tl, l - 1) ∧ tl < l := by
    intro p hp; rw [hL] at hp; split at hp <;> simp_all
  have hRm : ∀ p ∈ R, p = (r + 1, q.1) ∧ r < q.1 := by
    intro p hp; rw [hR] at hp; split at hp <;> simp_all
  have kl : keepLeft (a ++ q.2.2) tl l q.2.1 = (a ++ L ++ q.2.2, q.2.1 - tot L) := by
    unfold keepLeft
    rw [hL]
    split
    next c =>
      rw [put_eq]
      · simp [tot]; ring
      · intro p hp; have := hla' c p hp; have := hoa.ne p hp; omega
      · intro p hp; have := i2 p hp; omega
    next c => simp [tot]
  rw [kl]
  dsimp only
  have kr : keepRight (a ++ L ++ q.2.2) r q.1 (q.2.1 - tot L) = (a ++ L ++ R ++ q.2.2, q.2.1 - tot L - tot R) := by
    unfold keepRight
    rw [hR]
    split
    next c =>
      rw [put_eq]
      · simp [tot]; ring
      · intro p hp
        rcases List.mem_append.1 hp with hp | hp
        · have := hla p hp; have := hoa.ne p hp; omega
        · obtain ⟨rfl, _⟩ := hLm p hp; om
      · intro p hp; have := i3 c p hp; omega
    next c => simp [tot]
  rw [kr]
  dsimp only
  have hoL : Ok (gap merge) L := by rw [hL]; split; exacts [ok_one (by om), ok_nil _]
  have hoR : Ok (gap merge) R := by rw [hR]; split; exacts [ok_one (by om), ok_nil _]
  have hok : Ok (gap merge) (a ++ L ++ R ++ q.2.2) := by
    refine ok_append.2 ⟨ok_append.2 ⟨ok_append.2 ⟨hoa, hoL, ?_⟩, hoR, ?_⟩, i1, ?_⟩
    · intro p hp t ht
      obtain ⟨rfl, c⟩ := hLm t ht
      exact hla' c p hp
    · intro p hp t ht
      obtain ⟨rfl, c⟩ := hRm t ht
      rcases List.mem_append.1 hp with hp | hp
      · have := hla p hp; om
      · obtain ⟨rfl, _⟩ := hLm p hp; om
    · intro p hp t ht
      have ht' := i2 t ht
      rcases List.mem_append.1 hp with hp | hp
      · rcases List.mem_append.1 hp with hp | hp
        · have := hla p hp; omega
        · obtain ⟨rfl, _⟩ := hLm p hp; om
      · obtain ⟨rfl, c⟩ := hRm p hp
        exact i3 c t ht
  have hLmem : ∀ x, Mem L x ↔ tl ≤ x ∧ x < l := by
    intro x
    rw [hL]
    split
    · simp [Mem]; omega
    · simp [Mem]; omega
  have hRmem : ∀ x, Mem R x ↔ r < x ∧ x ≤ q.1 := by
    intro x
    rw [hR]
    split
    · simp [Mem]; omega
    · simp [Mem]; omega
  have hmem : ∀ x, x ∈ S \ Finset.Icc l r ↔ Mem (a ++ L ++ R ++ q.2.2) x := by
    intro x
    rw [Finset.mem_sdiff, Finset.mem_Icc, hm]
    simp only [mem_append, hLmem, hRmem]
    have hA : Mem a x → x < l := by
      rintro ⟨p, hp, p1, p2⟩; have := hla p hp; omega
    have hT : Mem q.2.2 x → r < x := by
      rintro ⟨p, hp, p1, p2⟩; have := i2 p hp; omega
    constructor
    · rintro ⟨h | h, hn⟩
      · exact Or.inl (Or.inl (Or.inl h))
      · by_cases c : x < l
        · exact Or.inl (Or.inl (Or.inr ⟨(hcov x c).1 h, c⟩))
        · have c2 : r < x := by omega
          rcases (i4 x c2).2 h with h | h
          · exact Or.inl (Or.inr ⟨c2, h⟩)
          · exact Or.inr h
    · rintro (((h | h) | h) | h)
      · exact ⟨Or.inl h, by have := hA h; omega⟩
      · exact ⟨Or.inr ((hcov x h.2).2 h.1), by omega⟩
      · exact ⟨Or.inr ((i4 x h.1).1 (Or.inl h.2)), by omega⟩
      · have := hT h
        exact ⟨Or.inr ((i4 x this).1 (Or.inr h)), by omega⟩
  have c1 := card_eq hg0 hok hmem
  have c0 := card_eq hg0 ht hm
  have e : (S \ Finset.Icc l r).card + (S ∩ Finset.Icc l r).card = S.card := Finset.card_sdiff_add_card_inter S _
  have her : q.2.1 - tot L - tot R = ((S ∩ Finset.Icc l r).card : Int) := by
    rw [i5]
    simp only [tot_append] at c0 c1
    have : ((S \ Finset.Icc l r).card : Int) + (S ∩ Finset.Icc l r).card = S.card := by exact_mod_cast e
    linarith
  refine ⟨⟨hok, hmem, ?_⟩, her⟩
  dsimp only
  rw [her, hsz, ← e]
  push_cast
  ring

theorem erase_spec {merge : Bool} {s : State} {S : Finset Int} (h : Inv merge s S) (l r : Int) :
    Inv merge (erase s l r).1 (S \ Finset.Icc l r) ∧ (erase s l r).2 = ((S ∩ Finset.Icc l r).card : Int) := by
  unfold erase
  split
  next c =>
    rw [Finset.Icc_eq_empty (by omega), Finset.sdiff_empty]
    exact ⟨h, by simp⟩
  next c =>
    dsimp only
    have hg0 := gap_nonneg merge
    obtain ⟨e0, h1, h2⟩ := upperBound_spec hg0 h.ok l
    have hok := h.ok
    have hb0 : ∀ x, x < l → (Mem (upperBound s.m l).2 x ↔ l ≤ x) := by
      intro x hx
      constructor
      · rintro ⟨p, hp, p1, p2⟩; have := h2 p hp; omega
      · intro; omega
    rcases before hg0 h.ok l with ⟨e, -⟩ | ⟨a, p, e, em, hp, -, hsep⟩
    · rw [e]
      dsimp only [List.getLast?_nil]
      rw [e, List.nil_append] at e0
      exact eraseAt_spec h.size (a := []) (by rw [List.nil_append, ← e0]; exact h.mem) (by rw [List.nil_append, ← e0]; exact hok) (by simp) (by simp)
        (by omega) le_rfl hb0
    · rw [e]
      simp only [List.getLast?_append, List.getLast?_singleton, Option.some_or, List.dropLast_concat]
      have hpp : p.1 ≤ p.2 := hok.ne p (by rw [em]; simp)
      split
      next cm =>
        refine eraseAt_spec h.size (by rw [← em]; exact h.mem) (by rw [← em]; exact hok) ?_ (fun _ => hsep) (by omega) hp ?_
        · intro q hq; have := hsep q hq; omega
        · intro x hx
          rw [mem_cons, hb0 x hx]
          omega
      next cm =>
        have em' : s.m = (a ++ [p]) ++ (upperBound s.m l).2 := by rw [← e]; exact e0
        refine eraseAt_spec h.size (by rw [← em']; exact h.mem) (by rw [← em']; exact hok) ?_ (by omega) (by omega) le_rfl hb0
        intro q hq
        rcases List.mem_append.1 hq with hq | hq
        · have := hsep q hq; omega
        · simp at hq; rw [hq]; omega

end RangeSet
