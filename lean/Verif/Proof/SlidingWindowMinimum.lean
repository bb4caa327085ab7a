import Verif.Model.SlidingWindowMinimum
import Mathlib.Order.Basic
import Mathlib.Order.Nat
import Mathlib.Data.List.Basic

/-! # sliding_window_minimum: helper lemmas -/

namespace SlidingWindowMinimum
open Cxx

variable {T : Type} {cmp : T → T → Bool}

/-- Nothing between `i` and `r` removes `i`. -/
def Keep (cmp : T → T → Bool) (f : Nat → T) (r i : Nat) : Prop := ∀ j, i < j → j < r → cmp (f i) (f j) = false

/-- The deque holds the indices of the window that no later element removes, in increasing order. -/
structure Inv (cmp : T → T → Bool) (n : Nat) (f : Nat → T) (l r : Nat) (s : State T) : Prop where
  hsz : s.a.size = n
  ha : ∀ i, i < n → s.a[i]? = some (f i)
  hl : s.l = l
  hr : s.r = r
  hlr : l ≤ r
  hrn : r ≤ n
  sorted : s.dq.Pairwise (· < ·)
  mem : ∀ i, i ∈ s.dq ↔ l ≤ i ∧ i < r ∧ Keep cmp f r i

variable {n : Nat} {f : Nat → T} {l r : Nat} {s : State T}

theorem init_inv (n : Nat) (gen : Nat → T) : Inv cmp n gen 0 0 (init n gen) :=
  ⟨by simp [init], fun i hi => by simp [init, hi], rfl, rfl, le_rfl, Nat.zero_le _, by simp [init], fun i => by simp [init]⟩

/-- `cmp` is a strict or a reflexive weak order. -/
structure Order (cmp : T → T → Bool) : Prop where
  neg : ∀ x y z, cmp x y = false → cmp y z = false → cmp x z = false
  pos : ∀ x y z, cmp x y = true → cmp y z = true → cmp x z = true

theorem procRight_tot (hc : Order cmp) (h : Inv cmp n f l r s) (hr : r < n) : Tot (procRight cmp s) (Inv cmp n f l (r + 1)) := by
  unfold procRight
  rw [h.hr, h.hsz, decide_eq_true hr, check_true, ok_bind, rd_some (h.ha r hr), ok_bind]
  have hlr := h.hlr
  refine Tot.bind (Tot.loop (P := fun dq : List Nat => ∃ popped, s.dq = dq ++ popped ∧ ∀ i ∈ popped, cmp (f i) (f r) = true)
    (Q := fun dq : List Nat => ∃ popped, s.dq = dq ++ popped ∧ (∀ i ∈ popped, cmp (f i) (f r) = true) ∧ ∀ b, dq.getLast? = some b → cmp (f b) (f r) = false)
    (fun dq => dq.length) ?_ ⟨[], by simp, by simp⟩ le_rfl) ?_
  · rintro dq ⟨popped, e, hp⟩
    unfold popStep
    rcases List.eq_nil_or_concat dq with rfl | ⟨ys, b, rfl⟩ <;> try simp only [List.concat_eq_append] at *
    · exact Tot.pure ⟨popped, e, hp, by simp⟩
    · simp only [List.getLast?_append, List.getLast?_singleton, Option.some_or]
      have hb : b ∈ s.dq := by rw [e]; simp
      obtain ⟨b1, b2, b3⟩ := (h.mem b).1 hb
      rw [rd_some (h.ha b (by omega)), ok_bind]
      split
      next c =>
        refine Tot.pure ⟨⟨b :: popped, by simp [e], ?_⟩, by simp⟩
        intro i hi
        rcases List.mem_cons.1 hi with rfl | hi
        · exact c
        · exact hp i hi
      next c =>
        refine Tot.pure ⟨popped, e, hp, ?_⟩
        intro b' hb'
        simp at hb'
        subst hb'
        simpa using c
  · rintro dq ⟨popped, e, hp, hlast⟩
    have hs := h.sorted
    rw [e] at hs
    have hs1 := (List.pairwise_append.1 hs).1
    have hkeep : ∀ i ∈ dq, cmp (f i) (f r) = false := by
      intro i hi
      rcases List.eq_nil_or_concat dq with rfl | ⟨ys, b, rfl⟩ <;> try simp only [List.concat_eq_append] at *
      · simp at hi
      · have hb := hlast b (by simp)
        rcases List.mem_append.1 hi with hi' | hi'
        · have hlt : i < b := (List.pairwise_append.1 hs1).2.2 i hi' b (by simp)
          have hb' : b ∈ s.dq := by rw [e]; simp
          have hi'' : i ∈ s.dq := by rw [e]; simp [hi']
          obtain ⟨-, b2, -⟩ := (h.mem b).1 hb'
          obtain ⟨-, -, i3⟩ := (h.mem i).1 hi''
          exact hc.neg _ _ _ (i3 b hlt b2) hb
        · simp at hi'; subst hi'; exact hb
    refine Tot.pure ⟨h.hsz, h.ha, h.hl, rfl, by omega, by omega, ?_, ?_⟩
    · show (dq ++ [r]).Pairwise (· < ·)
      rw [List.pairwise_append]
      refine ⟨hs1, by simp, fun i hi j hj => ?_⟩
      simp at hj
      subst hj
      exact ((h.mem i).1 (by rw [e]; simp [hi])).2.1
    · intro i
      show i ∈ dq ++ [r] ↔ _
      rw [List.mem_append, List.mem_singleton]
      constructor
      · rintro (hi | rfl)
        · obtain ⟨a, b, c⟩ := (h.mem i).1 (by rw [e]; simp [hi])
          refine ⟨a, by omega, fun j hj1 hj2 => ?_⟩
          rcases Nat.lt_or_ge j r with hj | hj
          · exact c j hj1 hj
          · rw [show j = r by omega]; exact hkeep i hi
        · exact ⟨hlr, by omega, fun j a b => by omega⟩
      · rintro ⟨a, b, c⟩
        rcases Nat.lt_or_ge i r with hi | hi
        · left
          have : i ∈ s.dq := (h.mem i).2 ⟨a, hi, fun j p q => c j p (by omega)⟩
          rw [e, List.mem_append] at this
          rcases this with this | this
          · exact this
          · have h1 := hp i this
            rw [c r hi (by omega)] at h1
            cases h1
        · right; omega

theorem dq_ne (h : Inv cmp n f l r s) (hlr : l < r) : ∃ b dq, s.dq = b :: dq := by
  have : r - 1 ∈ s.dq := (h.mem _).2 ⟨by omega, by omega, fun j a b => by omega⟩
  cases hd : s.dq with
  | nil => rw [hd] at this; simp at this
  | cons b dq => exact ⟨b, dq, rfl⟩

theorem procLeft_tot (h : Inv cmp n f l r s) (hlr : l < r) : Tot (procLeft s) (Inv cmp n f (l + 1) r) := by
  unfold procLeft
  rw [h.hl, h.hr, decide_eq_true hlr, check_true, ok_bind]
  obtain ⟨b, dq, e⟩ := dq_ne h hlr
  have hs := h.sorted
  have hm := h.mem
  rw [e] at hs hm ⊢
  dsimp only
  rw [List.pairwise_cons] at hs
  have hb := (hm b).1 (by simp)
  split
  next c =>
    subst c
    refine Tot.pure ⟨h.hsz, h.ha, rfl, rfl, by omega, h.hrn, hs.2, fun i => ?_⟩
    show i ∈ dq ↔ _
    constructor
    · intro hi
      have := hs.1 i hi
      obtain ⟨-, p, q⟩ := (hm i).1 (by simp [hi])
      exact ⟨by omega, p, q⟩
    · rintro ⟨p, q, t⟩
      have := (hm i).2 ⟨by omega, q, t⟩
      rcases List.mem_cons.1 this with rfl | this
      · omega
      · exact this
  next c =>
    refine Tot.pure ⟨h.hsz, h.ha, rfl, rfl, by omega, h.hrn, e ▸ h.sorted, fun i => ?_⟩
    show i ∈ b :: dq ↔ _
    constructor
    · intro hi
      obtain ⟨o, p, q⟩ := (hm i).1 hi
      refine ⟨?_, p, q⟩
      rcases List.mem_cons.1 hi with rfl | hi
      · omega
      · have := hs.1 i hi; omega
    · rintro ⟨p, q, t⟩
      exact (hm i).2 ⟨by omega, q, t⟩

theorem procRightTo_tot (hc : Order cmp) (h : Inv cmp n f l r s) {t : Nat} (ht : t ≤ n) : Tot (procRightTo cmp s t) (Inv cmp n f l (max r t)) := by
  unfold procRightTo
  rcases Nat.le_total t r with hle | hle
  · rw [Nat.max_eq_left hle, h.hr, Nat.sub_eq_zero_of_le hle]
    refine ⟨s, ?_, h⟩
    show ((if s.r < t then _ else _ : M (Option (State T))) >>= _) = _
    rw [if_neg (by rw [h.hr]; omega)]
    rfl
  · rw [Nat.max_eq_right hle, h.hr]
    refine Tot.loop (P := fun s : State T => ∃ r, r ≤ t ∧ Inv cmp n f l r s) (fun s => t - s.r) ?_ ⟨r, hle, h⟩ (by rw [h.hr])
    rintro s ⟨r, hr, h⟩
    split
    next c =>
      rw [h.hr] at c
      refine Tot.bind (procRight_tot hc h (by omega)) fun s' h' => Tot.pure ⟨⟨r + 1, c, h'⟩, ?_⟩
      rw [h.hr, h'.hr]; omega
    next c =>
      rw [h.hr] at c
      refine Tot.pure ?_
      rwa [show t = r by omega]

theorem procLeftTo_tot (h : Inv cmp n f l r s) {t : Nat} (ht : t ≤ r) : Tot (procLeftTo s t) (Inv cmp n f (max l t) r) := by
  unfold procLeftTo
  rcases Nat.le_total t l with hle | hle
  · rw [Nat.max_eq_left hle, h.hl, Nat.sub_eq_zero_of_le hle]
    refine ⟨s, ?_, h⟩
    show ((if s.l < t then _ else _ : M (Option (State T))) >>= _) = _
    rw [if_neg (by rw [h.hl]; omega)]
    rfl
  · rw [Nat.max_eq_right hle, h.hl]
    refine Tot.loop (P := fun s : State T => ∃ l, l ≤ t ∧ Inv cmp n f l r s) (fun s => t - s.l) ?_ ⟨l, hle, h⟩ (by rw [h.hl])
    rintro s ⟨l, hl, h⟩
    split
    next c =>
      rw [h.hl] at c
      refine Tot.bind (procLeft_tot h (by omega)) fun s' h' => Tot.pure ⟨⟨l + 1, c, h'⟩, ?_⟩
      rw [h.hl, h'.hl]; omega
    next c =>
      rw [h.hl] at c
      refine Tot.pure ?_
      rwa [show t = l by omega]

/-- The answer. -/
theorem argQuery_tot (hc : Order cmp) (h : Inv cmp n f l r s) (hlr : l < r) :
    Tot (argQuery s) fun i => l ≤ i ∧ i < r ∧ (∀ j, i < j → j < r → cmp (f i) (f j) = false) ∧ (∀ j, l ≤ j → j < i → cmp (f j) (f i) = true) := by
  unfold argQuery
  rw [h.hl, h.hr, decide_eq_true hlr, check_true, ok_bind]
  obtain ⟨b, dq, e⟩ := dq_ne h hlr
  have hs := h.sorted
  have hm := h.mem
  rw [e] at hs hm ⊢
  rw [List.pairwise_cons] at hs
  obtain ⟨b1, b2, b3⟩ := (hm b).1 (by simp)
  refine Tot.pure ⟨b1, b2, b3, ?_⟩
  -- downward induction on `j`
  suffices H : ∀ k j, j < b → b - j ≤ k → l ≤ j → cmp (f j) (f b) = true from fun j p q => H (b - j) j q le_rfl p
  intro k
  induction k with
  | zero => intro j p q; omega
  | succ k ih =>
    intro j p q t
    by_contra hcon
    rw [Bool.not_eq_true] at hcon
    have : j ∈ b :: dq := by
      refine (hm j).2 ⟨t, by omega, fun i i1 i2 => ?_⟩
      by_contra hci
      rw [Bool.not_eq_false] at hci
      rcases Nat.lt_trichotomy i b with hlt | rfl | hgt
      · have := hc.pos _ _ _ hci (ih i hlt (by omega) (by omega))
        rw [hcon] at this; cases this
      · rw [hcon] at hci; cases hci
      · have := hc.neg _ _ _ hcon (b3 i hgt i2)
        rw [this] at hci; cases hci
    rcases List.mem_cons.1 this with rfl | this
    · omega
    · have := hs.1 j this; omega

end SlidingWindowMinimum
