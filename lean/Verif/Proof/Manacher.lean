import Verif.Model.StringAlgo
import Mathlib.Order.Bounds.Basic
import Mathlib.Algebra.Order.Group.Int

/-! # Proofs about `library/string/manacher.hpp` -/

namespace Manacher
open Cxx
variable {α : Type}

theorem even_odd (n : Nat) : ∃ p, n = 2 * p ∨ n = 2 * p + 1 := ⟨n / 2, by omega⟩

/-- The `j` symmetric pairs around `i` (including the centre) agree. -/
def Match (v : Array α) (i j : Nat) : Prop := j ≤ i + 1 ∧ i + j ≤ v.size ∧ ∀ q < j, v[i - q]? = v[i + q]?

/-- `j` is the number of agreeing pairs. -/
def IsRad (v : Array α) (i j : Nat) : Prop := Match v i j ∧ ¬ Match v i (j + 1)

theorem Match.le {v : Array α} {i j k : Nat} (h : Match v i j) (hk : k ≤ j) : Match v i k :=
  ⟨by have := h.1; omega, by have := h.2.1; omega, fun q hq => h.2.2 q (by omega)⟩

theorem IsRad.max {v : Array α} {i j k : Nat} (h : IsRad v i j) (hk : Match v i k) : k ≤ j := by
  by_contra hlt
  exact h.2 (hk.le (by omega))

theorem match_one {v : Array α} {i : Nat} (h : i < v.size) : Match v i 1 :=
  ⟨by omega, by omega, fun q hq => by have : q = 0 := by omega
                                      subst this; rfl⟩

theorem IsRad.pos {v : Array α} {i j : Nat} (h : IsRad v i j) (hi : i < v.size) : 1 ≤ j := h.max (match_one hi)

/-- Reading the mirror image of a position inside the radius. -/
theorem Match.mirror {v : Array α} {i j x : Nat} (h : Match v i j) (h1 : i < x + j) (h2 : x < i + j) : v[x]? = v[2 * i - x]? := by
  have := h.1
  rcases Nat.le_total x i with hx | hx
  · have e := h.2.2 (i - x) (by omega)
    rw [show i - (i - x) = x by omega, show i + (i - x) = 2 * i - x by omega] at e
    exact e
  · have e := h.2.2 (x - i) (by omega)
    rw [show i - (x - i) = 2 * i - x by omega, show i + (x - i) = x by omega] at e
    exact e.symm

theorem rad_mirror {v : Array α} {i j k x : Nat} (hj : IsRad v i j) (hk : k ≤ i) (hx : IsRad v (i - k) x) (hlt : k + x < j) : IsRad v (i + k) x := by
  have b1 := hj.1.1
  have b2 := hj.1.2.1
  have key : ∀ y, k + y ≤ j → (Match v (i + k) y ↔ Match v (i - k) y) := by
    intro y hy
    constructor
    · rintro ⟨-, -, h⟩
      refine ⟨by omega, by omega, fun q hq => ?_⟩
      have e := h q hq
      rw [hj.1.mirror (x := i - k - q) (by omega) (by omega), hj.1.mirror (x := i - k + q) (by omega) (by omega)]
      rw [show 2 * i - (i - k - q) = i + k + q by omega, show 2 * i - (i - k + q) = i + k - q by omega]
      exact e.symm
    · rintro ⟨-, -, h⟩
      refine ⟨by omega, by omega, fun q hq => ?_⟩
      have e := h q hq
      rw [hj.1.mirror (x := i + k - q) (by omega) (by omega), hj.1.mirror (x := i + k + q) (by omega) (by omega)]
      rw [show 2 * i - (i + k - q) = i - k + q by omega, show 2 * i - (i + k + q) = i - k - q by omega]
      exact e.symm
  exact ⟨(key x (by omega)).2 hx.1, fun h => hx.2 ((key (x + 1) (by omega)).1 h)⟩

theorem next_match {v : Array α} {i j k x : Nat} (hj : IsRad v i j) (hk : k ≤ i) (hkj : k ≤ j) (hx : IsRad v (i - k) x) (hge : j ≤ k + x) :
    Match v (i + k) (j - k) := by
  have b1 := hj.1.1
  have b2 := hj.1.2.1
  refine ⟨by omega, by omega, fun q hq => ?_⟩
  have e := hx.1.2.2 q (by omega)
  rw [hj.1.mirror (x := i + k - q) (by omega) (by omega), hj.1.mirror (x := i + k + q) (by omega) (by omega)]
  rw [show 2 * i - (i + k - q) = i - k + q by omega, show 2 * i - (i + k + q) = i - k - q by omega]
  exact e.symm

variable [DecidableEq α]

theorem extend_tot (v : Array α) (i j0 : Nat) (h0 : Match v i j0) : Tot (loop (extendStep v i) v.size j0) (IsRad v i) := by
  refine Tot.loop (P := Match v i) (fun j => v.size - j) ?_ h0 (by omega)
  intro j hj
  rw [extendStep]
  by_cases hc : j ≤ i ∧ i + j < v.size
  · rw [if_pos hc, rd_eq (by omega), ok_bind, rd_eq (by omega), ok_bind]
    by_cases he : v[i - j] = v[i + j]
    · rw [if_pos he]
      refine Tot.pure ⟨⟨by omega, by omega, fun q hq => ?_⟩, by omega⟩
      rcases Nat.lt_or_ge q j with h | h
      · exact hj.2.2 q h
      · have : q = j := by omega
        subst this
        rw [Array.getElem?_eq_getElem (by omega), Array.getElem?_eq_getElem (by omega), he]
    · rw [if_neg he]
      refine Tot.pure ⟨hj, fun h => he ?_⟩
      have e := h.2.2 j (by omega)
      rw [Array.getElem?_eq_getElem (by omega), Array.getElem?_eq_getElem (by omega)] at e
      exact Option.some.inj e
  · rw [if_neg hc]
    refine Tot.pure ⟨hj, fun h => hc ⟨by have := h.1; omega, by have := h.2.1; omega⟩⟩

/-- Radii known below `b`. -/
def Known (v : Array α) (r : Array Int) (b : Nat) : Prop := r.size = v.size ∧ ∀ i < b, ∃ x : Nat, r[i]? = some (x : Int) ∧ IsRad v i x

theorem copy_tot (v : Array α) (i j : Nat) (hi : i < v.size) (hj : IsRad v i j) (r : Array Int) (hr : Known v r (i + 1)) :
    Tot (loop (copyStep i j) v.size (1, r)) fun q => Known v q.2 (i + q.1) ∧ 1 ≤ q.1 ∧ q.1 ≤ j ∧ Match v (i + q.1) (j - q.1) := by
  have b0 := hj.pos hi
  have b1 := hj.1.1
  have b2 := hj.1.2.1
  refine Tot.loop (P := fun q => Known v q.2 (i + q.1) ∧ 1 ≤ q.1 ∧ q.1 ≤ j) (fun q => j - q.1) ?_ ⟨hr, le_refl _, b0⟩ (by om)
  rintro ⟨k, r⟩ ⟨⟨h1, h2⟩, h3, h4⟩
  dsimp only at h1 h2 h3 h4
  rw [copyStep]
  dsimp only
  by_cases hk : k ≤ i
  · rw [if_pos hk]
    obtain ⟨x, hx1, hx2⟩ := h2 (i - k) (by omega)
    rw [rd_some hx1, ok_bind]
    have hxp := hx2.pos (by omega)
    by_cases hlt : (k : Int) + x < j
    · rw [if_pos hlt, wr_eq (by omega), ok_bind]
      refine Tot.pure ⟨⟨⟨by simp [h1], fun i' hi' => ?_⟩, by om, by om⟩, by om⟩
      dsimp only at hi' ⊢
      rw [Array.getElem?_setIfInBounds]
      by_cases he : i + k = i'
      · subst he
        rw [if_pos rfl, if_pos (by omega)]
        exact ⟨x, rfl, rad_mirror hj hk hx2 (by omega)⟩
      · rw [if_neg he]
        exact h2 i' (by omega)
    · rw [if_neg hlt]
      exact Tot.pure ⟨⟨h1, h2⟩, h3, h4, next_match hj hk h4 hx2 (by omega)⟩
  · rw [if_neg hk]
    refine Tot.pure ⟨⟨h1, h2⟩, h3, h4, ?_⟩
    exact ⟨by omega, by omega, fun q hq => by omega⟩

theorem build_tot (v : Array α) (r : Array Int) (hr : r.size = v.size) :
    Tot (loop (buildStep v) v.size (0, 0, r)) fun t => Known v t.2.2 v.size := by
  refine Tot.loop (P := fun (s : Nat × Nat × Array Int) => Known v s.2.2 s.1 ∧ Match v s.1 s.2.1) (fun s => v.size - s.1) ?_
    ⟨⟨hr, fun i hi => by omega⟩, ⟨by om, by om, fun q (hq : q < 0) => by omega⟩⟩ (by om)
  rintro ⟨i, j0, r⟩ ⟨hk, hm⟩
  dsimp only at hk hm
  rw [buildStep]
  dsimp only
  by_cases hi : i < v.size
  · rw [if_pos hi]
    refine Tot.bind (extend_tot v i j0 hm) fun j hj => ?_
    rw [wr_eq (by rw [hk.1]; exact hi), ok_bind]
    have hr' : Known v (r.setIfInBounds i (j : Int)) (i + 1) := by
      refine ⟨by simp [hk.1], fun i' hi' => ?_⟩
      rw [Array.getElem?_setIfInBounds]
      by_cases he : i = i'
      · subst he
        rw [if_pos rfl, if_pos (by rw [hk.1]; exact hi)]
        exact ⟨j, rfl, hj⟩
      · rw [if_neg he]
        exact hk.2 i' (by omega)
    refine Tot.bind (copy_tot v i j hi hj _ hr') fun q ⟨h1, h2, h3, h4⟩ => ?_
    rw [if_pos h3]
    exact Tot.pure ⟨⟨h1, h4⟩, by om⟩
  · rw [if_neg hi]
    exact Tot.pure ⟨hk.1, fun i' hi' => hk.2 i' (by omega)⟩

omit [DecidableEq α] in
theorem interleave_spec (s : Array α) (d : α) : (interleave s d).size = 2 * s.size + 1 ∧
    (∀ i ≤ s.size, (interleave s d)[2 * i]? = some d) ∧ ∀ i, i < s.size → (interleave s d)[2 * i + 1]? = s[i]? := by
  rw [interleave, ← Array.foldl_toList]
  suffices H : ∀ (pre post : List α) (v : Array α), v.size = 2 * pre.length + 1 → (∀ i ≤ pre.length, v[2 * i]? = some d) →
      (∀ i, i < pre.length → v[2 * i + 1]? = pre[i]?) →
      (post.foldl (fun v x => (v.push x).push d) v).size = 2 * (pre ++ post).length + 1 ∧
      (∀ i ≤ (pre ++ post).length, (post.foldl (fun v x => (v.push x).push d) v)[2 * i]? = some d) ∧
      ∀ i, i < (pre ++ post).length → (post.foldl (fun v x => (v.push x).push d) v)[2 * i + 1]? = (pre ++ post)[i]? by
    have := H [] s.toList #[d] (by simp) (by simp) (by simp)
    simpa using this
  intro pre post
  induction post generalizing pre with
  | nil => intro v h1 h2 h3; simpa using ⟨h1, h2, h3⟩
  | cons x post ih =>
    intro v h1 h2 h3
    rw [List.foldl_cons, show pre ++ x :: post = (pre ++ [x]) ++ post by simp]
    apply ih
    · simp [h1]; omega
    · intro i hi
      simp only [List.length_append, List.length_singleton] at hi
      rw [Array.getElem?_push, Array.getElem?_push, Array.size_push, h1]
      split
      · rfl
      · rw [if_neg (by omega)]
        exact h2 i (by omega)
    · intro i hi
      simp only [List.length_append, List.length_singleton] at hi
      rw [Array.getElem?_push, Array.getElem?_push, Array.size_push, h1, if_neg (by omega)]
      split
      · have : i = pre.length := by omega
        subst this
        simp
      · rw [h3 i (by omega), List.getElem?_append_left (by omega)]

/-- `s[l, l + L)` reads the same backwards. -/
def Pal (s : Array α) (l L : Nat) : Prop := ∀ a < L, s[l + a]? = s[l + L - 1 - a]?

omit [DecidableEq α] in
theorem pal_match (s : Array α) (d : α) {l L : Nat} (hL : l + L ≤ s.size) (h : Pal s l L) : Match (interleave s d) (2 * l + L) (L + 1) := by
  obtain ⟨h1, h2, h3⟩ := interleave_spec s d
  refine ⟨by omega, by omega, fun q hq => ?_⟩
  rcases even_odd (2 * l + L - q) with ⟨p, hp | hp⟩
  · rw [hp, show 2 * l + L + q = 2 * (2 * l + L - p) by omega, h2 p (by omega), h2 _ (by omega)]
  · have hqL : q < L := by omega
    rw [hp, show 2 * l + L + q = 2 * (2 * l + L - p - 1) + 1 by omega, h3 p (by omega), h3 _ (by omega)]
    have e := h (p - l) (by omega)
    rw [show l + (p - l) = p by omega, show l + L - 1 - (p - l) = 2 * l + L - p - 1 by omega] at e
    exact e

omit [DecidableEq α] in
theorem match_pal (s : Array α) (d : α) {l L : Nat} (hL : l + L ≤ s.size) (h : Match (interleave s d) (2 * l + L) L) : Pal s l L := by
  obtain ⟨h1, h2, h3⟩ := interleave_spec s d
  intro a ha
  have e := h.mirror (x := 2 * (l + a) + 1) (by omega) (by omega)
  rw [show 2 * (2 * l + L) - (2 * (l + a) + 1) = 2 * (l + L - 1 - a) + 1 by omega, h3 _ (by omega), h3 _ (by omega)] at e
  exact e

omit [DecidableEq α] in
theorem rad_greatest (s : Array α) (d : α) {k j : Nat} (hk : k ≤ 2 * s.size) (h : IsRad (interleave s d) k j) :
    1 ≤ j ∧ IsGreatest {L | ∃ l, 2 * l + L = k ∧ l + L ≤ s.size ∧ Pal s l L} (j - 1) := by
  obtain ⟨h1, h2, h3⟩ := interleave_spec s d
  have hpos := h.pos (by omega)
  have b1 := h.1.1
  have b2 := h.1.2.1
  refine ⟨hpos, ?_, ?_⟩
  · rcases even_odd (k + j) with ⟨p, hp | hp⟩
    · exfalso
      have hm := h.1
      have e : k = 2 * (p - j) + j := by omega
      rw [e] at hm
      have := pal_match s d (by omega) (match_pal s d (by omega) hm)
      rw [← e] at this
      exact h.2 this
    · have e : k = 2 * (p - (j - 1)) + (j - 1) := by omega
      have hm := h.1.le (k := j - 1) (by omega)
      rw [e] at hm
      exact ⟨p - (j - 1), e.symm, by omega, match_pal s d (by omega) hm⟩
  · rintro L ⟨l, rfl, hl, hp⟩
    have := h.max (pal_match s d hl hp)
    omega

theorem make_tot (s : Array α) (d : α) : Tot (make s d) fun r => r.size = 2 * s.size + 1 ∧
    ∀ k ≤ 2 * s.size, ∃ L : Nat, r[k]? = some (L : Int) ∧ IsGreatest {L | ∃ l, 2 * l + L = k ∧ l + L ≤ s.size ∧ Pal s l L} L := by
  have hsz := (interleave_spec s d).1
  rw [make]
  refine Tot.bind (build_tot (interleave s d) _ (by rw [hsz]; simp)) ?_
  rintro ⟨i, j, r⟩ ⟨h1, h2⟩
  dsimp only at h1 h2 ⊢
  refine (Tot.forUp (P := fun b (r : Array Int) => r.size = 2 * s.size + 1 ∧ ∀ k ≤ 2 * s.size, ∃ x : Nat, IsRad (interleave s d) k x ∧
    r[k]? = some (if k < b then (x : Int) - 1 else x)) (Nat.zero_le _) ⟨by omega, fun k hk => ?_⟩ ?_).mono ?_
  · obtain ⟨x, hx1, hx2⟩ := h2 k (by omega)
    exact ⟨x, hx2, by simpa using hx1⟩
  · rintro b r' - hb ⟨g1, g2⟩
    obtain ⟨x, hx1, hx2⟩ := g2 b (by omega)
    rw [if_neg (by omega)] at hx2
    rw [decStep, rd_some hx2, ok_bind, wr_eq (by omega)]
    refine Tot.pure ⟨by simp [g1], fun k hk => ?_⟩
    obtain ⟨y, hy1, hy2⟩ := g2 k hk
    rw [Array.getElem?_setIfInBounds]
    by_cases he : b = k
    · subst he
      exact ⟨x, hx1, by rw [if_pos rfl, if_pos (by omega), if_pos (by omega)]⟩
    · refine ⟨y, hy1, ?_⟩
      rw [if_neg he, hy2]
      by_cases hlt : k < b
      · rw [if_pos hlt, if_pos (by omega)]
      · rw [if_neg hlt, if_neg (by omega)]
  · rintro r' ⟨g1, g2⟩
    refine ⟨g1, fun k hk => ?_⟩
    obtain ⟨x, hx1, hx2⟩ := g2 k hk
    obtain ⟨f1, f2⟩ := rad_greatest s d hk hx1
    refine ⟨x - 1, ?_, f2⟩
    rw [hx2, if_pos (by omega)]
    congr 1
    omega

end Manacher
