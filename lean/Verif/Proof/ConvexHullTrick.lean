import Mathlib.Algebra.Order.Ring.Abs
import Verif.Spec.ConvexHullTrick
import Mathlib.Tactic.Ring
import Mathlib.Tactic.Linarith

/-! # Proofs about the convex hull trick -/

namespace ConvexHullTrick
open Cxx

/-- The value of a line. -/
def f (l : Line) (x : Int) : Int := l.a * x + l.b

/-- The arguments for which the data structure is correct. -/
def D (x : Int) : Prop := -inf < x ∧ x ≤ inf

/-- The bounds on a line. -/
structure Bd (l : Line) : Prop where
  a : -2 ^ 62 < l.a ∧ l.a < 2 ^ 62
  b : -2 ^ 62 < l.b ∧ l.b < 2 ^ 62
  m : -inf ≤ l.m ∧ l.m ≤ inf

/-- `r` follows `l`: `r` is at most `l` exactly up to `r.m`. -/
structure Adj (l r : Line) : Prop where
  le : l.a ≤ r.a
  iff : ∀ x, D x → (x ≤ r.m ↔ f r x ≤ f l x)

theorem neg_ediv {n e : Int} (he : 0 < e) : (-n) / e = -(n / e) - if n % e ≠ 0 then 1 else 0 := by
  have h := Int.emod_add_mul_ediv n e
  have h0 := Int.emod_nonneg n (by omega : e ≠ 0)
  have h1 := Int.emod_lt_of_pos n he
  obtain ⟨c, hc⟩ : ∃ c, c = n / e := ⟨_, rfl⟩
  rw [← hc] at h ⊢
  rw [Int.ediv_eq_iff_of_pos he]
  split_ifs with hs
  · have e1 : (-c - 1) * e = -(e * c) - e := by ring
    rw [e1]
    constructor <;> omega
  · have e1 : (-c - 0) * e = -(e * c) := by ring
    rw [e1]
    constructor <;> omega

theorem div_floor {num den : Int} (hn : -2 ^ 63 < num ∧ num < 2 ^ 63) (hd : den < 0) :
    ∃ q, div num den = .ok q ∧ (-|num| ≤ q ∧ q ≤ |num|) ∧ ∀ x, x ≤ q ↔ num ≤ den * x := by
  obtain ⟨e, rfl⟩ : ∃ e, den = -e := ⟨-den, by omega⟩
  have he : 0 < e := by omega
  have hq : (-num) / e = (-num) / e := rfl
  have hb : -|num| ≤ (-num) / e ∧ (-num) / e ≤ |num| := by
    have h1 : |num| ≤ |num| * e := le_mul_of_one_le_right (abs_nonneg _) (by omega)
    constructor
    · rw [Int.le_ediv_iff_mul_le he]
      have := le_abs_self num
      have e1 : -|num| * e = -(|num| * e) := by ring
      omega
    · have h2 : (-num) / e ≤ (|num| * e) / e := Int.ediv_le_ediv he (by have := neg_le_abs num; omega)
      rwa [Int.mul_ediv_cancel _ (by omega)] at h2
  have ha : |num| < 2 ^ 63 := by
    rw [abs_lt]; omega
  refine ⟨(-num) / e, ?_, hb, ?_⟩
  · unfold div
    rw [if_neg (by omega), Int.tdiv_neg, Int.tmod_neg]
    by_cases h0 : 0 ≤ num
    · have e1 := neg_ediv (n := num) he
      rw [Int.tdiv_eq_ediv_of_nonneg h0, Int.tmod_eq_emod_of_nonneg h0]
      have h1 : 0 ≤ num / e := Int.ediv_nonneg h0 (by omega)
      have h2 : -|num| ≤ -(num / e) := by split_ifs at e1 <;> omega
      rw [i64_ok ⟨by omega, by omega⟩, ok_bind]
      have h3 : (decide (num < 0) ^^ decide (-e < 0)) = true := by
        rw [decide_eq_false (by omega), decide_eq_true (by omega)]; rfl
      rw [h3, Bool.true_and]
      have h4 : (-(num / e) - if decide (num % e ≠ 0) = true then 1 else 0) = (-num) / e := by
        rw [e1]; simp only [decide_eq_true_eq]
      rw [h4, i64_ok ⟨by omega, by omega⟩]
    · obtain ⟨k, rfl⟩ : ∃ k, num = -k := ⟨-num, by omega⟩
      have hk : 0 ≤ k := by omega
      rw [Int.neg_tdiv, Int.tdiv_eq_ediv_of_nonneg hk, neg_neg, neg_neg] at *
      rw [i64_ok ⟨by omega, by omega⟩, ok_bind]
      have h3 : (decide (-k < 0) ^^ decide (-e < 0)) = false := by
        rw [decide_eq_true (by omega), decide_eq_true (by omega)]; rfl
      rw [h3, Bool.false_and, if_neg (by simp), Int.sub_zero, i64_ok ⟨by omega, by omega⟩]
  · intro x
    rw [Int.le_ediv_iff_mul_le he]
    have : -e * x = -(x * e) := by ring
    rw [this]
    omega

theorem update_tot {l r : Line} (hl : Bd l) (hr : Bd r) (hle : l.a ≤ r.a) :
    ∃ m, update l r = .ok ({ r with m := m }, decide (l.m > m)) ∧ Adj l { r with m := m } ∧ Bd { r with m := m } ∧ (l.a < r.a → m < inf) := by
  obtain ⟨ha, hb, hm⟩ := hl
  obtain ⟨ha', hb', hm'⟩ := hr
  unfold update inter
  by_cases he : l.a = r.a
  · rw [if_pos he]
    refine ⟨if r.b ≤ l.b then inf else -inf, rfl, ⟨hle, fun x hx => ?_⟩, ⟨ha', hb', ?_⟩, fun h => by omega⟩
    · obtain ⟨h1, h2⟩ := hx
      unfold f
      dsimp only
      rw [he]
      split_ifs with hc
      · omega
      · omega
    · dsimp only
      unfold inf
      split_ifs <;> omega
  · rw [if_neg he]
    obtain ⟨q, hq, hb, hiff⟩ := div_floor (num := r.b - l.b) (den := l.a - r.a) ⟨by omega, by omega⟩ (by omega)
    rw [i64_ok ⟨by omega, by omega⟩, ok_bind, i64_ok ⟨by omega, by omega⟩, ok_bind, hq, ok_bind]
    have hab : |r.b - l.b| ≤ 2 ^ 63 - 2 := by rw [abs_le]; omega
    refine ⟨q, rfl, ⟨hle, fun x hx => ?_⟩, ⟨ha', hb', ?_⟩, fun h => ?_⟩
    · dsimp only
      rw [hiff]
      unfold f
      dsimp only
      have : (l.a - r.a) * x = l.a * x - r.a * x := by ring
      rw [this]
      omega
    · dsimp only; unfold inf; omega
    · unfold inf; omega

/-! ### Chains -/

/-- The lines after `p`. -/
def Ch : Line → List Line → Prop
  | _, [] => True
  | p, r :: rs => Adj p r ∧ r.m < p.m ∧ Ch r rs

/-- The lines before `r`, nearest first. -/
def RCh : List Line → Line → Prop
  | [], r => r.m = inf
  | l :: ls, r => Adj l r ∧ r.m < l.m ∧ RCh ls l

/-- The whole state. -/
def Ok : List Line → Prop
  | [] => True
  | h :: t => h.m = inf ∧ Ch h t

theorem zip {ls : List Line} {it : Line} {rs : List Line} : Ok (ls.reverse ++ it :: rs) ↔ RCh ls it ∧ Ch it rs := by
  induction ls generalizing it rs with
  | nil => rfl
  | cons l ls ih =>
    rw [List.reverse_cons, List.append_assoc, List.singleton_append, ih]
    show _ ∧ (_ ∧ _ ∧ _) ↔ (_ ∧ _ ∧ _) ∧ _
    tauto

theorem rch_of_ok {ls : List Line} {it : Line} (h : Ok (ls.reverse ++ [it])) : RCh ls it := (zip.mp h).1

theorem rch_m {ls : List Line} {r l : Line} (h : RCh ls r) (hl : l ∈ ls) : r.m < l.m := by
  induction ls generalizing r with
  | nil => simp at hl
  | cons a ls ih =>
    obtain ⟨-, h2, h3⟩ := h
    rcases List.mem_cons.mp hl with rfl | hl
    · exact h2
    · have := ih h3 hl; omega

theorem rch_a {ls : List Line} {r l : Line} (h : RCh ls r) (hl : l ∈ ls) : l.a ≤ r.a := by
  induction ls generalizing r with
  | nil => simp at hl
  | cons a ls ih =>
    obtain ⟨h1, h2, h3⟩ := h
    have := h1.le
    rcases List.mem_cons.mp hl with rfl | hl
    · exact h1.le
    · have := ih h3 hl; omega

theorem rch_le {ls : List Line} {r l : Line} (h : RCh ls r) (hl : l ∈ ls) {x : Int} (hx : D x) (hxr : x ≤ r.m) : f r x ≤ f l x := by
  induction ls generalizing r with
  | nil => simp at hl
  | cons a ls ih =>
    obtain ⟨h1, h2, h3⟩ := h
    have := (h1.iff x hx).mp hxr
    rcases List.mem_cons.mp hl with rfl | hl
    · exact this
    · exact le_trans this (ih h3 hl (by omega))

theorem rch_gt {ls : List Line} {r l : Line} (h : RCh ls r) (hl : l ∈ ls) (hx : D l.m) : f l l.m < f r l.m := by
  induction ls generalizing r with
  | nil => simp at hl
  | cons a ls ih =>
    obtain ⟨h1, h2, h3⟩ := h
    rcases List.mem_cons.mp hl with rfl | hl
    · by_contra hc
      have := (h1.iff _ hx).mpr (by omega)
      omega
    · have h4 := ih h3 hl
      have h5 := rch_m h3 hl
      have h6 : ¬ l.m ≤ r.m := by omega
      rw [h1.iff _ hx] at h6
      omega

theorem ch_gt {p r : Line} {rs : List Line} (h : Ch p (r :: rs)) {x : Int} (hx : D x) (hxr : r.m < x) : ∀ s ∈ r :: rs, f p x < f s x := by
  induction rs generalizing p r with
  | nil =>
    intro s hs
    rw [List.mem_singleton] at hs
    subst hs
    have : ¬ x ≤ s.m := by omega
    rw [h.1.iff x hx] at this
    omega
  | cons q rs ih =>
    have h0 : f p x < f r x := by
      have : ¬ x ≤ r.m := by omega
      rw [h.1.iff x hx] at this
      omega
    intro s hs
    rcases List.mem_cons.mp hs with rfl | hs
    · exact h0
    · have h1 := h.2.2
      have h2 := h1.2.1
      exact lt_trans h0 (ih h1 (by omega) s hs)

theorem ch_m {p : Line} {rs : List Line} (h : Ch p rs) : ∀ s ∈ rs, s.m < p.m := by
  induction rs generalizing p with
  | nil => simp
  | cons q rs ih =>
    intro s hs
    have h1 := h.2.1
    rcases List.mem_cons.mp hs with rfl | hs
    · exact h1
    · have := ih h.2.2 s hs; omega

theorem ch_a {p : Line} {rs : List Line} (h : Ch p rs) : ∀ s ∈ rs, p.a ≤ s.a := by
  induction rs generalizing p with
  | nil => simp
  | cons q rs ih =>
    intro s hs
    have h1 := h.1.le
    rcases List.mem_cons.mp hs with rfl | hs
    · exact h1
    · have := ih h.2.2 s hs; omega

/-! ### `add_line` -/

/-- Two lines with the same slope and intercept. -/
def Same (l r : Line) : Prop := l.a = r.a ∧ l.b = r.b

theorem Same.f {l r : Line} (h : Same l r) (x : Int) : f l x = f r x := by
  unfold ConvexHullTrick.f; rw [h.1, h.2]

/-- Before the left loop: the lines before the new one. -/
def LPre (m : Int) : List Line → Prop
  | [] => m = inf
  | l :: ls => RCh ls l

/-- Before the right loop: the lines after `cur`. -/
def RPre (cur : Line) : List Line → Prop
  | [] => True
  | r :: rs => Adj cur r ∧ Ch r rs

theorem leftLoop_tot : ∀ {ls : List Line} {it : Line}, (∀ l ∈ ls, Bd l) → Bd it → (∀ l ∈ ls, l.a ≤ it.a) →
    LPre it.m ls →
    Tot (leftLoop ls it) fun p => Same p.2 it ∧ Bd p.2 ∧ RCh p.1 p.2 ∧ (∃ del, ls = del ++ p.1) ∧
      ∀ x, D x → ∀ l ∈ ls, ∃ s ∈ p.2 :: p.1, f s x ≤ f l x
  | [], it, _, hb, _, hm => ⟨_, rfl, ⟨rfl, rfl⟩, hb, hm, ⟨[], rfl⟩, fun x _ l hl => by simp at hl⟩
  | l :: ls, it, hbs, hb, ha, hm => by
    obtain ⟨m, e, hadj, hbd, -⟩ := update_tot (hbs l List.mem_cons_self) hb (ha l List.mem_cons_self)
    unfold leftLoop
    rw [e, ok_bind]
    dsimp only at hm ⊢
    by_cases hc : l.m > m
    · rw [decide_eq_true hc, if_pos rfl]
      exact Tot.pure ⟨⟨rfl, rfl⟩, hbd, ⟨hadj, hc, hm⟩, ⟨[], rfl⟩, fun x _ s hs => ⟨s, List.mem_cons_of_mem _ hs, le_refl _⟩⟩
    · rw [decide_eq_false hc, if_neg (by simp)]
      have hinv : LPre m ls := by
        cases ls with
        | nil =>
          have h1 : l.m = inf := hm
          have h2 := hbd.m
          dsimp only at h2
          show m = inf
          omega
        | cons l' ls' => exact hm.2.2
      refine (leftLoop_tot (fun s hs => hbs s (List.mem_cons_of_mem _ hs)) hbd (fun s hs => ha s (List.mem_cons_of_mem _ hs)) hinv).mono ?_
      rintro p ⟨hs, hbp, hr, ⟨del, hdel⟩, hcov⟩
      refine ⟨hs, hbp, hr, ⟨l :: del, by rw [hdel]; rfl⟩, fun x hx s hmem => ?_⟩
      rcases List.mem_cons.mp hmem with rfl | hmem
      · by_cases hxm : x ≤ m
        · refine ⟨p.2, List.mem_cons_self, ?_⟩
          have := (hadj.iff x hx).mp hxm
          rw [hs.f]
          exact this
        · cases ls with
          | nil =>
            have h1 : s.m = inf := hm
            have := hx.2
            omega
          | cons l' ls' =>
            obtain ⟨h1, h2, h3⟩ := hm
            obtain ⟨u, hu, hle⟩ := hcov x hx l' List.mem_cons_self
            refine ⟨u, hu, le_trans hle ?_⟩
            have : ¬ x ≤ s.m := by omega
            rw [h1.iff x hx] at this
            omega
      · exact hcov x hx s hmem

theorem rightLoop_tot : ∀ {rs : List Line} {it cur : Line}, Bd it → Bd cur → (∀ s ∈ rs, Bd s) → Adj it cur → cur.m < it.m → D it.m →
    it.a < cur.a → (∀ s ∈ rs, s.m < it.m) → (∀ s ∈ rs, it.a < s.a) →
    RPre cur rs →
    Tot (rightLoop it cur rs) fun out => Ch it out ∧ (∀ s ∈ out, Bd s ∧ ∃ t ∈ cur :: rs, Same s t) ∧
      ∀ x, D x → ∀ l ∈ cur :: rs, ∃ s ∈ it :: out, f s x ≤ f l x
  | [], it, cur, _, hbc, _, hadj, hm, _, _, _, _, _ => by
    refine ⟨_, rfl, ⟨hadj, hm, trivial⟩, ?_, ?_⟩
    · intro s hs
      rw [List.mem_singleton] at hs
      subst hs
      exact ⟨hbc, s, List.mem_singleton_self _, rfl, rfl⟩
    · intro x _ l hl
      exact ⟨l, List.mem_cons_of_mem _ hl, le_refl _⟩
  | r :: rs, it, cur, hbi, hbc, hbs, hadj, hm, hD, hca, hms, has, hch => by
    obtain ⟨hcr, hch'⟩ := hch
    unfold rightLoop
    by_cases hc : cur.m ≤ r.m
    · rw [if_pos hc]
      have hra := has r List.mem_cons_self
      have hbr := hbs r List.mem_cons_self
      obtain ⟨m, e, hadj2, hbd, -⟩ := update_tot hbi hbr (by omega)
      rw [e, ok_bind]
      have hlt : m < it.m := by
        have h1 : ¬ it.m ≤ r.m := by have := hms r List.mem_cons_self; omega
        rw [hcr.iff _ hD] at h1
        have h2 : ¬ it.m ≤ cur.m := by omega
        rw [hadj.iff _ hD] at h2
        by_contra hcon
        have h3 := (hadj2.iff _ hD).mp (by dsimp only; omega)
        have h4 : f { r with m := m } it.m = f r it.m := rfl
        omega
      have hinv : RPre { r with m := m } rs := by
        cases rs with
        | nil => trivial
        | cons r' rs' => exact ⟨⟨hch'.1.le, hch'.1.iff⟩, hch'.2.2⟩
      refine (rightLoop_tot hbi hbd (fun s hs => hbs s (List.mem_cons_of_mem _ hs)) hadj2 hlt hD hra
        (fun s hs => hms s (List.mem_cons_of_mem _ hs)) (fun s hs => has s (List.mem_cons_of_mem _ hs)) hinv).mono ?_
      rintro out ⟨h1, h2, h3⟩
      refine ⟨h1, fun s hs => ?_, fun x hx l hl => ?_⟩
      · obtain ⟨h4, t, ht, h5⟩ := h2 s hs
        refine ⟨h4, ?_⟩
        rcases List.mem_cons.mp ht with rfl | ht
        · exact ⟨r, by simp, h5⟩
        · exact ⟨t, List.mem_cons_of_mem _ (List.mem_cons_of_mem _ ht), h5⟩
      · have hr : ∃ s ∈ it :: out, f s x ≤ f r x := h3 x hx { r with m := m } List.mem_cons_self
        rcases List.mem_cons.mp hl with rfl | hl
        · by_cases hxr : x ≤ r.m
          · obtain ⟨s, hs, hle⟩ := hr
            exact ⟨s, hs, le_trans hle ((hcr.iff x hx).mp hxr)⟩
          · refine ⟨it, List.mem_cons_self, ?_⟩
            have : ¬ x ≤ l.m := by omega
            rw [hadj.iff x hx] at this
            omega
        · rcases List.mem_cons.mp hl with rfl | hl
          · exact hr
          · exact h3 x hx l (List.mem_cons_of_mem _ hl)
    · rw [if_neg hc]
      refine Tot.pure ⟨⟨hadj, hm, hcr, by omega, hch'⟩, ?_, ?_⟩
      · intro s hs
        refine ⟨?_, s, hs, rfl, rfl⟩
        rcases List.mem_cons.mp hs with rfl | hs
        · exact hbc
        · exact hbs s hs
      · intro x _ l hl
        exact ⟨l, List.mem_cons_of_mem _ hl, le_refl _⟩

/-- What `add_line` achieves. -/
def Added (s : List Line) (a b : Int) (s' : List Line) : Prop :=
  Ok s' ∧ (∀ l ∈ s', Bd l ∧ ((l.a = a ∧ l.b = b) ∨ ∃ t ∈ s, Same l t)) ∧
  ∀ x, D x → (∃ l ∈ s', f l x ≤ a * x + b) ∧ ∀ t ∈ s, ∃ l ∈ s', f l x ≤ f t x

theorem split_pre (s : List Line) (a : Int) : ∀ l ∈ s.takeWhile (fun l => decide (l.a ≤ a)), l.a ≤ a := by
  intro l hl
  have := List.all_takeWhile (l := s) (p := fun l : Line => decide (l.a ≤ a))
  rw [List.all_eq_true] at this
  simpa using this l hl

theorem split_post {s : List Line} {a : Int} {r : Line} {rs : List Line} (h : s.dropWhile (fun l => decide (l.a ≤ a)) = r :: rs) : a < r.a := by
  have := List.head_dropWhile_not (l := s) (fun l : Line => decide (l.a ≤ a)) (by rw [h]; simp)
  simp only [h, List.head_cons] at this
  simpa using this

theorem rch_of_pre {ls : List Line} {post : List Line} (h : Ok (ls.reverse ++ post)) :
    (match ls with | [] => True | l :: ls => RCh ls l) := by
  cases ls with
  | nil => trivial
  | cons l ls =>
    rw [List.reverse_cons, List.append_assoc, List.singleton_append] at h
    exact (zip.mp h).1

theorem addMin_tot {s : List Line} {a b : Int} (hok : Ok s) (hbd : ∀ l ∈ s, Bd l) (ha : -2 ^ 62 < a ∧ a < 2 ^ 62) (hb : -2 ^ 62 < b ∧ b < 2 ^ 62) :
    Tot (addMin s a b) (Added s a b) := by
  obtain ⟨ls, hls⟩ : ∃ ls, ls = (s.takeWhile fun l => decide (l.a ≤ a)).reverse := ⟨_, rfl⟩
  obtain ⟨post, hpost⟩ : ∃ post, post = s.dropWhile fun l => decide (l.a ≤ a) := ⟨_, rfl⟩
  have hs : s = ls.reverse ++ post := by rw [hls, hpost, List.reverse_reverse, List.takeWhile_append_dropWhile]
  have hla : ∀ l ∈ ls, l.a ≤ a := fun l hl => split_pre s a l (by rw [hls] at hl; simpa using hl)
  unfold addMin
  rw [← hls, ← hpost]
  have hbi : Bd ⟨a, b, inf⟩ := ⟨ha, hb, by dsimp only; unfold inf; omega, le_refl _⟩
  have hpre : LPre inf ls := by
    have := rch_of_pre (hs ▸ hok)
    cases ls with
    | nil => rfl
    | cons l ls => exact this
  have hmem : ∀ l ∈ ls, l ∈ s := fun l hl => by rw [hs]; simp [hl]
  refine Tot.bind (leftLoop_tot (fun l hl => hbd l (hmem l hl)) hbi hla hpre) ?_
  rintro ⟨L, it⟩ ⟨hsame, hbit, hr, ⟨del, hdel⟩, hcov⟩
  dsimp only at hsame hbit hr hdel hcov ⊢
  have hLmem : ∀ l ∈ L, l ∈ ls := fun l hl => by rw [hdel]; simp [hl]
  have hita : it.a = a := hsame.1
  have hitf : ∀ x, f it x = a * x + b := fun x => hsame.f x
  cases post with
  | nil =>
    refine Tot.pure ⟨zip.mpr ⟨hr, trivial⟩, ?_, ?_⟩
    · intro l hl
      simp only [List.mem_append, List.mem_reverse, List.mem_singleton] at hl
      rcases hl with hl | rfl
      · exact ⟨hbd l (hmem l (hLmem l hl)), .inr ⟨l, hmem l (hLmem l hl), rfl, rfl⟩⟩
      · exact ⟨hbit, .inl hsame⟩
    · intro x hx
      refine ⟨⟨it, by simp, (hitf x).le⟩, fun t ht => ?_⟩
      rw [hs] at ht
      simp only [List.append_nil, List.mem_reverse] at ht
      obtain ⟨u, hu, hle⟩ := hcov x hx t ht
      refine ⟨u, ?_, hle⟩
      rcases List.mem_cons.mp hu with rfl | hu
      · simp
      · simp [hu]
  | cons r rs =>
    have hra : a < r.a := split_post hpost.symm
    have hrs : RCh ls r ∧ Ch r rs := zip.mp (hs ▸ hok)
    have hbr : Bd r := hbd r (by rw [hs]; simp)
    have hbrs : ∀ q ∈ rs, Bd q := fun q hq => hbd q (by rw [hs]; simp [hq])
    obtain ⟨m, e, hadj, hbm, hminf⟩ := update_tot hbit hbr (by omega)
    have hminf := hminf (by omega)
    unfold place
    dsimp only
    rw [e, ok_bind]
    unfold finish
    have hinv : ∀ m' : Int, RPre { r with m := m' } rs := by
      intro m'
      cases rs with
      | nil => trivial
      | cons r' rs' => exact ⟨⟨hrs.2.1.le, hrs.2.1.iff⟩, hrs.2.2.2⟩
    have hrsm : ∀ q ∈ rs, q.m < r.m := ch_m hrs.2
    have hrsa : ∀ q ∈ rs, r.a ≤ q.a := ch_a hrs.2
    have hbrm := hbr.m
    by_cases hc : it.m > m
    · dsimp only
      rw [decide_eq_true hc, if_pos rfl]
      have hDit : D it.m := ⟨by have := hbm.m; dsimp only at this; omega, hbit.m.2⟩
      have hitm : r.m ≤ it.m := by
        by_contra hcon
        have hy : D (it.m + 1) := ⟨by have := hDit.1; omega, by omega⟩
        cases L with
        | nil =>
          have : it.m = inf := hr
          omega
        | cons p L' =>
          have h1 : ¬ it.m + 1 ≤ it.m := by omega
          rw [hr.1.iff _ hy] at h1
          have h2 := rch_le hrs.1 (hLmem p List.mem_cons_self) hy (by omega)
          have h3 : ¬ it.m + 1 ≤ ({ r with m := m } : Line).m := by dsimp only; omega
          rw [hadj.iff _ hy] at h3
          have h4 : f ({ r with m := m } : Line) (it.m + 1) = f r (it.m + 1) := rfl
          omega
      refine Tot.bind (rightLoop_tot hbit hbm hbrs hadj hc hDit (by dsimp only; omega) (fun q hq => by have := hrsm q hq; omega)
        (fun q hq => by have := hrsa q hq; omega) (hinv m)) ?_
      rintro out ⟨h1, h2, h3⟩
      refine Tot.pure ⟨zip.mpr ⟨hr, h1⟩, ?_, ?_⟩
      · intro l hl
        simp only [List.mem_append, List.mem_reverse, List.mem_cons] at hl
        rcases hl with hl | rfl | hl
        · exact ⟨hbd l (hmem l (hLmem l hl)), .inr ⟨l, hmem l (hLmem l hl), rfl, rfl⟩⟩
        · exact ⟨hbit, .inl hsame⟩
        · obtain ⟨h4, t, ht, h5⟩ := h2 l hl
          refine ⟨h4, .inr ?_⟩
          rcases List.mem_cons.mp ht with rfl | ht
          · exact ⟨r, by rw [hs]; simp, h5⟩
          · exact ⟨t, by rw [hs]; simp [ht], h5⟩
      · intro x hx
        refine ⟨⟨it, by simp, (hitf x).le⟩, fun t ht => ?_⟩
        rw [hs] at ht
        rcases List.mem_append.mp ht with ht | ht
        · obtain ⟨u, hu, hle⟩ := hcov x hx t (by simpa using ht)
          refine ⟨u, ?_, hle⟩
          rcases List.mem_cons.mp hu with rfl | hu
          · simp
          · simp [hu]
        · have : ∃ s ∈ it :: out, f s x ≤ f t x := by
            rcases List.mem_cons.mp ht with rfl | ht
            · exact h3 x hx { t with m := m } List.mem_cons_self
            · exact h3 x hx t (List.mem_cons_of_mem _ ht)
          obtain ⟨u, hu, hle⟩ := this
          exact ⟨u, by simp only [List.mem_append, List.mem_reverse]; exact .inr hu, hle⟩
    · dsimp only
      rw [decide_eq_false hc, if_neg (by simp)]
      cases L with
      | nil =>
        have : it.m = inf := hr
        omega
      | cons p L' =>
        obtain ⟨hr1, hr2, hr3⟩ := hr
        have hpls : p ∈ ls := hLmem p List.mem_cons_self
        have hbp : Bd p := hbd p (hmem p hpls)
        have hpa : p.a ≤ a := hla p hpls
        obtain ⟨m', e', hadj', hbm', -⟩ := update_tot hbp hbm (by dsimp only; omega)
        dsimp only at e' ⊢
        rw [e', ok_bind]
        have hDp : D p.m := ⟨by have := hbit.m; omega, hbp.m.2⟩
        have hlt : m' < p.m := by
          have h1 := rch_gt hrs.1 hpls hDp
          by_contra hcon
          have h2 := (hadj'.iff _ hDp).mp (by dsimp only; omega)
          have h3 : f ({ r with m := m' } : Line) p.m = f r p.m := rfl
          dsimp only at h2
          omega
        have hprm := rch_m hrs.1 hpls
        refine Tot.bind (rightLoop_tot hbp hbm' hbrs hadj' hlt hDp (by dsimp only; omega) (fun q hq => by have := hrsm q hq; omega)
          (fun q hq => by have := hrsa q hq; omega) (hinv m')) ?_
        rintro out ⟨h1, h2, h3⟩
        refine Tot.pure ⟨zip.mpr ⟨hr3, h1⟩, ?_, ?_⟩
        · intro l hl
          simp only [List.mem_append, List.mem_reverse, List.mem_cons] at hl
          rcases hl with hl | rfl | hl
          · have := hLmem l (List.mem_cons_of_mem _ hl)
            exact ⟨hbd l (hmem l this), .inr ⟨l, hmem l this, rfl, rfl⟩⟩
          · exact ⟨hbp, .inr ⟨l, hmem l hpls, rfl, rfl⟩⟩
          · obtain ⟨h4, t, ht, h5⟩ := h2 l hl
            refine ⟨h4, .inr ?_⟩
            rcases List.mem_cons.mp ht with rfl | ht
            · exact ⟨r, by rw [hs]; simp, h5⟩
            · exact ⟨t, by rw [hs]; simp [ht], h5⟩
        · intro x hx
          have hrc : ∃ l ∈ L'.reverse ++ p :: out, f l x ≤ f r x := by
            obtain ⟨u, hu, hle⟩ := h3 x hx _ List.mem_cons_self
            exact ⟨u, by simp only [List.mem_append]; exact .inr hu, hle⟩
          have hit : ∃ l ∈ L'.reverse ++ p :: out, f l x ≤ f it x := by
            by_cases hxm : x ≤ m
            · obtain ⟨u, hu, hle⟩ := hrc
              exact ⟨u, hu, le_trans hle ((hadj.iff x hx).mp hxm)⟩
            · refine ⟨p, by simp, ?_⟩
              have : ¬ x ≤ it.m := by omega
              rw [hr1.iff x hx] at this
              omega
          refine ⟨by rw [← hitf]; exact hit, fun t ht => ?_⟩
          rw [hs] at ht
          rcases List.mem_append.mp ht with ht | ht
          · obtain ⟨u, hu, hle⟩ := hcov x hx t (by simpa using ht)
            rcases List.mem_cons.mp hu with rfl | hu
            · obtain ⟨v, hv, hle'⟩ := hit
              exact ⟨v, hv, le_trans hle' hle⟩
            · refine ⟨u, ?_, hle⟩
              rcases List.mem_cons.mp hu with rfl | hu
              · simp
              · simp [hu]
          · rcases List.mem_cons.mp ht with rfl | ht
            · exact hrc
            · obtain ⟨u, hu, hle⟩ := h3 x hx t (List.mem_cons_of_mem _ ht)
              exact ⟨u, by simp only [List.mem_append]; exact .inr hu, hle⟩

/-! ### Queries -/

theorem lookup_aux {p : Line} {rs : List Line} (h : Ch p rs) {x : Int} (hx : D x) (hxp : x ≤ p.m) :
    ∃ l, ((p :: rs).takeWhile fun l => decide (l.m ≥ x)).getLast? = some l ∧ l ∈ p :: rs ∧ ∀ t ∈ p :: rs, f l x ≤ f t x := by
  induction rs generalizing p with
  | nil =>
    refine ⟨p, ?_, by simp, by simp⟩
    rw [List.takeWhile_cons_of_pos (by simpa using hxp)]
    rfl
  | cons r rs ih =>
    rw [List.takeWhile_cons_of_pos (by simpa using hxp)]
    by_cases hxr : x ≤ r.m
    · obtain ⟨l, e, hm, hall⟩ := ih h.2.2 hxr
      refine ⟨l, ?_, List.mem_cons_of_mem _ hm, ?_⟩
      · rw [List.getLast?_cons, e]; rfl
      · intro t ht
        rcases List.mem_cons.mp ht with rfl | ht
        · exact le_trans (hall r List.mem_cons_self) ((h.1.iff x hx).mp hxr)
        · exact hall t ht
    · refine ⟨p, ?_, List.mem_cons_self, ?_⟩
      · rw [List.takeWhile_cons_of_neg (by simpa using hxr)]
        rfl
      · intro t ht
        rcases List.mem_cons.mp ht with rfl | ht
        · exact le_refl _
        · exact le_of_lt (ch_gt h hx (by omega) t ht)

theorem lookup_tot {s : List Line} (h : Ok s) (hne : s ≠ []) {x : Int} (hx : D x) :
    Tot (lookup s x) fun l => l ∈ s ∧ ∀ t ∈ s, f l x ≤ f t x := by
  cases s with
  | nil => exact absurd rfl hne
  | cons p rs =>
    obtain ⟨l, e, hm, hall⟩ := lookup_aux h.2 hx (by rw [h.1]; exact hx.2)
    unfold lookup
    rw [e]
    exact Tot.pure ⟨hm, hall⟩

/-! ### Histories -/

/-- The sign with which lines are stored. -/
def sg (isMin : Bool) : Int := if isMin then 1 else -1

/-- The stored lines represent the lines added so far. -/
structure Sim (isMin : Bool) (s : List Line) (t : List (Int × Int)) : Prop where
  ok : Ok s
  bd : ∀ l ∈ s, Bd l
  mem : ∀ l ∈ s, ∃ p ∈ t, l.a = sg isMin * p.1 ∧ l.b = sg isMin * p.2
  cov : ∀ x, D x → ∀ p ∈ t, ∃ l ∈ s, f l x ≤ sg isMin * (p.1 * x + p.2)
  ne : s = [] ↔ t = []

theorem sim_nil (isMin : Bool) : Sim isMin [] [] := ⟨trivial, by simp, by simp, by simp, by simp⟩

theorem sim_add {isMin : Bool} {s s' : List Line} {t : List (Int × Int)} {a b : Int} (h : Sim isMin s t)
    (ha : Added s (sg isMin * a) (sg isMin * b) s') : Sim isMin s' (t ++ [(a, b)]) := by
  obtain ⟨h1, h2, h3⟩ := ha
  refine ⟨h1, fun l hl => (h2 l hl).1, fun l hl => ?_, fun x hx p hp => ?_, ?_⟩
  · rcases (h2 l hl).2 with ⟨e1, e2⟩ | ⟨u, hu, e1, e2⟩
    · exact ⟨(a, b), by simp, e1, e2⟩
    · obtain ⟨p, hp, e3, e4⟩ := h.mem u hu
      exact ⟨p, by simp [hp], by rw [e1, e3], by rw [e2, e4]⟩
  · rcases List.mem_append.mp hp with hp | hp
    · obtain ⟨l, hl, hle⟩ := h.cov x hx p hp
      obtain ⟨u, hu, hle'⟩ := (h3 x hx).2 l hl
      exact ⟨u, hu, le_trans hle' hle⟩
    · rw [List.mem_singleton] at hp
      subst hp
      obtain ⟨u, hu, hle⟩ := (h3 x hx).1
      refine ⟨u, hu, le_trans hle (le_of_eq ?_)⟩
      ring
  · constructor
    · rintro rfl
      obtain ⟨u, hu, -⟩ := (h3 0 ⟨by unfold inf; omega, by unfold inf; omega⟩).1
      simp at hu
    · intro e; simp at e

theorem i128_ok {x : Int} (h : -2 ^ 127 ≤ x ∧ x < 2 ^ 127) : i128 x = .ok x := if_pos h

theorem step_tot {isMin : Bool} {s : List Line} {t : List (Int × Int)} (h : Sim isMin s t) (o : Op) (hp : Pre t o) :
    Tot (step isMin s o) fun r => Sim isMin r.1 (next t o) ∧ Ans isMin t o r.2 := by
  cases o with
  | hasLine =>
    refine ⟨_, rfl, h, _, rfl, ?_⟩
    unfold hasLine
    rw [decide_eq_true_eq, Ne, h.ne]
  | addLine a b =>
    obtain ⟨ha, hb⟩ := hp
    have : Tot (addLine isMin s a b) fun s' => Sim isMin s' (t ++ [(a, b)]) := by
      unfold addLine
      cases isMin with
      | true =>
        rw [if_pos rfl]
        refine (addMin_tot h.ok h.bd ha hb).mono fun s' hs' => sim_add h ?_
        unfold sg
        rw [if_pos rfl, one_mul, one_mul]
        exact hs'
      | false =>
        rw [if_neg (by simp), i64_ok ⟨by omega, by omega⟩, ok_bind, i64_ok ⟨by omega, by omega⟩, ok_bind]
        refine (addMin_tot h.ok h.bd ⟨by omega, by omega⟩ ⟨by omega, by omega⟩).mono fun s' hs' => sim_add h ?_
        unfold sg
        rw [if_neg (by simp), neg_one_mul, neg_one_mul]
        exact hs'
    exact Tot.bind this fun s' hs' => ⟨_, rfl, hs', rfl⟩
  | query x =>
    obtain ⟨hne, hx1, hx2⟩ := hp
    have hx : D x := by unfold D inf; omega
    have hsne : s ≠ [] := fun e => hne (h.ne.mp e)
    have : Tot (query isMin s x) fun v => if isMin then IsLeast (valuesAt t x) v else IsGreatest (valuesAt t x) v := by
      unfold query
      rw [decide_eq_true hsne, check_true, ok_bind]
      refine Tot.bind (lookup_tot h.ok hsne hx) fun l hl => ?_
      obtain ⟨hl, hall⟩ := hl
      have hbl := h.bd l hl
      have hax : |l.a * x| ≤ 2 ^ 62 * 2 ^ 63 := by
        rw [abs_mul]
        apply mul_le_mul
        · rw [abs_le]; have := hbl.a; omega
        · rw [abs_le]; omega
        · exact abs_nonneg _
        · decide
      rw [abs_le] at hax
      have hb := hbl.b
      rw [i128_ok ⟨by omega, by omega⟩, ok_bind, i128_ok ⟨by omega, by omega⟩, ok_bind]
      obtain ⟨p, hp, e1, e2⟩ := h.mem l hl
      have hle : ∀ q ∈ t, l.a * x + l.b ≤ sg isMin * (q.1 * x + q.2) := by
        intro q hq
        obtain ⟨u, hu, hle⟩ := h.cov x hx q hq
        exact le_trans (hall u hu) hle
      have hv : l.a * x + l.b = sg isMin * (p.1 * x + p.2) := by rw [e1, e2]; ring
      cases isMin with
      | true =>
        rw [if_pos rfl]
        refine Tot.pure ?_
        rw [if_pos rfl]
        unfold sg at hv hle
        rw [if_pos rfl] at hv
        refine ⟨⟨p, hp, by rw [hv]; ring⟩, ?_⟩
        rintro _ ⟨q, hq, rfl⟩
        have := hle q hq
        rwa [if_pos rfl, one_mul] at this
      | false =>
        rw [if_neg (by simp), i128_ok ⟨by omega, by omega⟩]
        refine Tot.pure ?_
        rw [if_neg (by simp)]
        unfold sg at hv hle
        rw [if_neg (by simp)] at hv
        refine ⟨⟨p, hp, by rw [hv]; ring⟩, ?_⟩
        rintro _ ⟨q, hq, rfl⟩
        have := hle q hq
        rw [if_neg (by simp)] at this
        omega
    exact Tot.bind this fun v hv => ⟨_, rfl, h, v, rfl, hv⟩

end ConvexHullTrick
