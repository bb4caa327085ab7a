import Verif.Spec.Bezout
import Verif.Proof.ExtGcd
import Mathlib.Tactic.Linarith
import Mathlib.Tactic.Ring
import Mathlib.Tactic.LinearCombination
import Mathlib.Order.Interval.Set.Infinite
import Mathlib.Data.Int.Interval

/-! # Proofs for `library/number/bezout_equation.hpp` -/

namespace Bezout
open Cxx

/-! ## Rounded division -/

theorem floor_pos {x y q : Int} (hy : 0 < y) (h1 : q * y ≤ x) (h2 : x < (q + 1) * y) (k : Int) : k ≤ q ↔ k * y ≤ x := by
  constructor
  · intro h
    nlinarith
  · intro h
    by_contra c
    have : q + 1 ≤ k := by omega
    nlinarith

theorem floor_neg {x y q : Int} (hy : y < 0) (h1 : x ≤ q * y) (h2 : (q + 1) * y < x) (k : Int) : k ≤ q ↔ x ≤ k * y := by
  have := floor_pos (x := -x) (y := -y) (q := q) (by omega) (by linarith) (by linarith) k
  rw [this]
  constructor <;> intro h <;> linarith

theorem ceil_pos {x y q : Int} (hy : 0 < y) (h1 : x ≤ q * y) (h2 : (q - 1) * y < x) (k : Int) : q ≤ k ↔ x ≤ k * y := by
  have := floor_pos (x := -x) (y := y) (q := -q) hy (by linarith) (by linarith) (-k)
  rw [← neg_le_neg_iff, this]
  constructor <;> intro h <;> linarith

theorem ceil_neg {x y q : Int} (hy : y < 0) (h1 : q * y ≤ x) (h2 : x < (q - 1) * y) (k : Int) : q ≤ k ↔ k * y ≤ x := by
  have := ceil_pos (x := -x) (y := -y) (q := q) (by omega) (by linarith) (by linarith) k
  rw [this]
  constructor <;> intro h <;> linarith

theorem tdiv_bounds (x y : Int) : -(x.natAbs : Int) ≤ x.tdiv y ∧ x.tdiv y ≤ x.natAbs := by
  have h := Int.natAbs_tdiv_le_natAbs x y
  omega

/-- The facts about truncated division used below. -/
theorem tdiv_facts {x y : Int} (hy : y ≠ 0) : x.tdiv y * y + x.tmod y = x ∧ (0 ≤ x → 0 ≤ x.tmod y) ∧ (x ≤ 0 → x.tmod y ≤ 0) ∧ (0 < y → -y < x.tmod y ∧ x.tmod y < y) ∧ (y < 0 → y < x.tmod y ∧ x.tmod y < -y) := by
  have h1 : x.tdiv y * y + x.tmod y = x := Int.tdiv_mul_add_tmod x y
  have h2 := ExtGcd.tmod_signs x y
  have h3 : (x.tmod y).natAbs < y.natAbs := by
    rw [Int.natAbs_tmod]
    exact Nat.mod_lt _ (by omega)
  refine ⟨h1, fun h => (h2.1 h).1, fun h => (h2.2 h).1, fun h => ?_, fun h => ?_⟩ <;> omega

theorem fld_tot {x y : Int} (hy : y ≠ 0) (hx : -2 ^ 62 < x ∧ x < 2 ^ 62) :
    ∃ q, fld x y = .ok q ∧ (-(x.natAbs : Int) ≤ q ∧ q ≤ x.natAbs) ∧ (0 < y → ∀ k, k ≤ q ↔ k * y ≤ x) ∧ (y < 0 → ∀ k, k ≤ q ↔ x ≤ k * y) := by
  obtain ⟨h1, h2, h3, h4, h5⟩ := tdiv_facts (x := x) hy
  have hb := tdiv_bounds x y
  unfold fld
  rw [if_neg hy, i64_ok (by omega), ok_bind]
  dsimp only
  generalize hq : x.tdiv y = q0 at *
  generalize hr : x.tmod y = r at *
  by_cases c : (decide (x < 0) ≠ decide (y < 0)) ∧ r ≠ 0
  · rw [if_pos c]
    obtain ⟨c1, c2⟩ := c
    have c1' : ¬ ((x < 0) ↔ (y < 0)) := by
      intro h
      exact c1 (decide_eq_decide.mpr h)
    have hlow : -(x.natAbs : Int) ≤ q0 - 1 := by
      by_contra hlt
      have e : q0 = -(x.natAbs : Int) := by omega
      rcases lt_or_gt_of_ne hy with hy' | hy'
      · have : 0 ≤ x := by
          by_contra hh
          exact c1' (by constructor <;> intro <;> omega)
        have e2 : q0 = -x := by omega
        have h2' := h2 this
        have : 0 < r := by omega
        rw [e2] at h1
        nlinarith [mul_nonneg ‹0 ≤ x› (show 0 ≤ -y - 1 by omega)]
      · have : x < 0 := by
          by_contra hh
          exact c1' (by constructor <;> intro <;> omega)
        have e2 : q0 = x := by omega
        have := h3 (by omega)
        have : 0 < -r := by omega
        nlinarith
    refine ⟨q0 - 1, i64_ok (by omega), by omega, fun hp => floor_pos hp ?_ ?_, fun hp => floor_neg hp ?_ ?_⟩
    · have := h4 hp
      linarith
    · have : x < 0 := by
        by_contra hh
        exact c1' (by constructor <;> intro <;> omega)
      have := h3 (by omega)
      have : r < 0 := by omega
      linarith
    · have := h5 hp
      linarith
    · have : 0 ≤ x := by
        by_contra hh
        exact c1' (by constructor <;> intro <;> omega)
      have := h2 this
      have : 0 < r := by omega
      linarith
  · rw [if_neg c, sub_zero]
    have c' : r ≠ 0 → ((x < 0) ↔ (y < 0)) := by
      intro h
      by_contra hh
      exact c ⟨fun e => hh (decide_eq_decide.mp e), h⟩
    refine ⟨q0, i64_ok (by omega), hb, fun hp => floor_pos hp ?_ ?_, fun hp => floor_neg hp ?_ ?_⟩
    · have : 0 ≤ r := by
        by_contra hh
        have := c' (by omega)
        have := h2 (by omega)
        omega
      linarith
    · have := h4 hp
      linarith
    · have : r ≤ 0 := by
        by_contra hh
        have := c' (by omega)
        have := h3 (by omega)
        omega
      linarith
    · have := h5 hp
      linarith

theorem cld_tot {x y : Int} (hy : y ≠ 0) (hx : -2 ^ 62 < x ∧ x < 2 ^ 62) :
    ∃ q, cld x y = .ok q ∧ (-(x.natAbs : Int) ≤ q ∧ q ≤ x.natAbs) ∧ (0 < y → ∀ k, q ≤ k ↔ x ≤ k * y) ∧ (y < 0 → ∀ k, q ≤ k ↔ k * y ≤ x) := by
  obtain ⟨h1, h2, h3, h4, h5⟩ := tdiv_facts (x := x) hy
  have hb := tdiv_bounds x y
  unfold cld
  rw [if_neg hy, i64_ok (by omega), ok_bind]
  dsimp only
  have hxy : x = y → x.tmod y = 0 := fun e => by rw [e, Int.tmod_self]
  generalize hq : x.tdiv y = q0 at *
  generalize hr : x.tmod y = r at *
  by_cases c : (decide (x < 0) = decide (y < 0)) ∧ x ≠ y ∧ r ≠ 0
  · rw [if_pos c]
    obtain ⟨c1, -, c2⟩ := c
    have c1' : ((x < 0) ↔ (y < 0)) := decide_eq_decide.mp c1
    have hup : q0 + 1 ≤ (x.natAbs : Int) := by
      by_contra hlt
      have e : q0 = (x.natAbs : Int) := by omega
      rcases lt_or_gt_of_ne hy with hy' | hy'
      · have hx0 : x < 0 := c1'.mpr hy'
        have e2 : q0 = -x := by omega
        have := h3 (by omega)
        have : 0 < -r := by omega
        nlinarith
      · have hx0 : ¬ x < 0 := fun h => by have := c1'.mp h; omega
        have e2 : q0 = x := by omega
        have := h2 (by omega)
        have : 0 < r := by omega
        nlinarith
    refine ⟨q0 + 1, i64_ok (by omega), by omega, fun hp => ceil_pos hp ?_ ?_, fun hp => ceil_neg hp ?_ ?_⟩
    · have := h4 hp
      linarith
    · have := h2 (by omega)
      have : 0 < r := by omega
      linarith
    · have := h5 hp
      linarith
    · have := h3 (by omega)
      have : r < 0 := by omega
      linarith
  · rw [if_neg c, add_zero]
    have c' : r ≠ 0 → ¬ ((x < 0) ↔ (y < 0)) := by
      intro h hh
      exact c ⟨decide_eq_decide.mpr hh, fun e => h (hxy e), h⟩
    refine ⟨q0, i64_ok (by omega), hb, fun hp => ceil_pos hp ?_ ?_, fun hp => ceil_neg hp ?_ ?_⟩
    · have : r ≤ 0 := by
        by_contra hh
        have := c' (by omega)
        have := h3 (by omega)
        omega
      linarith
    · have := h4 hp
      linarith
    · have : 0 ≤ r := by
        by_contra hh
        have := c' (by omega)
        have := h2 (by omega)
        omega
      linarith
    · have := h5 hp
      linarith

/-! ## One coordinate -/

/-- `k` lies in the interval, where the sentinels mean that there is no bound. -/
def Rng (lo hi k : Int) : Prop := (lo = neginf ∨ lo ≤ k) ∧ (hi = posinf ∨ k ≤ hi)

/-- The interval describes the numbers with property `C`. -/
structure AxOk (lo hi : Int) (C : Int → Prop) : Prop where
  iff : ∀ k, C k ↔ Rng lo hi k
  lo1 : neginf ≤ lo
  lo2 : lo < posinf
  hi1 : neginf < hi
  hi2 : hi ≤ posinf
  le : lo ≤ hi

theorem axOk_init {C : Int → Prop} (h : ∀ k, C k) : AxOk neginf posinf C :=
  ⟨fun k => ⟨fun _ => ⟨Or.inl rfl, Or.inl rfl⟩, fun _ => h k⟩, le_refl _, by decide, by decide, le_refl _, by decide⟩

theorem AxOk.congr {lo hi : Int} {C D : Int → Prop} (h : AxOk lo hi C) (e : ∀ k, D k ↔ C k) : AxOk lo hi D :=
  ⟨fun k => (e k).trans (h.iff k), h.lo1, h.lo2, h.hi1, h.hi2, h.le⟩

theorem rng_empty {lo hi : Int} (h1 : neginf < hi) (h2 : lo < posinf) (h : hi < lo) (k : Int) : ¬ Rng lo hi k := by
  rintro ⟨a, b⟩
  rcases a with a | a <;> rcases b with b | b <;> omega

theorem rng_lo {lo hi : Int} (h : lo ≤ hi) : Rng lo hi lo := ⟨Or.inr (le_refl _), Or.inr h⟩

theorem rng_hi {lo hi : Int} (h : lo ≤ hi) : Rng lo hi hi := ⟨Or.inr h, Or.inr (le_refl _)⟩

theorem rng_max {lo hi q k : Int} (h1 : neginf ≤ lo) (hq : neginf < q) : Rng (max lo q) hi k ↔ Rng lo hi k ∧ q ≤ k := by
  unfold Rng
  omega

theorem rng_min {lo hi q k : Int} (h1 : hi ≤ posinf) (hq : q < posinf) : Rng lo (min hi q) k ↔ Rng lo hi k ∧ k ≤ q := by
  unfold Rng
  omega

/-- What a restriction does. -/
def RestrictOk (C D : Int → Prop) (lo hi : Int) (c : Int) (r : Bool × Int × Int) : Prop :=
  (r.1 = true ↔ ∃ k, C k ∧ D k) ∧ (r.1 = true → AxOk r.2.1 r.2.2 (fun k => C k ∧ D k)) ∧ (c = 0 → r.2 = (lo, hi))

theorem raise_ok {C D : Int → Prop} {lo hi q c : Int} (h : AxOk lo hi C) (h1 : neginf < q) (h2 : q < posinf) (hq : ∀ k, q ≤ k ↔ D k) (hc : c ≠ 0) :
    RestrictOk C D lo hi c (decide (¬ max lo q > hi), max lo q, hi) := by
  have e : ∀ k, C k ∧ D k ↔ Rng (max lo q) hi k := fun k => by rw [rng_max h.lo1 h1, h.iff, hq]
  refine ⟨?_, ?_, fun h => absurd h hc⟩
  · rw [decide_eq_true_iff]
    constructor
    · intro hle
      exact ⟨_, (e _).mpr (rng_lo (not_lt.mp hle))⟩
    · rintro ⟨k, hk⟩ hgt
      exact rng_empty h.hi1 (max_lt h.lo2 h2) hgt k ((e k).mp hk)
  · intro hle
    rw [decide_eq_true_iff] at hle
    exact ⟨e, le_max_of_le_left h.lo1, max_lt h.lo2 h2, h.hi1, h.hi2, not_lt.mp hle⟩

theorem lower_ok {C D : Int → Prop} {lo hi q c : Int} (h : AxOk lo hi C) (h1 : neginf < q) (h2 : q < posinf) (hq : ∀ k, k ≤ q ↔ D k) (hc : c ≠ 0) :
    RestrictOk C D lo hi c (decide (¬ lo > min hi q), lo, min hi q) := by
  have e : ∀ k, C k ∧ D k ↔ Rng lo (min hi q) k := fun k => by rw [rng_min h.hi2 h2, h.iff, hq]
  refine ⟨?_, ?_, fun h => absurd h hc⟩
  · rw [decide_eq_true_iff]
    constructor
    · intro hle
      exact ⟨_, (e _).mpr (rng_lo (not_lt.mp hle))⟩
    · rintro ⟨k, hk⟩ hgt
      exact rng_empty (lt_min h.hi1 h1) h.lo2 hgt k ((e k).mp hk)
  · intro hle
    rw [decide_eq_true_iff] at hle
    exact ⟨e, h.lo1, h.lo2, lt_min h.hi1 h1, min_le_of_left_le h.hi2, not_lt.mp hle⟩

theorem const_ok {C D : Int → Prop} {lo hi c : Int} {p : Bool} (h : AxOk lo hi C) (hp : ∀ k, p = true ↔ D k) : RestrictOk C D lo hi c (p, lo, hi) := by
  refine ⟨⟨fun hp' => ⟨lo, (h.iff lo).mpr (rng_lo h.le), (hp lo).mp hp'⟩, fun ⟨k, _, hd⟩ => (hp k).mpr hd⟩, fun hp' => h.congr fun k => ?_, fun _ => rfl⟩
  exact ⟨fun h => h.1, fun h => ⟨h, (hp k).mp hp'⟩⟩

theorem restrictMin_tot {C : Int → Prop} {x0 c lo hi v : Int} (h : AxOk lo hi C) (hx : -2 ^ 61 < x0 ∧ x0 < 2 ^ 61) (hv : Small v) :
    Tot (restrictMin x0 c lo hi v) (RestrictOk C (fun k => v ≤ x0 + k * c) lo hi c) := by
  unfold Small at hv
  unfold restrictMin
  by_cases c0 : c = 0
  · rw [if_pos c0]
    exact Tot.pure (const_ok h fun k => by rw [decide_eq_true_iff, c0]; simp)
  · rw [if_neg c0]
    by_cases c1 : c > 0
    · rw [if_pos c1, i64_ok (by omega), ok_bind]
      obtain ⟨q, e, hb, hq, -⟩ := cld_tot (x := v - x0) c0 (by omega)
      rw [e, ok_bind]
      refine Tot.pure (raise_ok h (by unfold neginf; omega) (by unfold posinf; omega) (fun k => ?_) c0)
      rw [hq c1]
      exact sub_le_iff_le_add'
    · rw [if_neg c1, i64_ok (by omega), ok_bind]
      obtain ⟨q, e, hb, -, hq⟩ := fld_tot (x := v - x0) c0 (by omega)
      rw [e, ok_bind]
      refine Tot.pure (lower_ok h (by unfold neginf; omega) (by unfold posinf; omega) (fun k => ?_) c0)
      rw [hq (by omega)]
      exact sub_le_iff_le_add'

theorem restrictMax_tot {C : Int → Prop} {x0 c lo hi v : Int} (h : AxOk lo hi C) (hx : -2 ^ 61 < x0 ∧ x0 < 2 ^ 61) (hv : Small v) :
    Tot (restrictMax x0 c lo hi v) (RestrictOk C (fun k => x0 + k * c ≤ v) lo hi c) := by
  unfold Small at hv
  unfold restrictMax
  by_cases c0 : c = 0
  · rw [if_pos c0]
    exact Tot.pure (const_ok h fun k => by rw [decide_eq_true_iff, c0]; simp)
  · rw [if_neg c0]
    by_cases c1 : c > 0
    · rw [if_pos c1, i64_ok (by omega), ok_bind]
      obtain ⟨q, e, hb, hq, -⟩ := fld_tot (x := v - x0) c0 (by omega)
      rw [e, ok_bind]
      refine Tot.pure (lower_ok h (by unfold neginf; omega) (by unfold posinf; omega) (fun k => ?_) c0)
      rw [hq c1]
      exact le_sub_iff_add_le'
    · rw [if_neg c1, i64_ok (by omega), ok_bind]
      obtain ⟨q, e, hb, -, hq⟩ := cld_tot (x := v - x0) c0 (by omega)
      rw [e, ok_bind]
      refine Tot.pure (raise_ok h (by unfold neginf; omega) (by unfold posinf; omega) (fun k => ?_) c0)
      rw [hq (by omega)]
      exact le_sub_iff_add_le'

/-! ## The solution object -/

/-- The restrictions of `x` hold. -/
def CX (cs : List Con) (x : Int) : Prop := ∀ c ∈ cs, c.isX = true → c.Holds x 0

/-- The restrictions of `y` hold. -/
def CY (cs : List Con) (y : Int) : Prop := ∀ c ∈ cs, c.isX = false → c.Holds 0 y

theorem holdsX {c : Con} (h : c.isX = true) (x y y' : Int) : c.Holds x y ↔ c.Holds x y' := by
  cases c <;> simp_all [Con.Holds, Con.isX]

theorem holdsY {c : Con} (h : c.isX = false) (x x' y : Int) : c.Holds x y ↔ c.Holds x' y := by
  cases c <;> simp_all [Con.Holds, Con.isX]

theorem solves_iff {a b z : Int} {cs : List Con} {x y : Int} : Solves a b z cs x y ↔ a * x + b * y = z ∧ CX cs x ∧ CY cs y := by
  refine and_congr_right fun _ => ⟨fun h => ⟨fun c hc hx => (holdsX hx _ _ _).mp (h c hc), fun c hc hx => (holdsY hx _ _ _).mp (h c hc)⟩, fun h c hc => ?_⟩
  by_cases hx : c.isX = true
  · exact (holdsX hx _ _ _).mp (h.1 c hc hx)
  · exact (holdsY (by simpa using hx) _ _ _).mp (h.2 c hc (by simpa using hx))

/-- The equation and the restrictions of `x` can be satisfied. -/
def XSat (a b z : Int) (cs : List Con) : Prop := ∃ x y, a * x + b * y = z ∧ CX cs x

/-- The equation and the restrictions of `y` can be satisfied. -/
def YSat (a b z : Int) (cs : List Con) : Prop := ∃ x y, a * x + b * y = z ∧ CY cs y

/-- The type and the coefficients of the object are right. -/
def Kind (a b z : Int) (s : Sol) : Prop :=
  (s.t = .linear ∧ (∀ x y, a * x + b * y = z ↔ ∃ k, x = s.x0 + k * s.cx ∧ y = s.y0 + k * s.cy) ∧ s.cx ≠ 0 ∧ (s.cy = 0 → s.cx = 1 ∨ s.cx = -1)) ∨
  (s.t = .arbitrary ∧ a = 0 ∧ b = 0 ∧ z = 0 ∧ s.x0 = 0 ∧ s.cx = 1 ∧ s.y0 = 0 ∧ s.cy = 1)

/-- An object that has not been found empty. -/
structure Alive (a b z : Int) (cs : List Con) (s : Sol) : Prop where
  kind : Kind a b z s
  bx : -2 ^ 61 < s.x0 ∧ s.x0 < 2 ^ 61
  by' : -2 ^ 61 < s.y0 ∧ s.y0 < 2 ^ 61
  ax : AxOk s.kxmin s.kxmax (fun k => CX cs (s.x0 + k * s.cx))
  ay : AxOk s.kymin s.kymax (fun k => CY cs (s.y0 + k * s.cy))
  cy0 : s.cy = 0 → s.kymin = neginf ∧ s.kymax = posinf

/-- The object describes the solutions. -/
def Rep (a b z : Int) (cs : List Con) (s : Sol) : Prop := Alive a b z cs s ∨ (s.t = .none ∧ ¬ (XSat a b z cs ∧ YSat a b z cs))

theorem Kind.t_ne {a b z : Int} {s : Sol} (h : Kind a b z s) : s.t ≠ .none := by
  rcases h with h | h <;> rw [h.1] <;> decide

theorem Kind.xs {a b z : Int} {s : Sol} (h : Kind a b z s) (C : Int → Prop) : (∃ x y, a * x + b * y = z ∧ C x) ↔ ∃ k, C (s.x0 + k * s.cx) := by
  rcases h with ⟨-, h, -, -⟩ | ⟨-, rfl, rfl, rfl, e1, e2, -, -⟩
  · constructor
    · rintro ⟨x, y, he, hc⟩
      obtain ⟨k, rfl, -⟩ := (h x y).mp he
      exact ⟨k, hc⟩
    · rintro ⟨k, hc⟩
      exact ⟨_, _, (h _ _).mpr ⟨k, rfl, rfl⟩, hc⟩
  · rw [e1, e2]
    constructor
    · rintro ⟨x, y, -, hc⟩
      exact ⟨x, by simpa using hc⟩
    · rintro ⟨k, hc⟩
      exact ⟨0 + k * 1, 0, by ring, hc⟩

theorem Kind.ys {a b z : Int} {s : Sol} (h : Kind a b z s) (C : Int → Prop) : (∃ x y, a * x + b * y = z ∧ C y) ↔ ∃ k, C (s.y0 + k * s.cy) := by
  rcases h with ⟨-, h, -, -⟩ | ⟨-, rfl, rfl, rfl, -, -, e1, e2⟩
  · constructor
    · rintro ⟨x, y, he, hc⟩
      obtain ⟨k, -, rfl⟩ := (h x y).mp he
      exact ⟨k, hc⟩
    · rintro ⟨k, hc⟩
      exact ⟨_, _, (h _ _).mpr ⟨k, rfl, rfl⟩, hc⟩
  · rw [e1, e2]
    constructor
    · rintro ⟨x, y, -, hc⟩
      exact ⟨y, by simpa using hc⟩
    · rintro ⟨k, hc⟩
      exact ⟨0, 0 + k * 1, by ring, hc⟩

theorem Alive.xsat {a b z : Int} {cs : List Con} {s : Sol} (h : Alive a b z cs s) : XSat a b z cs :=
  (h.kind.xs (CX cs)).mpr ⟨_, (h.ax.iff _).mpr (rng_lo h.ax.le)⟩

theorem Alive.ysat {a b z : Int} {cs : List Con} {s : Sol} (h : Alive a b z cs s) : YSat a b z cs :=
  (h.kind.ys (CY cs)).mpr ⟨_, (h.ay.iff _).mpr (rng_lo h.ay.le)⟩

theorem dead_mono {a b z : Int} {cs cs' : List Con} (h : ¬ (XSat a b z cs ∧ YSat a b z cs)) : ¬ (XSat a b z (cs ++ cs') ∧ YSat a b z (cs ++ cs')) := by
  rintro ⟨⟨x, y, e, hx⟩, ⟨x', y', e', hy⟩⟩
  exact h ⟨⟨x, y, e, fun c hc => hx c (List.mem_append_left _ hc)⟩, ⟨x', y', e', fun c hc => hy c (List.mem_append_left _ hc)⟩⟩

theorem cx_append {cs : List Con} {c : Con} (h : c.isX = true) (x : Int) : CX (cs ++ [c]) x ↔ CX cs x ∧ c.Holds x 0 := by
  constructor
  · intro hh
    exact ⟨fun d hd => hh d (List.mem_append_left _ hd), hh c (by simp) h⟩
  · rintro ⟨h1, h2⟩ d hd hx
    rcases List.mem_append.mp hd with hd | hd
    · exact h1 d hd hx
    · rw [List.mem_singleton] at hd
      rw [hd]
      exact h2

theorem cy_append {cs : List Con} {c : Con} (h : c.isX = false) (y : Int) : CY (cs ++ [c]) y ↔ CY cs y ∧ c.Holds 0 y := by
  constructor
  · intro hh
    exact ⟨fun d hd => hh d (List.mem_append_left _ hd), hh c (by simp) h⟩
  · rintro ⟨h1, h2⟩ d hd hx
    rcases List.mem_append.mp hd with hd | hd
    · exact h1 d hd hx
    · rw [List.mem_singleton] at hd
      rw [hd]
      exact h2

theorem cx_skip {cs : List Con} {c : Con} (h : c.isX = false) (x : Int) : CX (cs ++ [c]) x ↔ CX cs x := by
  constructor
  · intro hh d hd
    exact hh d (List.mem_append_left _ hd)
  · intro h1 d hd hx
    rcases List.mem_append.mp hd with hd | hd
    · exact h1 d hd hx
    · rw [List.mem_singleton] at hd
      rw [hd, h] at hx
      cases hx

theorem cy_skip {cs : List Con} {c : Con} (h : c.isX = true) (y : Int) : CY (cs ++ [c]) y ↔ CY cs y := by
  constructor
  · intro hh d hd
    exact hh d (List.mem_append_left _ hd)
  · intro h1 d hd hx
    rcases List.mem_append.mp hd with hd | hd
    · exact h1 d hd hx
    · rw [List.mem_singleton] at hd
      rw [hd, h] at hx
      cases hx

/-- What a call does. -/
def StepOk (a b z : Int) (cs : List Con) (p : Sol × Bool) : Prop := Rep a b z cs p.1 ∧ (p.2 = true ↔ XSat a b z cs ∧ YSat a b z cs)

theorem afterX {a b z : Int} {cs : List Con} {s : Sol} (h : Alive a b z cs s) {c : Con} (hc : c.isX = true) {r : Bool × Int × Int}
    (hr : RestrictOk (fun k => CX cs (s.x0 + k * s.cx)) (fun k => c.Holds (s.x0 + k * s.cx) 0) s.kxmin s.kxmax s.cx r) {s' : Sol}
    (hs : s' = { s with t := if r.1 then s.t else .none, kxmin := r.2.1, kxmax := r.2.2 }) : StepOk a b z (cs ++ [c]) (s', decide (s'.t ≠ .none)) := by
  obtain ⟨r1, r2, -⟩ := hr
  have hx : XSat a b z (cs ++ [c]) ↔ r.1 = true := by
    rw [r1]
    refine (h.kind.xs (CX (cs ++ [c]))).trans ?_
    simp only [cx_append hc]
  have hy : YSat a b z (cs ++ [c]) := by
    obtain ⟨x, y, e, hh⟩ := h.ysat
    exact ⟨x, y, e, (cy_skip hc y).mpr hh⟩
  subst hs
  by_cases hb : r.1 = true
  · rw [if_pos hb]
    refine ⟨Or.inl ⟨?_, h.bx, h.by', (r2 hb).congr fun k => cx_append hc _, h.ay.congr fun k => cy_skip hc _, h.cy0⟩, ?_⟩
    · exact h.kind
    · rw [decide_eq_true_iff]
      exact ⟨fun _ => ⟨hx.mpr hb, hy⟩, fun _ => h.kind.t_ne⟩
  · rw [if_neg hb]
    refine ⟨Or.inr ⟨rfl, fun hh => hb (hx.mp hh.1)⟩, ?_⟩
    rw [decide_eq_true_iff]
    exact ⟨fun hh => absurd rfl hh, fun hh => absurd (hx.mp hh.1) hb⟩

theorem afterY {a b z : Int} {cs : List Con} {s : Sol} (h : Alive a b z cs s) {c : Con} (hc : c.isX = false) {r : Bool × Int × Int}
    (hr : RestrictOk (fun k => CY cs (s.y0 + k * s.cy)) (fun k => c.Holds 0 (s.y0 + k * s.cy)) s.kymin s.kymax s.cy r) {s' : Sol}
    (hs : s' = { s with t := if r.1 then s.t else .none, kymin := r.2.1, kymax := r.2.2 }) : StepOk a b z (cs ++ [c]) (s', decide (s'.t ≠ .none)) := by
  obtain ⟨r1, r2, r3⟩ := hr
  have hy : YSat a b z (cs ++ [c]) ↔ r.1 = true := by
    rw [r1]
    refine (h.kind.ys (CY (cs ++ [c]))).trans ?_
    simp only [cy_append hc]
  have hx : XSat a b z (cs ++ [c]) := by
    obtain ⟨x, y, e, hh⟩ := h.xsat
    exact ⟨x, y, e, (cx_skip hc x).mpr hh⟩
  subst hs
  by_cases hb : r.1 = true
  · rw [if_pos hb]
    refine ⟨Or.inl ⟨?_, h.bx, h.by', h.ax.congr fun k => cx_skip hc _, (r2 hb).congr fun k => cy_append hc _, fun h0 => ?_⟩, ?_⟩
    · exact h.kind
    · have := h.cy0 h0
      dsimp only at h0 ⊢
      rw [r3 h0]
      exact this
    · rw [decide_eq_true_iff]
      exact ⟨fun _ => ⟨hx, hy.mpr hb⟩, fun _ => h.kind.t_ne⟩
  · rw [if_neg hb]
    refine ⟨Or.inr ⟨rfl, fun hh => hb (hy.mp hh.2)⟩, ?_⟩
    rw [decide_eq_true_iff]
    exact ⟨fun hh => absurd rfl hh, fun hh => absurd (hy.mp hh.2) hb⟩

theorem dead_step {a b z : Int} {cs cs' : List Con} {s : Sol} (ht : s.t = .none) (h : ¬ (XSat a b z cs ∧ YSat a b z cs)) : StepOk a b z (cs ++ cs') (s, false) :=
  ⟨Or.inr ⟨ht, dead_mono h⟩, fun h => (by cases h), fun hh => absurd hh (dead_mono h)⟩

theorem setMinX_tot {a b z : Int} {cs : List Con} {s : Sol} (h : Rep a b z cs s) {v : Int} (hv : Small v) : Tot (setMinX s v) (StepOk a b z (cs ++ [.minX v])) := by
  unfold setMinX
  rcases h with h | ⟨ht, h⟩
  · rw [if_neg h.kind.t_ne]
    exact Tot.bind (restrictMin_tot h.ax h.bx hv) fun r hr => Tot.pure (afterX h (c := .minX v) rfl hr rfl)
  · rw [if_pos ht]
    exact Tot.pure (dead_step ht h)

theorem setMaxX_tot {a b z : Int} {cs : List Con} {s : Sol} (h : Rep a b z cs s) {v : Int} (hv : Small v) : Tot (setMaxX s v) (StepOk a b z (cs ++ [.maxX v])) := by
  unfold setMaxX
  rcases h with h | ⟨ht, h⟩
  · rw [if_neg h.kind.t_ne]
    exact Tot.bind (restrictMax_tot h.ax h.bx hv) fun r hr => Tot.pure (afterX h (c := .maxX v) rfl hr rfl)
  · rw [if_pos ht]
    exact Tot.pure (dead_step ht h)

theorem setMinY_tot {a b z : Int} {cs : List Con} {s : Sol} (h : Rep a b z cs s) {v : Int} (hv : Small v) : Tot (setMinY s v) (StepOk a b z (cs ++ [.minY v])) := by
  unfold setMinY
  rcases h with h | ⟨ht, h⟩
  · rw [if_neg h.kind.t_ne]
    exact Tot.bind (restrictMin_tot h.ay h.by' hv) fun r hr => Tot.pure (afterY h (c := .minY v) rfl hr rfl)
  · rw [if_pos ht]
    exact Tot.pure (dead_step ht h)

theorem setMaxY_tot {a b z : Int} {cs : List Con} {s : Sol} (h : Rep a b z cs s) {v : Int} (hv : Small v) : Tot (setMaxY s v) (StepOk a b z (cs ++ [.maxY v])) := by
  unfold setMaxY
  rcases h with h | ⟨ht, h⟩
  · rw [if_neg h.kind.t_ne]
    exact Tot.bind (restrictMax_tot h.ay h.by' hv) fun r hr => Tot.pure (afterY h (c := .maxY v) rfl hr rfl)
  · rw [if_pos ht]
    exact Tot.pure (dead_step ht h)

theorem range_tot {a b z : Int} {cs : List Con} {c d : Con} {p : Sol × Bool} (h : StepOk a b z (cs ++ [c]) p) {m : M (Sol × Bool)}
    (hm : Rep a b z (cs ++ [c]) p.1 → Tot m (StepOk a b z (cs ++ [c] ++ [d]))) : Tot (if p.2 = true then m else pure p) (StepOk a b z (cs ++ [c, d])) := by
  have e : cs ++ [c, d] = cs ++ [c] ++ [d] := by simp
  rw [e]
  by_cases hp : p.2 = true
  · rw [if_pos hp]
    exact hm h.1
  · rw [if_neg hp]
    have hn : ¬ (XSat a b z (cs ++ [c]) ∧ YSat a b z (cs ++ [c])) := fun hh => hp (h.2.mpr hh)
    have ht : p.1.t = .none := by
      rcases h.1 with h' | h'
      · exact absurd ⟨h'.xsat, h'.ysat⟩ hn
      · exact h'.1
    obtain ⟨s, f⟩ := p
    have : f = false := by simpa using hp
    subst this
    exact Tot.pure (dead_step ht hn)

theorem step_tot {a b z : Int} {cs : List Con} {s : Sol} (h : Rep a b z cs s) {o : Op} (ho : ∀ c ∈ o.cons, Small c.bound) :
    Tot (step s o) (StepOk a b z (cs ++ o.cons)) := by
  cases o with
  | minX v => exact setMinX_tot h (ho (.minX v) (by simp [Op.cons]))
  | maxX v => exact setMaxX_tot h (ho (.maxX v) (by simp [Op.cons]))
  | minY v => exact setMinY_tot h (ho (.minY v) (by simp [Op.cons]))
  | maxY v => exact setMaxY_tot h (ho (.maxY v) (by simp [Op.cons]))
  | xRange l r =>
    exact Tot.bind (setMinX_tot h (ho (.minX l) (by simp [Op.cons]))) fun p hp => range_tot hp fun hr => setMaxX_tot hr (ho (.maxX r) (by simp [Op.cons]))
  | yRange l r =>
    exact Tot.bind (setMinY_tot h (ho (.minY l) (by simp [Op.cons]))) fun p hp => range_tot hp fun hr => setMaxY_tot hr (ho (.maxY r) (by simp [Op.cons]))

/-! ## Solving -/

theorem toI64_eq {x : Int} (h : -2 ^ 63 ≤ x ∧ x < 2 ^ 63) : toI64 x = x := by
  unfold toI64
  rw [Int.emod_eq_of_lt (by omega) (by omega)]
  ring

theorem i128_ok {x : Int} (h : -2 ^ 127 ≤ x ∧ x < 2 ^ 127) : ConvexHullTrick.i128 x = .ok x := if_pos h

theorem i128_abs {x : Int} (h : |x| < 2 ^ 127) : ConvexHullTrick.i128 x = .ok x := by
  have := abs_lt.mp h
  exact i128_ok (by omega)

theorem sol_iff {a b z x y x1 y1 : Int} (hb : a * x + b * y = 1) (h1 : a * x1 + b * y1 = z) (X Y : Int) :
    a * X + b * Y = z ↔ ∃ k, X = x1 + k * b ∧ Y = y1 + k * (-a) := by
  constructor
  · intro h
    have e : a * (X - x1) + b * (Y - y1) = 0 := by linarith
    refine ⟨y * (X - x1) - x * (Y - y1), ?_, ?_⟩
    · linear_combination (X - x1) * (-hb) + x * e
    · linear_combination (Y - y1) * (-hb) + y * e
  · rintro ⟨k, rfl, rfl⟩
    linear_combination h1

theorem y_bound {a b z x1 y1 : Int} (hb : b ≠ 0) (h1 : a * x1 + b * y1 = z) (hx : |x1| < |b|) : |y1| ≤ |z| + |a| := by
  by_contra hc
  have hc' : |z| + |a| + 1 ≤ |y1| := by omega
  have e : b * y1 = z - a * x1 := by linarith
  have h2 : |b| * |y1| ≤ |z| + |a| * |x1| := by
    rw [← abs_mul, e, ← abs_mul]
    exact abs_sub _ _
  have hb1 : 1 ≤ |b| := Int.one_le_abs hb
  nlinarith [abs_nonneg z, abs_nonneg a, abs_nonneg x1, mul_nonneg (abs_nonneg a) (show 0 ≤ |b| - |x1| by omega), mul_nonneg (show 0 ≤ |b| - 1 by omega) (abs_nonneg z),
    mul_le_mul_of_nonneg_left hc' (abs_nonneg b)]

theorem solve_tot {a b z : Int} (ha : Small a) (hb : Small b) (hz : Small z) (hab : b = 0 → a = 0) : Tot (solve a b z) (Rep a b z []) := by
  have ha' : |a| < 2 ^ 60 := abs_lt.mpr ha
  have hb' : |b| < 2 ^ 60 := abs_lt.mpr hb
  have hz' : |z| < 2 ^ 60 := abs_lt.mpr hz
  have dead : (¬ ∃ x y, a * x + b * y = z) → Tot (pure (mkSol .none 0 0 0 0) : M Sol) (Rep a b z []) := by
    intro h
    refine Tot.pure (Or.inr ⟨rfl, ?_⟩)
    rintro ⟨⟨x, y, e, -⟩, -⟩
    exact h ⟨x, y, e⟩
  unfold solve
  refine Tot.bind (ExtGcd.extGcd_tot (by omega) (by omega)) ?_
  rintro ⟨x, y, g⟩ ⟨hg1, hg2, hx, hy⟩
  dsimp only at hg1 hg2 hx hy ⊢
  have hg0 : 0 ≤ g := by omega
  by_cases c0 : g = 0
  · rw [if_pos c0]
    have hab0 : a = 0 ∧ b = 0 := by
      rw [hg2] at c0
      exact Int.gcd_eq_zero_iff.mp (by exact_mod_cast c0)
    obtain ⟨rfl, rfl⟩ := hab0
    by_cases cz : z ≠ 0
    · rw [if_pos cz]
      refine dead ?_
      rintro ⟨x, y, e⟩
      exact cz (by linarith)
    · rw [if_neg cz]
      have cz' : z = 0 := by omega
      refine Tot.pure (Or.inl ⟨Or.inr ⟨rfl, rfl, rfl, cz', rfl, rfl, rfl, rfl⟩, ⟨by decide, by decide⟩, ⟨by decide, by decide⟩, axOk_init ?_, axOk_init ?_, ?_⟩)
      · intro k c hc
        cases hc
      · intro k c hc
        cases hc
      · intro h
        cases h
  · rw [if_neg c0]
    have hgp : 0 < g := by omega
    obtain ⟨a', ea⟩ : g ∣ a := by rw [hg2]; exact Int.gcd_dvd_left ..
    obtain ⟨b', eb⟩ : g ∣ b := by rw [hg2]; exact Int.gcd_dvd_right ..
    by_cases cz : z.tmod g ≠ 0
    · rw [if_pos cz]
      refine dead ?_
      rintro ⟨x, y, e⟩
      apply cz
      apply Int.tmod_eq_zero_of_dvd
      rw [← e, ea, eb]
      exact ⟨a' * x + b' * y, by ring⟩
    · rw [if_neg cz]
      obtain ⟨z', ez⟩ : g ∣ z := Int.dvd_of_tmod_eq_zero (by omega)
      have hu : a' * x + b' * y = 1 := by
        have : g * (a' * x + b' * y) = g * 1 := by
          rw [ea, eb] at hg1
          linarith
        exact Int.eq_of_mul_eq_mul_left c0 this
      have habs : ∀ u v : Int, u = g * v → |v| ≤ |u| := by
        intro u v e
        rw [e, abs_mul, abs_of_pos hgp]
        nlinarith [abs_nonneg v]
      have a1 := habs a a' ea
      have b1 := habs b b' eb
      have z1 := habs z z' ez
      have b0 : b' ≠ 0 := by
        intro h
        have : b = 0 := by rw [eb, h, mul_zero]
        have := hab this
        rw [ea] at this
        rcases mul_eq_zero.mp this with h' | h'
        · exact c0 h'
        · rw [h, h'] at hu
          omega
      have eb' : b.tdiv g = b' := by rw [eb, Int.mul_tdiv_cancel_left _ c0]
      have ea' : (-a).tdiv g = -a' := by rw [ea, ← mul_neg, Int.mul_tdiv_cancel_left _ c0]
      have ez' : z.tdiv g = z' := by rw [ez, Int.mul_tdiv_cancel_left _ c0]
      have k1 := abs_lt.mp (lt_of_le_of_lt a1 ha')
      have k2 := abs_lt.mp (lt_of_le_of_lt b1 hb')
      have k3 := abs_lt.mp (lt_of_le_of_lt z1 hz')
      unfold Small at ha
      rw [eb', i64_ok (by omega), ok_bind, i64_ok (by omega), ok_bind, ea', i64_ok (by omega), ok_bind, ez', i64_ok (by omega), ok_bind]
      have big : ∀ u : Int, |u| < 2 ^ 63 → |u * z'| < 2 ^ 124 := by
        intro u hu
        rw [abs_mul]
        nlinarith [abs_nonneg u, abs_nonneg z']
      have hX := big x hx
      have hY := big y hy
      generalize hx0 : x * z' = x0 at *
      generalize hy0 : y * z' = y0 at *
      rw [i128_abs (by omega), ok_bind, i128_abs (by omega), ok_bind, i128_abs (by rw [abs_neg]; omega), ok_bind, if_neg b0]
      obtain ⟨f1, f2, f3, f4, f5⟩ := tdiv_facts (x := -x0) b0
      have f6 := tdiv_bounds (-x0) b'
      generalize hk0 : (-x0).tdiv b' = k0 at *
      generalize hr : (-x0).tmod b' = r at *
      have e1 : x0 + k0 * b' = -r := by linarith
      have hr1 : |-r| < |b'| := by
        rw [abs_neg]
        rcases lt_or_gt_of_ne b0 with h | h
        · have := f5 h
          rw [abs_of_neg h]
          exact abs_lt.mpr (by omega)
        · have := f4 h
          rw [abs_of_pos h]
          exact abs_lt.mpr (by omega)
      have e2 : a' * (-r) + b' * (y0 + k0 * -a') = z' := by
        rw [← e1, ← hx0, ← hy0]
        linear_combination z' * hu
      have hyb := y_bound b0 e2 hr1
      generalize hy1 : y0 + k0 * -a' = y1 at *
      have e3 : k0 * -a' = y1 - y0 := by linarith
      have h6 : |k0| ≤ |x0| := by
        rw [abs_le, Int.abs_eq_natAbs]
        rw [Int.natAbs_neg] at f6
        exact f6
      have e4 : k0 * b' = -r - x0 := by linarith
      have hX' := hX
      rw [abs_lt] at hr1 hX hY
      rw [abs_le] at hyb h6
      have hb1 := abs_lt.mp hb'
      rw [i128_ok (by omega), ok_bind, e4, i128_ok (by omega), ok_bind, show x0 + (-r - x0) = -r by ring, i128_ok (by omega), ok_bind, e3, i128_ok (by omega), ok_bind,
        show y0 + (y1 - y0) = y1 by ring, i128_ok (by omega), ok_bind, toI64_eq (by omega), toI64_eq (by omega)]
      refine Tot.pure (Or.inl ⟨Or.inl ⟨rfl, ?_, b0, ?_⟩, ?_, ?_, axOk_init ?_, axOk_init ?_, fun _ => ⟨rfl, rfl⟩⟩)
      · intro X Y
        show _ ↔ ∃ k, X = -r + k * b' ∧ Y = y1 + k * -a'
        rw [← sol_iff hu e2 X Y]
        rw [ea, eb, ez]
        constructor
        · intro h
          exact Int.eq_of_mul_eq_mul_left c0 (by linarith)
        · intro h
          rw [← h]
          ring
      · intro h
        have h' : a' = 0 := by
          have : -a' = 0 := h
          omega
        rw [h', zero_mul, zero_add] at hu
        exact Int.eq_one_or_neg_one_of_mul_eq_one hu
      · show _ < -r ∧ -r < _
        omega
      · show _ < y1 ∧ y1 < _
        omega
      · intro k c hc
        cases hc
      · intro k c hc
        cases hc

/-! ## Questions -/

theorem lin_solves {a b z : Int} {cs : List Con} {s : Sol} (h : Alive a b z cs s) (ht : s.t = .linear) (x y : Int) :
    Solves a b z cs x y ↔ ∃ k, x = s.x0 + k * s.cx ∧ y = s.y0 + k * s.cy ∧ Rng (max s.kxmin s.kymin) (min s.kxmax s.kymax) k := by
  have hr : ∀ k, Rng (max s.kxmin s.kymin) (min s.kxmax s.kymax) k ↔ CX cs (s.x0 + k * s.cx) ∧ CY cs (s.y0 + k * s.cy) := by
    intro k
    have := h.ax.lo1
    have := h.ay.lo1
    have := h.ax.hi2
    have := h.ay.hi2
    rw [h.ax.iff k, h.ay.iff k]
    unfold Rng
    omega
  rw [solves_iff]
  rcases h.kind with ⟨-, hs, -, -⟩ | ⟨hk, -⟩
  · rw [hs]
    constructor
    · rintro ⟨⟨k, rfl, rfl⟩, h1⟩
      exact ⟨k, rfl, rfl, (hr k).mpr h1⟩
    · rintro ⟨k, rfl, rfl, h1⟩
      exact ⟨⟨k, rfl, rfl⟩, (hr k).mp h1⟩
  · rw [ht] at hk
    cases hk

theorem arb_solves {a b z : Int} {cs : List Con} {s : Sol} (h : Alive a b z cs s) (ht : s.t = .arbitrary) (x y : Int) :
    Solves a b z cs x y ↔ Rng s.kxmin s.kxmax x ∧ Rng s.kymin s.kymax y := by
  rcases h.kind with ⟨hk, -⟩ | ⟨-, h1, h2, h3, h4, h5, h6, h7⟩
  · rw [ht] at hk
    cases hk
  · rw [solves_iff, ← h.ax.iff x, ← h.ay.iff y, h4, h5, h6, h7, h1, h2, h3]
    simp

theorem dead_solves {a b z : Int} {cs : List Con} (h : ¬ (XSat a b z cs ∧ YSat a b z cs)) (x y : Int) : ¬ Solves a b z cs x y := by
  rw [solves_iff]
  rintro ⟨h1, h2, h3⟩
  exact h ⟨⟨x, y, h1, h2⟩, ⟨x, y, h1, h3⟩⟩

theorem Alive.bounds {a b z : Int} {cs : List Con} {s : Sol} (h : Alive a b z cs s) :
    neginf ≤ max s.kxmin s.kymin ∧ max s.kxmin s.kymin < posinf ∧ neginf < min s.kxmax s.kymax ∧ min s.kxmax s.kymax ≤ posinf :=
  ⟨le_max_of_le_left h.ax.lo1, max_lt h.ax.lo2 h.ay.lo2, lt_min h.ax.hi1 h.ay.hi1, min_le_of_left_le h.ax.hi2⟩

theorem Alive.cases {a b z : Int} {cs : List Con} {s : Sol} (h : Alive a b z cs s) : s.t = .linear ∨ s.t = .arbitrary := by
  rcases h.kind with h | h
  · exact Or.inl h.1
  · exact Or.inr h.1

theorem hasSolution_iff {a b z : Int} {cs : List Con} {s : Sol} (h : Rep a b z cs s) : hasSolution s = true ↔ ∃ x y, Solves a b z cs x y := by
  unfold hasSolution
  rcases h with h | ⟨ht, h⟩
  · rcases h.cases with ht | ht
    · rw [ht]
      dsimp only
      unfold kRange
      dsimp only
      simp only [lin_solves h ht]
      obtain ⟨b1, b2, b3, b4⟩ := h.bounds
      by_cases c : max s.kxmin s.kymin ≤ min s.kxmax s.kymax
      · rw [if_pos c]
        exact ⟨fun _ => ⟨_, _, _, rfl, rfl, rng_lo c⟩, fun _ => rfl⟩
      · rw [if_neg c]
        refine ⟨fun h => (by cases h), ?_⟩
        rintro ⟨_, _, k, -, -, hk⟩
        exact absurd hk (rng_empty b3 b2 (not_le.mp c) k)
    · rw [ht]
      exact ⟨fun _ => ⟨_, _, (arb_solves h ht _ _).mpr ⟨rng_lo h.ax.le, rng_lo h.ay.le⟩⟩, fun _ => rfl⟩
  · rw [ht]
    refine ⟨fun h => (by cases h), ?_⟩
    rintro ⟨x, y, hs⟩
    exact absurd hs (dead_solves h x y)

theorem rng_infinite {lo hi : Int} (h : lo = neginf ∨ hi = posinf) : {k | Rng lo hi k}.Infinite := by
  rcases h with h | h
  · exact (Set.Iic_infinite hi).mono fun k hk => ⟨Or.inl h, Or.inr hk⟩
  · exact (Set.Ici_infinite lo).mono fun k hk => ⟨Or.inr hk, Or.inl h⟩

theorem rng_finite {lo hi : Int} (h1 : lo ≠ neginf) (h2 : hi ≠ posinf) : {k | Rng lo hi k} = Set.Icc lo hi := by
  ext k
  simp only [Rng, h1, h2, false_or, Set.mem_setOf_eq, Set.mem_Icc]

theorem ncard_Icc {lo hi : Int} (h : lo ≤ hi) : ((Set.Icc lo hi).ncard : Int) = hi - lo + 1 := by
  rw [← Finset.coe_Icc, Set.ncard_coe_finset, Int.card_Icc, Int.toNat_of_nonneg (by omega)]
  ring

theorem countOk_empty {S : Set (Int × Int)} (h : ∀ p, p ∉ S) : CountOk S (some 0) := by
  have : S = ∅ := Set.eq_empty_iff_forall_notMem.mpr h
  rw [this]
  exact Or.inr ⟨0, rfl, Set.finite_empty, by simp⟩

theorem count_tot {a b z : Int} {cs : List Con} {s : Sol} (h : Rep a b z cs s) (hab : ¬ (a = 0 ∧ b = 0)) : Tot (count s) (CountOk (solSet a b z cs)) := by
  unfold count
  rcases h with h | ⟨ht, h⟩
  · have ht : s.t = .linear := by
      rcases h.kind with h | h
      · exact h.1
      · exact absurd ⟨h.2.1, h.2.2.1⟩ hab
    have hcx : s.cx ≠ 0 := by
      rcases h.kind with h | h
      · exact h.2.2.1
      · exact absurd ⟨h.2.1, h.2.2.1⟩ hab
    rw [ht]
    dsimp only
    unfold kRange
    dsimp only
    obtain ⟨b1, b2, b3, b4⟩ := h.bounds
    have hS : solSet a b z cs = (fun k => (s.x0 + k * s.cx, s.y0 + k * s.cy)) '' {k | Rng (max s.kxmin s.kymin) (min s.kxmax s.kymax) k} := by
      ext ⟨x, y⟩
      show Solves a b z cs x y ↔ _
      rw [lin_solves h ht]
      constructor
      · rintro ⟨k, rfl, rfl, hk⟩
        exact ⟨k, hk, rfl⟩
      · rintro ⟨k, hk, e⟩
        injection e with e1 e2
        exact ⟨k, e1.symm, e2.symm, hk⟩
    have hinj : Function.Injective (fun k => (s.x0 + k * s.cx, s.y0 + k * s.cy)) := by
      intro k k' e
      injection e with e1 e2
      exact Int.eq_of_mul_eq_mul_right hcx (by omega)
    generalize max s.kxmin s.kymin = kl at *
    generalize min s.kxmax s.kymax = kr at *
    by_cases c : kl ≤ kr
    · rw [if_pos c]
      dsimp only
      by_cases c' : kl = neginf ∨ kr = posinf
      · rw [if_pos c']
        refine Tot.pure (Or.inl ⟨rfl, ?_⟩)
        rw [hS]
        exact (rng_infinite c').image hinj.injOn
      · rw [if_neg c']
        have h1 : kl ≠ neginf := fun e => c' (Or.inl e)
        have h2 : kr ≠ posinf := fun e => c' (Or.inr e)
        rw [rng_finite h1 h2] at hS
        unfold neginf posinf at *
        rw [i64_ok (by omega), ok_bind, i64_ok (by omega), ok_bind]
        refine Tot.pure (Or.inr ⟨_, rfl, ?_, ?_⟩)
        · rw [hS]
          exact (Set.finite_Icc _ _).image _
        · rw [hS, Set.ncard_image_of_injective _ hinj, ncard_Icc c]
    · rw [if_neg c]
      refine Tot.pure (countOk_empty ?_)
      rintro ⟨x, y⟩ hs
      obtain ⟨k, -, -, hk⟩ := (lin_solves h ht x y).mp hs
      rw [hS] at hs
      obtain ⟨k, hk, -⟩ := hs
      exact rng_empty b3 b2 (not_le.mp c) k hk
  · rw [ht]
    exact Tot.pure (countOk_empty fun p => dead_solves h p.1 p.2)

theorem count_arb {z : Int} {cs : List Con} {s : Sol} (h : Rep 0 0 z cs s) (hf : (solSet 0 0 z cs).Finite) (hc : (solSet 0 0 z cs).ncard < 2 ^ 63) :
    count s = .ok (some ((solSet 0 0 z cs).ncard : Int)) := by
  unfold count
  rcases h with h | ⟨ht, h⟩
  · have ht : s.t = .arbitrary := by
      rcases h.kind with h | h
      · exfalso
        obtain ⟨-, h2, h3, h4⟩ := h
        have e := (h2 s.x0 s.y0).mpr ⟨0, by simp, by simp⟩
        simp only [zero_mul, zero_add] at e
        obtain ⟨k, e1, e2⟩ := (h2 (s.x0 + 1) s.y0).mp (by simpa using e)
        obtain ⟨k', e1', e2'⟩ := (h2 s.x0 (s.y0 + 1)).mp (by simpa using e)
        have : k' * s.cx = 0 := by omega
        rcases mul_eq_zero.mp this with h | h
        · rw [h] at e2'
          omega
        · exact h3 h
      · exact h.1
    rw [ht]
    dsimp only
    have hS : solSet 0 0 z cs = {k | Rng s.kxmin s.kxmax k} ×ˢ {k | Rng s.kymin s.kymax k} := by
      ext ⟨x, y⟩
      exact arb_solves h ht x y
    have nx : {k | Rng s.kxmin s.kxmax k}.Nonempty := ⟨_, rng_lo h.ax.le⟩
    have ny : {k | Rng s.kymin s.kymax k}.Nonempty := ⟨_, rng_lo h.ay.le⟩
    have fx : {k | Rng s.kxmin s.kxmax k}.Finite := by
      rw [hS] at hf
      exact hf.of_prod_left ny
    have fy : {k | Rng s.kymin s.kymax k}.Finite := by
      rw [hS] at hf
      exact hf.of_prod_right nx
    have x1 : ¬ (s.kxmin = neginf ∨ s.kxmax = posinf) := fun c => rng_infinite c fx
    have y1 : ¬ (s.kymin = neginf ∨ s.kymax = posinf) := fun c => rng_infinite c fy
    rw [rng_finite (fun e => x1 (Or.inl e)) (fun e => x1 (Or.inr e)), rng_finite (fun e => y1 (Or.inl e)) (fun e => y1 (Or.inr e))] at hS
    have hcard : ((solSet 0 0 z cs).ncard : Int) = (s.kxmax - s.kxmin + 1) * (s.kymax - s.kymin + 1) := by
      rw [hS, Set.ncard_prod, Nat.cast_mul, ncard_Icc h.ax.le, ncard_Icc h.ay.le]
    have := h.ax.lo1
    have := h.ax.hi2
    have := h.ay.lo1
    have := h.ay.hi2
    have := h.ax.le
    have := h.ay.le
    unfold neginf posinf at *
    rw [i64_ok (by omega), ok_bind, i64_ok (by omega), ok_bind, i64_ok (by omega), ok_bind, i64_ok (by omega), ok_bind, ← hcard, i64_ok (by omega), ok_bind]
    rfl
  · rw [ht]
    have : solSet 0 0 z cs = ∅ := Set.eq_empty_iff_forall_notMem.mpr fun p => dead_solves h p.1 p.2
    rw [this]
    simp

/-! ## Extreme solutions -/

theorem pick_lo {lo hi k : Int} (hlo : lo < posinf) (h : Rng lo hi k) (hm : ∀ k', Rng lo hi k' → k ≤ k') : k = lo := by
  obtain ⟨h1, h2⟩ := h
  rcases h1 with h1 | h1
  · have := hm (k - 1) ⟨Or.inl h1, by omega⟩
    omega
  · have := hm lo ⟨Or.inr (le_refl _), by omega⟩
    omega

theorem pick_hi {lo hi k : Int} (h : Rng lo hi k) (hm : ∀ k', Rng lo hi k' → k' ≤ k) : k = hi := by
  obtain ⟨h1, h2⟩ := h
  rcases h2 with h2 | h2
  · have := hm (k + 1) ⟨by omega, Or.inl h2⟩
    omega
  · have := hm hi ⟨by omega, Or.inr (le_refl _)⟩
    omega

theorem pick_min {lo hi k w c : Int} (hlo : lo < posinf) (hc : c ≠ 0) (h : Rng lo hi k) (hm : ∀ k', Rng lo hi k' → w + k * c ≤ w + k' * c) : k = if c ≥ 0 then lo else hi := by
  split_ifs with h'
  · refine pick_lo hlo h fun k' hk' => ?_
    have := hm k' hk'
    have hp : 0 < c := by omega
    exact le_of_mul_le_mul_right (by omega) hp
  · refine pick_hi h fun k' hk' => ?_
    have := hm k' hk'
    have hp : c < 0 := by omega
    exact le_of_mul_le_mul_right (a := -c) (by linarith) (by omega)

theorem pick_max {lo hi k w c : Int} (hlo : lo < posinf) (hc : c ≠ 0) (h : Rng lo hi k) (hm : ∀ k', Rng lo hi k' → w + k' * c ≤ w + k * c) : k = if c ≤ 0 then lo else hi := by
  have := pick_min (w := -w) (c := -c) hlo (by omega) h (fun k' hk' => by have := hm k' hk'; linarith)
  rw [this]
  by_cases h' : c ≤ 0
  · rw [if_pos h', if_pos (by omega)]
  · rw [if_neg h', if_neg (by omega)]

theorem rng_any {lo hi : Int} (h : lo ≤ hi) : Rng lo hi (anyK lo hi) := by
  unfold anyK
  split_ifs with h1 h2
  · exact rng_lo h
  · exact rng_hi h
  · exact ⟨Or.inl (not_ne_iff.mp h1), Or.inl (not_ne_iff.mp h2)⟩

theorem any_bound {lo hi : Int} (h1 : neginf ≤ lo) (h2 : lo < posinf) (h3 : neginf < hi) (h4 : hi ≤ posinf) : -2 ^ 62 ≤ anyK lo hi ∧ anyK lo hi ≤ 2 ^ 62 := by
  unfold neginf posinf at *
  unfold anyK
  split_ifs <;> omega

theorem getPair_ok {s : Sol} {k : Int} (hx : -2 ^ 61 < s.x0 ∧ s.x0 < 2 ^ 61) (hy : -2 ^ 61 < s.y0 ∧ s.y0 < 2 ^ 61)
    (h1 : -2 ^ 62 < s.x0 + k * s.cx ∧ s.x0 + k * s.cx < 2 ^ 62) (h2 : -2 ^ 62 < s.y0 + k * s.cy ∧ s.y0 + k * s.cy < 2 ^ 62) :
    getPair s k = .ok (s.x0 + k * s.cx, s.y0 + k * s.cy) := by
  unfold getPair getX getY
  rw [i64_ok (by omega), ok_bind, i64_ok (by omega), ok_bind, i64_ok (by omega), ok_bind, i64_ok (by omega), ok_bind]
  rfl

theorem xmin_ok {a b z : Int} {cs : List Con} {s : Sol} (h : Rep a b z cs s) {x y : Int} (hs : Solves a b z cs x y) (hm : ∀ x' y', Solves a b z cs x' y' → x ≤ x') (hf : Fit x y) :
    ∃ y', xminSolution s = .ok (x, y') ∧ Solves a b z cs x y' := by
  have hh := (hasSolution_iff h).mpr ⟨x, y, hs⟩
  unfold xminSolution
  rw [hh, check_true, ok_bind]
  rcases h with h | ⟨ht, h⟩
  · rcases h.cases with ht | ht
    · have hcx : s.cx ≠ 0 := by
        rcases h.kind with h | h
        · exact h.2.2.1
        · rw [ht] at h
          exact absurd h.1 (by decide)
      obtain ⟨k, rfl, rfl, hk⟩ := (lin_solves h ht x y).mp hs
      obtain ⟨b1, b2, b3, b4⟩ := h.bounds
      have e := pick_min (w := s.x0) b2 hcx hk fun k' hk' => hm _ _ ((lin_solves h ht _ _).mpr ⟨k', rfl, rfl, hk'⟩)
      have c : max s.kxmin s.kymin ≤ min s.kxmax s.kymax := by
        by_contra c
        exact rng_empty b3 b2 (not_le.mp c) k hk
      rw [if_neg (by rw [ht]; decide), show kRange s = some (max s.kxmin s.kymin, min s.kxmax s.kymax) from if_pos c]
      dsimp only
      rw [if_neg hcx, ← e, getPair_ok h.bx h.by' hf.1 hf.2]
      exact ⟨_, rfl, hs⟩
    · rw [if_pos ht]
      have hs' := (arb_solves h ht x y).mp hs
      have e := pick_lo h.ax.lo2 hs'.1 fun k' hk' => hm k' y ((arb_solves h ht _ _).mpr ⟨hk', hs'.2⟩)
      rw [e]
      exact ⟨_, rfl, (arb_solves h ht _ _).mpr ⟨rng_lo h.ax.le, rng_lo h.ay.le⟩⟩
  · exact absurd hs (dead_solves h x y)

theorem xmax_ok {a b z : Int} {cs : List Con} {s : Sol} (h : Rep a b z cs s) {x y : Int} (hs : Solves a b z cs x y) (hm : ∀ x' y', Solves a b z cs x' y' → x' ≤ x) (hf : Fit x y) :
    ∃ y', xmaxSolution s = .ok (x, y') ∧ Solves a b z cs x y' := by
  have hh := (hasSolution_iff h).mpr ⟨x, y, hs⟩
  unfold xmaxSolution
  rw [hh, check_true, ok_bind]
  rcases h with h | ⟨ht, h⟩
  · rcases h.cases with ht | ht
    · have hcx : s.cx ≠ 0 := by
        rcases h.kind with h | h
        · exact h.2.2.1
        · rw [ht] at h
          exact absurd h.1 (by decide)
      obtain ⟨k, rfl, rfl, hk⟩ := (lin_solves h ht x y).mp hs
      obtain ⟨b1, b2, b3, b4⟩ := h.bounds
      have e := pick_max (w := s.x0) b2 hcx hk fun k' hk' => hm _ _ ((lin_solves h ht _ _).mpr ⟨k', rfl, rfl, hk'⟩)
      have c : max s.kxmin s.kymin ≤ min s.kxmax s.kymax := by
        by_contra c
        exact rng_empty b3 b2 (not_le.mp c) k hk
      rw [if_neg (by rw [ht]; decide), show kRange s = some (max s.kxmin s.kymin, min s.kxmax s.kymax) from if_pos c]
      dsimp only
      rw [if_neg hcx, ← e, getPair_ok h.bx h.by' hf.1 hf.2]
      exact ⟨_, rfl, hs⟩
    · rw [if_pos ht]
      have hs' := (arb_solves h ht x y).mp hs
      have e := pick_hi hs'.1 fun k' hk' => hm k' y ((arb_solves h ht _ _).mpr ⟨hk', hs'.2⟩)
      rw [e]
      exact ⟨_, rfl, (arb_solves h ht _ _).mpr ⟨rng_hi h.ax.le, rng_hi h.ay.le⟩⟩
  · exact absurd hs (dead_solves h x y)

theorem any_ok {a b z : Int} {cs : List Con} {s : Sol} (h : Alive a b z cs s) (ht : s.t = .linear) (hcy : s.cy = 0)
    (c : max s.kxmin s.kymin ≤ min s.kxmax s.kymax) : ∃ x, getPair s (anyK (max s.kxmin s.kymin) (min s.kxmax s.kymax)) = .ok (x, s.y0) ∧ Solves a b z cs x s.y0 := by
  obtain ⟨b1, b2, b3, b4⟩ := h.bounds
  have hb := any_bound b1 b2 b3 b4
  have hR := rng_any c
  generalize anyK (max s.kxmin s.kymin) (min s.kxmax s.kymax) = k at *
  refine ⟨s.x0 + k * s.cx, ?_, (lin_solves h ht _ _).mpr ⟨k, rfl, by rw [hcy]; ring, hR⟩⟩
  have hcx : s.cx = 1 ∨ s.cx = -1 := by
    rcases h.kind with h | h
    · exact h.2.2.2 hcy
    · exact Or.inl h.2.2.2.2.2.1
  have hbx := h.bx
  have hby := h.by'
  have hk : -2 ^ 62 ≤ k * s.cx ∧ k * s.cx ≤ 2 ^ 62 := by
    rcases hcx with e | e <;> rw [e] <;> omega
  unfold getPair getX getY
  rw [hcy, i64_ok (by omega), ok_bind, i64_ok (by omega), ok_bind, mul_zero, i64_ok (by omega), ok_bind, add_zero, i64_ok (by omega), ok_bind]
  rfl

theorem ymin_ok {a b z : Int} {cs : List Con} {s : Sol} (h : Rep a b z cs s) {x y : Int} (hs : Solves a b z cs x y) (hm : ∀ x' y', Solves a b z cs x' y' → y ≤ y') (hf : Fit x y) :
    ∃ x', yminSolution s = .ok (x', y) ∧ Solves a b z cs x' y := by
  have hh := (hasSolution_iff h).mpr ⟨x, y, hs⟩
  unfold yminSolution
  rw [hh, check_true, ok_bind]
  rcases h with h | ⟨ht, h⟩
  · rcases h.cases with ht | ht
    · obtain ⟨k, rfl, rfl, hk⟩ := (lin_solves h ht x y).mp hs
      obtain ⟨b1, b2, b3, b4⟩ := h.bounds
      have c : max s.kxmin s.kymin ≤ min s.kxmax s.kymax := by
        by_contra c
        exact rng_empty b3 b2 (not_le.mp c) k hk
      rw [if_neg (by rw [ht]; decide), show kRange s = some (max s.kxmin s.kymin, min s.kxmax s.kymax) from if_pos c]
      dsimp only
      by_cases hcy : s.cy = 0
      · rw [if_pos hcy]
        have e : s.y0 + k * s.cy = s.y0 := by rw [hcy]; ring
        rw [e]
        exact any_ok h ht hcy c
      · have e := pick_min (w := s.y0) b2 hcy hk fun k' hk' => hm _ _ ((lin_solves h ht _ _).mpr ⟨k', rfl, rfl, hk'⟩)
        rw [if_neg hcy, ← e, getPair_ok h.bx h.by' hf.1 hf.2]
        exact ⟨_, rfl, hs⟩
    · rw [if_pos ht]
      have hs' := (arb_solves h ht x y).mp hs
      have e := pick_lo h.ay.lo2 hs'.2 fun k' hk' => hm x k' ((arb_solves h ht _ _).mpr ⟨hs'.1, hk'⟩)
      rw [e]
      exact ⟨_, rfl, (arb_solves h ht _ _).mpr ⟨rng_lo h.ax.le, rng_lo h.ay.le⟩⟩
  · exact absurd hs (dead_solves h x y)

theorem ymax_ok {a b z : Int} {cs : List Con} {s : Sol} (h : Rep a b z cs s) {x y : Int} (hs : Solves a b z cs x y) (hm : ∀ x' y', Solves a b z cs x' y' → y' ≤ y) (hf : Fit x y) :
    ∃ x', ymaxSolution s = .ok (x', y) ∧ Solves a b z cs x' y := by
  have hh := (hasSolution_iff h).mpr ⟨x, y, hs⟩
  unfold ymaxSolution
  rw [hh, check_true, ok_bind]
  rcases h with h | ⟨ht, h⟩
  · rcases h.cases with ht | ht
    · obtain ⟨k, rfl, rfl, hk⟩ := (lin_solves h ht x y).mp hs
      obtain ⟨b1, b2, b3, b4⟩ := h.bounds
      have c : max s.kxmin s.kymin ≤ min s.kxmax s.kymax := by
        by_contra c
        exact rng_empty b3 b2 (not_le.mp c) k hk
      rw [if_neg (by rw [ht]; decide), show kRange s = some (max s.kxmin s.kymin, min s.kxmax s.kymax) from if_pos c]
      dsimp only
      by_cases hcy : s.cy = 0
      · rw [if_pos hcy]
        have e : s.y0 + k * s.cy = s.y0 := by rw [hcy]; ring
        rw [e]
        exact any_ok h ht hcy c
      · have e := pick_max (w := s.y0) b2 hcy hk fun k' hk' => hm _ _ ((lin_solves h ht _ _).mpr ⟨k', rfl, rfl, hk'⟩)
        rw [if_neg hcy, ← e, getPair_ok h.bx h.by' hf.1 hf.2]
        exact ⟨_, rfl, hs⟩
    · rw [if_pos ht]
      have hs' := (arb_solves h ht x y).mp hs
      have e := pick_hi hs'.2 fun k' hk' => hm x k' ((arb_solves h ht _ _).mpr ⟨hs'.1, hk'⟩)
      rw [e]
      exact ⟨_, rfl, (arb_solves h ht _ _).mpr ⟨rng_hi h.ax.le, rng_hi h.ay.le⟩⟩
  · exact absurd hs (dead_solves h x y)

theorem run_tot {a b z : Int} (ha : Small a) (hb : Small b) (hz : Small z) (hab : b = 0 → a = 0) (ops : List Op) (ho : ∀ c ∈ cons ops, Small c.bound) :
    Tot (run a b z ops) (Rep a b z (cons ops)) := by
  unfold run
  refine Tot.bind (solve_tot ha hb hz hab) ?_
  intro s hs
  have : ∀ (ops : List Op) (s : Sol) (cs : List Con), Rep a b z cs s → (∀ c ∈ cons ops, Small c.bound) → Tot (ops.foldlM (fun s o => do return (← step s o).1) s) (Rep a b z (cs ++ cons ops)) := by
    intro ops
    induction ops with
    | nil =>
      intro s cs h _
      simpa [cons] using Tot.pure h
    | cons o ops ih =>
      intro s cs h ho
      rw [List.foldlM_cons]
      have e : cons (o :: ops) = o.cons ++ cons ops := rfl
      rw [e, ← List.append_assoc]
      rw [e] at ho
      refine Tot.bind (Tot.bind (step_tot h fun c hc => ho c (List.mem_append_left _ hc)) fun p hp => Tot.pure hp.1) fun s' hs' => ?_
      exact ih s' _ hs' fun c hc => ho c (List.mem_append_right _ hc)
  simpa using this ops s [] hs ho

theorem cx_filter {cs : List Con} {x : Int} : CX cs x ↔ CX (cs.filter Con.isX) x ∧ ∀ y, CY (cs.filter Con.isX) y := by
  unfold CX CY
  constructor
  · intro h
    refine ⟨fun c hc => h c (List.mem_filter.mp hc).1, fun y c hc hx => ?_⟩
    rw [(List.mem_filter.mp hc).2] at hx
    cases hx
  · rintro ⟨h, -⟩ c hc hx
    exact h c (List.mem_filter.mpr ⟨hc, hx⟩) hx

theorem cy_filter {cs : List Con} {y : Int} : CY cs y ↔ CY (cs.filter fun c => !c.isX) y ∧ ∀ x, CX (cs.filter fun c => !c.isX) x := by
  unfold CX CY
  constructor
  · intro h
    refine ⟨fun c hc => h c (List.mem_filter.mp hc).1, fun y c hc hx => ?_⟩
    have := (List.mem_filter.mp hc).2
    rw [hx] at this
    cases this
  · rintro ⟨h, -⟩ c hc hx
    exact h c (List.mem_filter.mpr ⟨hc, by rw [hx]; rfl⟩) hx

theorem xsat_iff {a b z : Int} {cs : List Con} : XSat a b z cs ↔ ∃ x y, Solves a b z (cs.filter Con.isX) x y := by
  unfold XSat
  simp only [solves_iff]
  constructor
  · rintro ⟨x, y, e, h⟩
    exact ⟨x, y, e, (cx_filter.mp h).1, (cx_filter.mp h).2 y⟩
  · rintro ⟨x, y, e, h, -⟩
    refine ⟨x, y, e, cx_filter.mpr ⟨h, fun y' c hc hx => ?_⟩⟩
    rw [(List.mem_filter.mp hc).2] at hx
    cases hx

theorem ysat_iff {a b z : Int} {cs : List Con} : YSat a b z cs ↔ ∃ x y, Solves a b z (cs.filter fun c => !c.isX) x y := by
  unfold YSat
  simp only [solves_iff]
  constructor
  · rintro ⟨x, y, e, h⟩
    exact ⟨x, y, e, (cy_filter.mp h).2 x, (cy_filter.mp h).1⟩
  · rintro ⟨x, y, e, -, h⟩
    refine ⟨x, y, e, cy_filter.mpr ⟨h, fun x' c hc hx => ?_⟩⟩
    have := (List.mem_filter.mp hc).2
    rw [hx] at this
    cases this

end Bezout
