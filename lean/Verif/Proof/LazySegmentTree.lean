import Verif.Model.LazySegmentTree
import Verif.Proof.SegmentTree
import Mathlib.Algebra.Group.Action.Defs

/-! # LazySegmentTree: helper lemmas -/

namespace SegTree
open Cxx

/-! ### Heights -/

/-- Node `x` strictly straddles position `p`: `p` is strictly inside the interval of leaves of `x` at some height. -/
def Str (p x : Nat) : Prop := ∃ t, x * 2 ^ t < p ∧ p < (x + 1) * 2 ^ t

theorem str_up {p x : Nat} (h : Str p x) : Str p (x / 2) := by
  obtain ⟨t, h1, h2⟩ := h
  refine ⟨t + 1, ?_, ?_⟩
  · have : x / 2 * 2 ^ (t + 1) ≤ x * 2 ^ t := by
      rw [pow_succ, mul_comm (2 ^ t), ← mul_assoc]
      exact Nat.mul_le_mul_right _ (by omega)
    omega
  · have : (x + 1) * 2 ^ t ≤ (x / 2 + 1) * 2 ^ (t + 1) := by
      rw [pow_succ, mul_comm (2 ^ t), ← mul_assoc]
      exact Nat.mul_le_mul_right _ (by omega)
    omega

theorem div_eq_iff {x t k : Nat} : x / 2 ^ t = k ↔ k * 2 ^ t ≤ x ∧ x < (k + 1) * 2 ^ t := by
  have hp := pow_pos' t
  constructor
  · rintro rfl
    exact ⟨Nat.div_mul_le_self _ _, by rw [mul_comm]; exact Nat.lt_mul_div_succ x hp⟩
  · rintro ⟨h1, h2⟩
    exact Nat.div_eq_of_lt_le h1 h2

/-- The height of a node is determined by its index. -/
theorem height_unique {m j x d k t : Nat} (hm : m = 2 ^ j) (h1 : m ≤ k * 2 ^ t) (h2 : k * 2 ^ t < 2 * m) (hx1 : m ≤ x) (hx2 : x < 2 * m)
    (h : x / 2 ^ d = k) : d = t := by
  obtain ⟨a, b⟩ := div_eq_iff.1 h
  have e0 : 2 ^ (j + 1) = 2 * m := by rw [hm]; ring
  have hk : k ≠ 0 := by rintro rfl; rw [hm] at h1; have := pow_pos' j; omega
  rcases Nat.lt_trichotomy d t with hlt | heq | hgt
  · exfalso
    obtain ⟨c, rfl⟩ := Nat.exists_eq_add_of_lt hlt
    rcases mul_add_le (show k * 2 ^ (d + c + 1) < 2 ^ (j + 1) by rw [e0]; exact h2) with h3 | h3
    · have : 2 * ((k + 1) * 2 ^ d) ≤ (k + 1) * 2 ^ (d + c + 1) := by
        have : (k + 1) * 2 ^ (d + c + 1) = 2 ^ c * (2 * ((k + 1) * 2 ^ d)) := by ring
        rw [this]
        exact Nat.le_mul_of_pos_left _ (pow_pos' c)
      omega
    · exact hk h3
  · exact heq
  · exfalso
    obtain ⟨c, rfl⟩ := Nat.exists_eq_add_of_lt hgt
    have : 2 * (k * 2 ^ t) ≤ k * 2 ^ (t + c + 1) := by
      have : k * 2 ^ (t + c + 1) = 2 ^ c * (2 * (k * 2 ^ t)) := by ring
      rw [this]
      exact Nat.le_mul_of_pos_left _ (pow_pos' c)
    omega

/-- Nothing straddles the right end. -/
theorem str_lt {m j p x : Nat} (hm : m = 2 ^ j) (hp : p ≤ 2 * m) (hx : 1 ≤ x) (h : Str p x) : p < 2 * m := by
  rcases Nat.lt_or_ge p (2 * m) with h' | h'
  · exact h'
  · exfalso
    obtain ⟨t, a, b⟩ := h
    have e0 : 2 ^ (j + 1) = 2 * m := by rw [hm]; ring
    rcases mul_add_le (show x * 2 ^ t < 2 ^ (j + 1) by omega) with h3 | h3
    · omega
    · omega

theorem exists_odd {p : Nat} (hp : p ≠ 0) : ∃ q t, p = (2 * q + 1) * 2 ^ t := by
  induction p using Nat.strong_induction_on with
  | _ p ih =>
    rcases Nat.even_or_odd' p with ⟨c, rfl | rfl⟩
    · obtain ⟨q, t, h⟩ := ih c (by omega) (by omega)
      exact ⟨q, t + 1, by rw [h]; ring⟩
    · exact ⟨c, 0, by simp⟩

theorem lowbit_mul_pow (q t : Nat) : Bits.lowbit ((2 * q + 1) * 2 ^ t) = 2 ^ t := by
  induction t with
  | zero => simp [Bits.lowbit_odd]
  | succ t ih =>
    rw [show (2 * q + 1) * 2 ^ (t + 1) = 2 * ((2 * q + 1) * 2 ^ t) by ring, Bits.lowbit_even, ih]
    ring

theorem ctz_eq (q t : Nat) : Bits.ctz ((2 * q + 1) * 2 ^ t) = .ok t := by
  unfold Bits.ctz
  have := pow_pos' t
  rw [if_neg (Nat.mul_ne_zero (by omega) (by omega)), lowbit_mul_pow, Nat.log2_two_pow]

/-- The nodes `p >> i`, `i > ctz p`, are those that straddle `p`. -/
theorem str_iff_chain {p q c x : Nat} (hp : p = (2 * q + 1) * 2 ^ c) : Str p x ↔ ∃ t, c + 1 ≤ t ∧ x = p / 2 ^ t := by
  constructor
  · rintro ⟨t, h1, h2⟩
    refine ⟨t, ?_, (div_eq_iff.2 ⟨h1.le, h2⟩).symm⟩
    by_contra hc
    obtain ⟨d, rfl⟩ := Nat.exists_eq_add_of_le (show t ≤ c by omega)
    have : p = ((2 * q + 1) * 2 ^ d) * 2 ^ t := by rw [hp]; ring
    rw [this] at h1 h2
    have a := Nat.lt_of_mul_lt_mul_right h1
    have b := Nat.lt_of_mul_lt_mul_right h2
    omega
  · rintro ⟨t, ht, rfl⟩
    refine ⟨t, ?_, (div_eq_iff.1 rfl).2⟩
    refine lt_of_le_of_ne (div_eq_iff.1 rfl).1 fun e => ?_
    obtain ⟨d, rfl⟩ := Nat.exists_eq_add_of_le ht
    have h1 : 2 ^ (c + 1 + d) ∣ p := ⟨p / 2 ^ (c + 1 + d), by rw [mul_comm]; exact e.symm⟩
    have h2 : 2 ^ (c + 1) ∣ (2 * q + 1) * 2 ^ c := hp ▸ (Dvd.dvd.trans ⟨2 ^ d, by rw [pow_add]⟩ h1)
    rw [pow_succ, mul_comm (2 * q + 1)] at h2
    have := Nat.dvd_of_mul_dvd_mul_left (pow_pos' c) h2
    omega

end SegTree

namespace LazySegmentTree
open Cxx SegTree

variable {T F : Type} [Monoid T] [Monoid F] [MulAction F T]

/-- Multiplicative notation for the template parameters. -/
def prm (T F : Type) [Monoid T] [Monoid F] [MulAction F T] : Params T F := ⟨(· * ·), 1, (· • ·), (· * ·), 1⟩

/-- Product of the pending maps of `k` and its ancestors. -/
def up (Z : Nat → F) (k : Nat) : F := if h : k = 0 then 1 else up Z (k / 2) * Z k
termination_by k
decreasing_by omega

theorem up_zero (Z : Nat → F) : up Z 0 = 1 := by rw [up]; simp
theorem up_pos (Z : Nat → F) {k : Nat} (h : 1 ≤ k) : up Z k = up Z (k / 2) * Z k := by
  rw [up, dif_neg (by omega)]

theorem up_one {Z : Nat → F} {C : Nat → Prop} (hC : ∀ x, C x → 1 ≤ x / 2 → C (x / 2)) (hZ : ∀ x, 1 ≤ x → C x → Z x = 1) {x : Nat}
    (hx : x = 0 ∨ C x) : up Z x = 1 := by
  induction x using Nat.strong_induction_on with
  | _ x ih =>
    rcases Nat.eq_zero_or_pos x with rfl | h
    · exact up_zero Z
    · have hc : C x := by rcases hx with h' | h'; omega; exact h'
      rw [up_pos Z h, hZ x h hc, mul_one]
      apply ih _ (by omega)
      rcases Nat.eq_zero_or_pos (x / 2) with h' | h'
      · exact Or.inl h'
      · exact Or.inr (hC x hc h')

/-- True value of node `k`: all pending maps above it applied. -/
def V (A : Nat → T) (Z : Nat → F) (k : Nat) : T := up Z (k / 2) • A k

/-- `A`, `Z` views of a state. -/
abbrev dat (s : State T F) : Nat → T := at' 1 s.data
abbrev laz (s : State T F) : Nat → F := at' 1 s.lazy

/-- The tree represents the array `f`; nodes in `B` may be out of date. -/
structure Rep (B : Nat → Prop) (n m lg : Nat) (f : Nat → T) (s : State T F) : Prop where
  hn : s.n = n
  hsm : s.m = m
  hlg : s.lg = lg
  hm : m = 2 ^ lg
  hle : n ≤ m
  hsz : s.data.size = 2 * m
  hlz : s.lazy.size = m
  inv : ∀ k, 1 ≤ k → k < m → ¬ B k → dat s k = laz s k • (dat s (2 * k) * dat s (2 * k + 1))
  leaf : ∀ i, i < m → V (dat s) (laz s) (m + i) = f i
  pad : ∀ i, n ≤ i → f i = 1

variable {B : Nat → Prop} {n m lg : Nat} {f : Nat → T} {s : State T F}

theorem Rep.mono {B' : Nat → Prop} (h : Rep B n m lg f s) (hB : ∀ k, 1 ≤ k → k < m → B k → B' k) : Rep B' n m lg f s :=
  { h with inv := fun k a b c => h.inv k a b fun hb => c (hB k a b hb) }

theorem Rep.m_pos (h : Rep B n m lg f s) : 1 ≤ m := by rw [h.hm]; exact pow_pos' lg

/-- Sizes of the vectors. -/
structure Sz (n m lg : Nat) (s : State T F) : Prop where
  hn : s.n = n
  hsm : s.m = m
  hlg : s.lg = lg
  hsz : s.data.size = 2 * m
  hlz : s.lazy.size = m

theorem Rep.sz (h : Rep B n m lg f s) : Sz n m lg s := ⟨h.hn, h.hsm, h.hlg, h.hsz, h.hlz⟩

theorem allApply_eq (h : Sz n m lg s) {k : Nat} (hk : k < 2 * m) (φ : F) : ∃ s', allApply (prm T F) s k φ = .ok s' ∧
    Sz n m lg s' ∧
    (∀ x, dat s' x = if k = x then φ • dat s k else dat s x) ∧ (∀ x, laz s' x = if k = x ∧ k < m then φ * laz s k else laz s x) := by
  unfold allApply
  have h1 := h.hsz
  have h2 := h.hlz
  rw [rd_at 1 (by omega), ok_bind, wr_eq (by omega), ok_bind, h.hsm]
  split
  next hlt =>
    rw [rd_at 1 (by omega), ok_bind, wr_eq (by omega), ok_bind]
    refine ⟨_, rfl, ⟨h.hn, by simp [h.hsm], h.hlg, by simpa using h1, by simpa using h2⟩, fun x => at_set 1 (by omega) _ _, fun x => ?_⟩
    show at' 1 (s.lazy.setIfInBounds k _) x = _
    rw [at_set 1 (by omega)]
    simp only [hlt, and_true]
    rfl
  next hlt =>
    refine ⟨_, rfl, ⟨h.hn, by simp [h.hsm], h.hlg, by simpa using h1, h2⟩, fun x => at_set 1 (by omega) _ _, fun x => ?_⟩
    rw [if_neg (by omega)]

theorem laz_ge (h : Sz n m lg s) {x : Nat} (hx : m ≤ x) : laz s x = 1 := at_ge 1 (by rw [h.hlz]; exact hx)

theorem push_eq (h : Sz n m lg s) {k : Nat} (hk1 : 1 ≤ k) (hk : k < m) : ∃ s', push (prm T F) s k = .ok s' ∧ Sz n m lg s' ∧
    (∀ x, dat s' x = if x / 2 = k then laz s k • dat s x else dat s x) ∧
    (∀ x, laz s' x = if x = k then 1 else if x / 2 = k ∧ x < m then laz s k * laz s x else laz s x) := by
  unfold push
  have hz := h.hlz
  rw [rd_at 1 (by omega), ok_bind]
  obtain ⟨s1, e1, z1, a1, b1⟩ := allApply_eq h (show 2 * k < 2 * m by omega) (laz s k)
  rw [e1, ok_bind]
  have hz1 := z1.hlz
  rw [rd_at 1 (by omega), ok_bind]
  obtain ⟨s2, e2, z2, a2, b2⟩ := allApply_eq z1 (show 2 * k + 1 < 2 * m by omega) (laz s1 k)
  rw [e2, ok_bind]
  have hz2 := z2.hlz
  rw [wr_eq (by omega), ok_bind]
  have hk1 : laz s1 k = laz s k := by rw [b1, if_neg (by omega)]
  refine ⟨_, rfl, ⟨z2.hn, z2.hsm, z2.hlg, z2.hsz, by simpa using hz2⟩, fun x => ?_, fun x => ?_⟩
  · show dat s2 x = _
    rw [a2, a1, a1, hk1]
    by_cases c1 : 2 * k + 1 = x
    · subst c1
      rw [if_pos rfl, if_neg (by omega), if_pos (by omega)]
    · rw [if_neg c1]
      by_cases c2 : 2 * k = x
      · subst c2
        rw [if_pos rfl, if_pos (by omega)]
      · rw [if_neg c2, if_neg (by omega)]
  · show at' 1 (s2.lazy.setIfInBounds k _) x = _
    rw [at_set 1 (by omega)]
    by_cases c0 : k = x
    · rw [if_pos c0, if_pos c0.symm]; rfl
    · rw [if_neg c0, if_neg (Ne.symm c0)]
      show laz s2 x = _
      rw [b2, hk1, b1 (2 * k + 1), b1 x]
      by_cases c1 : 2 * k + 1 = x
      · subst c1
        rw [if_neg (show ¬ (2 * k = 2 * k + 1 ∧ 2 * k < m) by omega)]
        simp only [true_and, show (2 * k + 1) / 2 = k by omega]
      · rw [if_neg (show ¬ (2 * k + 1 = x ∧ 2 * k + 1 < m) by omega)]
        by_cases c2 : 2 * k = x
        · subst c2
          simp only [true_and, show (2 * k) / 2 = k by omega]
        · rw [if_neg (by omega), if_neg (by omega)]

theorem push_up {Z Z' : Nat → F} {k : Nat} (hk1 : 1 ≤ k)
    (hZ : ∀ x, Z' x = if x = k then 1 else if x / 2 = k ∧ x < m then Z k * Z x else Z x) (x : Nat) (hx : x < m) :
    up Z' x = if x = k then up Z (k / 2) else up Z x := by
  induction x using Nat.strong_induction_on with
  | _ x ih =>
    rcases Nat.eq_zero_or_pos x with rfl | hx0
    · rw [up_zero, if_neg (by omega), up_zero]
    · rw [up_pos Z' hx0, ih (x / 2) (by omega) (by omega), hZ x]
      by_cases c : x = k
      · subst c
        rw [if_neg (by omega), if_pos rfl, if_pos rfl, mul_one]
      · rw [if_neg c, if_neg c, up_pos Z hx0]
        by_cases c2 : x / 2 = k
        · rw [if_pos c2, if_pos ⟨c2, hx⟩, c2, up_pos Z hk1, mul_assoc]
        · rw [if_neg c2, if_neg (by tauto)]

/-- `push` changes no true value. -/
theorem push_tot (hd : ∀ (φ : F) (a b : T), φ • (a * b) = φ • a * φ • b) (h : Rep B n m lg f s) {k : Nat} (hk1 : 1 ≤ k) (hk : k < m)
    (hB : ¬ B k) :
    Tot (push (prm T F) s k) fun s' => Rep B n m lg f s' ∧ laz s' k = 1 ∧ (∀ x, laz s x = 1 → (x / 2 = k → laz s k = 1) → laz s' x = 1) := by
  obtain ⟨s', e, hz, ha, hb⟩ := push_eq h.sz hk1 hk
  refine Tot.of_eq e ⟨⟨hz.hn, hz.hsm, hz.hlg, h.hm, h.hle, hz.hsz, hz.hlz, ?_, ?_, h.pad⟩, ?_, ?_⟩
  · intro j h1 h2 h3
    rw [ha, ha, ha, hb]
    by_cases c : j = k
    · subst c
      rw [if_pos rfl, if_neg (by omega), if_pos (by omega), if_pos (by omega), one_smul, ← hd]
      exact h.inv j h1 h2 h3
    · rw [if_neg c, if_neg (show ¬ (2 * j / 2 = k) by omega), if_neg (show ¬ ((2 * j + 1) / 2 = k) by omega)]
      by_cases c2 : j / 2 = k
      · rw [if_pos c2, if_pos ⟨c2, h2⟩, mul_smul, ← h.inv j h1 h2 h3]
      · rw [if_neg c2, if_neg (by tauto)]
        exact h.inv j h1 h2 h3
  · intro i hi
    have hlm := h.m_pos
    rw [← h.leaf i hi]
    unfold V
    rw [push_up (m := m) hk1 hb _ (by omega), ha]
    by_cases c : (m + i) / 2 = k
    · rw [if_pos c, if_pos c, c, up_pos _ hk1, mul_smul]
    · rw [if_neg c, if_neg c]
  · rw [hb, if_pos rfl]
  · intro x h1 h2
    rw [hb]
    split
    · rfl
    · split
      next c => rw [h2 c.1, h1, mul_one]
      · exact h1

/-- The nodes `p >> t`, `t ≥ lo`. -/
def Ch (p lo x : Nat) : Prop := ∃ t, lo ≤ t ∧ x = p / 2 ^ t

theorem ch_up {p lo x : Nat} (h : Ch p lo x) : Ch p lo (x / 2) := by
  obtain ⟨t, h1, rfl⟩ := h
  exact ⟨t + 1, by omega, by rw [Nat.div_div_eq_div_mul, pow_succ]⟩

theorem div_pow_pos {p i : Nat} (hm : m = 2 ^ lg) (hp1 : m ≤ p) (hi : i ≤ lg) : 1 ≤ p / 2 ^ i := by
  rw [Nat.le_div_iff_mul_le (pow_pos' i), one_mul]
  exact (Nat.pow_le_pow_right (by omega) hi).trans (hm ▸ hp1)

theorem div_pow_lt {p i : Nat} (hp2 : p < 2 * m) (hi : 1 ≤ i) : p / 2 ^ i < m := by
  rw [Nat.div_lt_iff_lt_mul (pow_pos' i)]
  have := Nat.pow_le_pow_right (n := 2) (by omega) hi
  calc p < m * 2 ^ 1 := by omega
    _ ≤ m * 2 ^ i := Nat.mul_le_mul_left _ this

theorem forDown_empty {σ} {hi lo : Nat} (h : hi ≤ lo) (s : σ) (g : Nat → σ → M σ) : forDown hi lo s g = .ok s := by
  unfold forDown
  rw [Nat.sub_eq_zero_of_le h]; rfl

theorem forUp_empty {σ} {hi lo : Nat} (h : hi ≤ lo) (s : σ) (g : Nat → σ → M σ) : forUp lo hi s g = .ok s := by
  unfold forUp
  rw [Nat.sub_eq_zero_of_le h]; rfl

/-- Pushing along a path from the root: afterwards the path has no pending maps. -/
theorem pushChain_tot (hd : ∀ (φ : F) (a b : T), φ • (a * b) = φ • a * φ • b) (h : Rep (fun _ => False) n m lg f s) {p lo : Nat} (hp1 : m ≤ p)
    (hp2 : p < 2 * m ∨ lg < lo) (hlo : 1 ≤ lo) {C : Nat → Prop} (hC : ∀ x, C x → 1 ≤ x / 2 → C (x / 2)) (hCz : ∀ x, 1 ≤ x → C x → laz s x = 1) :
    Tot (pushChain (prm T F) s p lo) fun s' => Rep (fun _ => False) n m lg f s' ∧ ∀ x, 1 ≤ x → (C x ∨ (p < 2 * m ∧ Ch p lo x)) → laz s' x = 1 := by
  unfold pushChain
  rw [h.hlg]
  have hzero : ∀ t, lg < t → p < 2 * m → p / 2 ^ t = 0 := by
    intro t ht hp
    apply Nat.div_eq_of_lt
    have := Nat.pow_le_pow_right (n := 2) (by omega) (show lg + 1 ≤ t by omega)
    rw [pow_succ, ← h.hm] at this
    omega
  rcases Nat.lt_or_ge lg lo with hc | hc
  · rw [forDown_empty (by omega)]
    refine Tot.pure ⟨h, ?_⟩
    rintro x hx (hx' | ⟨hp, t, ht, rfl⟩)
    · exact hCz x hx hx'
    · rw [hzero t (by omega) hp] at hx; omega
  · have hp2 : p < 2 * m := by omega
    refine (Tot.forDown (P := fun i (s : State T F) => Rep (fun _ => False) n m lg f s ∧ ∀ x, 1 ≤ x → (C x ∨ Ch p i x) → laz s x = 1)
      (by omega) ⟨h, ?_⟩ ?_).mono ?_
    · rintro x hx (hx' | ⟨t, ht, rfl⟩)
      · exact hCz x hx hx'
      · rw [hzero t (by omega) hp2] at hx; omega
    · rintro i s h1 h2 ⟨h3, h4⟩
      rw [Nat.shiftRight_eq_div_pow]
      refine (push_tot hd h3 (div_pow_pos h3.hm hp1 (by omega)) (div_pow_lt hp2 (by omega)) id).mono ?_
      rintro s' ⟨r1, r2, r3⟩
      refine ⟨r1, ?_⟩
      rintro x hx hx'
      by_cases e : x = p / 2 ^ i
      · rw [e]; exact r2
      · have hx'' : C x ∨ Ch p (i + 1) x := by
          rcases hx' with hx' | ⟨t, ht, rfl⟩
          · exact Or.inl hx'
          · refine Or.inr ⟨t, ?_, rfl⟩
            rcases Nat.lt_or_ge i t with h | h
            · omega
            · exact absurd (by rw [show t = i by omega]) e
        refine r3 x (h4 x hx hx'') fun e2 => ?_
        have hpos := div_pow_pos h3.hm hp1 (show i ≤ lg by omega)
        refine h4 _ hpos ?_
        rw [← e2] at hpos ⊢
        rcases hx'' with hx'' | hx''
        · exact Or.inl (hC x hx'' hpos)
        · exact Or.inr (ch_up hx'')
    · rintro s' ⟨r1, r2⟩
      refine ⟨r1, ?_⟩
      rintro x hx (hx' | ⟨-, hx'⟩)
      · exact r2 x hx (Or.inl hx')
      · exact r2 x hx (Or.inr hx')

/-- Recomputing the nodes of a path, bottom up. -/
theorem updChain_tot {C : Nat → Prop} {p lo : Nat} (h : Rep (fun x => C x ∨ (p < 2 * m ∧ Ch p lo x)) n m lg f s) (hp1 : m ≤ p)
    (hp2 : p < 2 * m ∨ lg < lo) (hlo : 1 ≤ lo) (hz : ∀ x, 1 ≤ x → x < m → C x ∨ (p < 2 * m ∧ Ch p lo x) → laz s x = 1) :
    Tot (updChain (prm T F) s p lo) fun s' => Rep C n m lg f s' ∧ s'.lazy = s.lazy := by
  unfold updChain
  rw [h.hlg]
  have hzero : ∀ t, lg < t → p < 2 * m → p / 2 ^ t = 0 := by
    intro t ht hp
    apply Nat.div_eq_of_lt
    have := Nat.pow_le_pow_right (n := 2) (by omega) (show lg + 1 ≤ t by omega)
    rw [pow_succ, ← h.hm] at this
    omega
  rcases Nat.lt_or_ge lg lo with hc | hc
  · rw [forUp_empty (by omega)]
    refine Tot.pure ⟨h.mono ?_, rfl⟩
    rintro x hx hx2 (hx' | ⟨hp, t, ht, rfl⟩)
    · exact hx'
    · rw [hzero t (by omega) hp] at hx; omega
  · have hp2 : p < 2 * m := by omega
    refine (Tot.forUp (P := fun i (s' : State T F) => Rep (fun x => C x ∨ Ch p i x) n m lg f s' ∧ s'.lazy = s.lazy)
      (by omega) ⟨h.mono ?_, rfl⟩ ?_).mono ?_
    · rintro x - - (hx | ⟨-, hx⟩)
      · exact Or.inl hx
      · exact Or.inr hx
    · rintro i s' h1 h2 ⟨h3, h4⟩
      have k1 := div_pow_pos h3.hm hp1 (show i ≤ lg by omega)
      have k2 := div_pow_lt hp2 (show 1 ≤ i by omega)
      rw [Nat.shiftRight_eq_div_pow]
      set k := p / 2 ^ i with hk
      have hzk : laz s' k = 1 := by
        show at' 1 s'.lazy k = 1
        rw [h4]
        exact hz k k1 k2 (Or.inr ⟨hp2, i, h1, rfl⟩)
      unfold update
      have e : SegmentTree.update (prm T F).op s'.data k = _ := SegmentTree.update_tot h3.hsz k2
      rw [e, ok_bind]
      have ha : ∀ x, at' 1 (s'.data.setIfInBounds k (at' 1 s'.data (2 * k) * at' 1 s'.data (2 * k + 1))) x =
          if k = x then at' 1 s'.data (2 * k) * at' 1 s'.data (2 * k + 1) else at' 1 s'.data x := SegmentTree.update_at h3.hsz k2 _
      refine Tot.pure ⟨⟨h3.hn, h3.hsm, h3.hlg, h3.hm, h3.hle, by simpa using h3.hsz, h3.hlz, ?_, ?_, h3.pad⟩, h4⟩
      · intro j j1 j2 j3
        show at' 1 (s'.data.setIfInBounds k _) j = laz s' j • (at' 1 (s'.data.setIfInBounds k _) (2 * j) * at' 1 (s'.data.setIfInBounds k _) (2 * j + 1))
        rw [ha, ha, ha]
        by_cases c : k = j
        · subst c
          rw [if_pos rfl, if_neg (by omega), if_neg (by omega), hzk, one_smul]
        · have c' : j ≠ k / 2 := by
            rintro rfl
            exact j3 (Or.inr ⟨i + 1, le_rfl, by rw [hk, Nat.div_div_eq_div_mul, pow_succ]⟩)
          rw [if_neg c, if_neg (by omega), if_neg (by omega)]
          refine h3.inv j j1 j2 ?_
          rintro (hj | ⟨t, ht, rfl⟩)
          · exact j3 (Or.inl hj)
          · rcases Nat.lt_or_ge i t with h | h
            · exact j3 (Or.inr ⟨t, h, rfl⟩)
            · exact c (by rw [hk, show t = i by omega])
      · intro j hj
        rw [← h3.leaf j hj]
        unfold V
        congr 1
        show at' 1 (s'.data.setIfInBounds k _) _ = _
        rw [ha, if_neg (by omega)]
    · rintro s' ⟨r1, r2⟩
      refine ⟨r1.mono ?_, r2⟩
      rintro x hx - (hx' | ⟨t, ht, rfl⟩)
      · exact hx'
      · rw [hzero t (by omega) hp2] at hx; omega

/-! ### Visiting the canonical nodes -/

open Classical in
theorem apply_up {Z Z' : Nat → F} {k : Nat} (hk : 1 ≤ k) (φ : F) (hu : up Z (k / 2) = 1) (hZ : ∀ x, Z' x = if k = x then φ * Z k else Z x)
    (x : Nat) : up Z' x = if ∃ d, x / 2 ^ d = k then φ * up Z x else up Z x := by
  induction x using Nat.strong_induction_on with
  | _ x ih =>
    rcases Nat.eq_zero_or_pos x with rfl | hx0
    · rw [up_zero, up_zero, if_neg]
      rintro ⟨d, hd⟩
      rw [Nat.zero_div] at hd
      omega
    · rw [up_pos Z' hx0, ih (x / 2) (by omega), hZ x]
      by_cases c : k = x
      · subst c
        have hn : ¬ ∃ d, k / 2 / 2 ^ d = k := by
          rintro ⟨d, hd⟩
          have := Nat.div_le_self (k / 2) (2 ^ d)
          omega
        rw [if_neg hn, if_pos rfl, if_pos ⟨0, by simp⟩, hu, one_mul, up_pos Z hk, hu, one_mul]
      · have hiff : (∃ d, x / 2 / 2 ^ d = k) ↔ ∃ d, x / 2 ^ d = k := by
          constructor
          · rintro ⟨d, hd⟩
            exact ⟨d + 1, by rw [pow_succ', ← Nat.div_div_eq_div_mul, hd]⟩
          · rintro ⟨d, hd⟩
            cases d with
            | zero => simp at hd; exact absurd hd.symm c
            | succ d => exact ⟨d, by rw [pow_succ', ← Nat.div_div_eq_div_mul] at hd; exact hd⟩
        rw [if_neg c]
        by_cases e : ∃ d, x / 2 ^ d = k
        · rw [if_pos e, if_pos (hiff.2 e), up_pos Z hx0, mul_assoc]
        · rw [if_neg e, if_neg (mt hiff.1 e), up_pos Z hx0]

/-- `all_apply` on a node without pending maps above it applies the map to the leaves below it. -/
theorem allApply_tot (h : Rep B n m lg f s) {k t : Nat} (hk : 1 ≤ k) (h1 : m ≤ k * 2 ^ t) (h2 : (k + 1) * 2 ^ t ≤ n + m)
    (hu : up (laz s) (k / 2) = 1) (φ : F) :
    Tot (allApply (prm T F) s k φ) fun s' => (∀ x, x ≠ k → laz s' x = laz s x) ∧
      Rep (fun x => B x ∨ x = k / 2) n m lg (fun i => if k * 2 ^ t ≤ m + i ∧ m + i < (k + 1) * 2 ^ t then φ • f i else f i) s' := by
  have hle := h.hle
  have hm1 := h.m_pos
  have hpt := pow_pos' t
  have hkk : k * 1 ≤ k * 2 ^ t := Nat.mul_le_mul_left _ hpt
  have e2 : (k + 1) * 2 ^ t = k * 2 ^ t + 2 ^ t := by ring
  have hk2 : k < 2 * m := by omega
  obtain ⟨s', e, hz, ha, hb⟩ := allApply_eq h.sz hk2 φ
  refine Tot.of_eq e ⟨fun x hx => by rw [hb, if_neg (by tauto)],
    ⟨hz.hn, hz.hsm, hz.hlg, h.hm, h.hle, hz.hsz, hz.hlz, ?_, ?_, ?_⟩⟩
  · intro j j1 j2 j3
    rw [ha, ha, ha, hb]
    rw [if_neg (show ¬ (k = 2 * j) by rintro rfl; exact j3 (Or.inr (by omega))),
      if_neg (show ¬ (k = 2 * j + 1) by rintro rfl; exact j3 (Or.inr (by omega)))]
    have := h.inv j j1 j2 (fun hb => j3 (Or.inl hb))
    by_cases c : k = j
    · subst c
      rw [if_pos rfl, if_pos ⟨rfl, j2⟩, mul_smul, ← this]
    · rw [if_neg c, if_neg (by tauto)]
      exact this
  · intro i hi
    have hl := h.leaf i hi
    unfold V at hl ⊢
    rw [ha]
    by_cases hkm : k < m
    · rw [apply_up hk φ hu (Z' := laz s') (fun x => by rw [hb]; simp only [hkm, and_true]), if_neg (show ¬ (k = m + i) by omega)]
      have hiff : (∃ d, (m + i) / 2 / 2 ^ d = k) ↔ k * 2 ^ t ≤ m + i ∧ m + i < (k + 1) * 2 ^ t := by
        rw [← div_eq_iff]
        constructor
        · rintro ⟨d, hd⟩
          rw [Nat.div_div_eq_div_mul, ← pow_succ'] at hd
          rw [← height_unique h.hm h1 (by omega) (by omega) (by omega) hd]
          exact hd
        · intro hd
          cases t with
          | zero => simp at hd; omega
          | succ t => exact ⟨t, by rw [Nat.div_div_eq_div_mul, ← pow_succ']; exact hd⟩
      by_cases c : ∃ d, (m + i) / 2 / 2 ^ d = k
      · rw [if_pos c, if_pos (hiff.1 c), mul_smul, hl]
      · rw [if_neg c, if_neg (mt hiff.2 c), hl]
    · have ht : t = 0 := by
        cases t with
        | zero => rfl
        | succ t =>
          exfalso
          have : k * 2 ^ (t + 1) = 2 * (k * 2 ^ t) := by ring
          have : k * 1 ≤ k * 2 ^ t := Nat.mul_le_mul_left _ (pow_pos' t)
          have : 2 ^ (t + 1) = 2 * 2 ^ t := by ring
          have := pow_pos' t
          omega
      subst ht
      have hbb : laz s' = laz s := by funext x; rw [hb, if_neg (by omega)]
      rw [hbb]
      simp only [pow_zero, mul_one]
      by_cases c : k = m + i
      · rw [if_pos c, if_pos (by omega), ← c, hu, one_smul]
        rw [← c, hu, one_smul] at hl
        rw [hl]
      · rw [if_neg c, if_neg (by omega), hl]
  · intro i hi
    rw [if_neg (by omega), h.pad i hi]

/-- Parent of a node visited on the left side. -/
theorem str_left {l0 l t : Nat} (h1 : l0 ≤ l * 2 ^ t) (h2 : l * 2 ^ t < l0 + 2 ^ t) (ho : l % 2 = 1) : Str l0 (l / 2) := by
  have hpt := pow_pos' t
  have e1 : l / 2 * 2 ^ (t + 1) + 2 ^ t = l * 2 ^ t := by
    conv_rhs => rw [show l = 2 * (l / 2) + 1 by omega]
    ring
  have e2 : (l / 2 + 1) * 2 ^ (t + 1) = l * 2 ^ t + 2 ^ t := by rw [← e1]; ring
  exact ⟨t + 1, by omega, by omega⟩

/-- Parent of a node visited on the right side. -/
theorem str_right {r0 r t : Nat} (h1 : r * 2 ^ t ≤ r0) (h2 : r0 < (r + 1) * 2 ^ t) (ho : r % 2 = 1) : Str r0 ((r - 1) / 2) := by
  have hpt := pow_pos' t
  have e1 : (r - 1) / 2 * 2 ^ (t + 1) + 2 ^ t = r * 2 ^ t := by
    conv_rhs => rw [show r = 2 * ((r - 1) / 2) + 1 by omega]
    ring
  have e2 : ((r - 1) / 2 + 1) * 2 ^ (t + 1) = (r + 1) * 2 ^ t := by
    conv_rhs => rw [show r = 2 * ((r - 1) / 2) + 1 by omega]
    ring
  exact ⟨t + 1, by omega, by omega⟩

theorem not_str {p k t : Nat} (hm : m = 2 ^ lg) (hk : 1 ≤ k) (h1 : m ≤ k * 2 ^ t) (h2 : k * 2 ^ t < 2 * m) (hp1 : m ≤ p) (hp2 : p ≤ 2 * m)
    (hp : p ≤ k * 2 ^ t ∨ (k + 1) * 2 ^ t ≤ p) : ¬ Str p k := by
  intro h
  have hlt := str_lt hm hp2 hk h
  obtain ⟨d, a, b⟩ := h
  have := height_unique hm h1 h2 hp1 hlt (div_eq_iff.2 ⟨a.le, b⟩)
  subst this
  omega

/-- Nodes that straddle one of the two ends. -/
def S (l0 r0 x : Nat) : Prop := Str l0 x ∨ Str r0 x

theorem S_up {l0 r0 x : Nat} (h : S l0 r0 x) : S l0 r0 (x / 2) := h.imp str_up str_up

theorem applyLoop_tot {l0 r0 : Nat} (h : Rep (S l0 r0) n m lg f s) (hl : m ≤ l0) (hlr : l0 ≤ r0) (hr : r0 ≤ n + m)
    (hz : ∀ x, 1 ≤ x → S l0 r0 x → laz s x = 1) (φ : F) {fuel : Nat} (hf : r0 ≤ fuel) :
    Tot (loop (applyStep (prm T F) φ) fuel (l0, r0, s)) fun q => (∀ x, 1 ≤ x → S l0 r0 x → laz q.2.2 x = 1) ∧
      Rep (S l0 r0) n m lg (fun i => if l0 ≤ m + i ∧ m + i < r0 then φ • f i else f i) q.2.2 := by
  have hle := h.hle
  have hm1 := h.m_pos
  have hm := h.hm
  refine Tot.loop (P := fun q : Nat × Nat × State T F => 1 ≤ q.1 ∧ q.1 ≤ q.2.1 ∧
    (∀ x, 1 ≤ x → S l0 r0 x → laz q.2.2 x = 1) ∧ ∃ t, l0 ≤ q.1 * 2 ^ t ∧ q.1 * 2 ^ t < l0 + 2 ^ t ∧
      q.2.1 * 2 ^ t ≤ r0 ∧ r0 < (q.2.1 + 1) * 2 ^ t ∧
      Rep (S l0 r0) n m lg (fun i => if (l0 ≤ m + i ∧ m + i < q.1 * 2 ^ t) ∨ (q.2.1 * 2 ^ t ≤ m + i ∧ m + i < r0) then φ • f i else f i) q.2.2)
    (fun q => q.2.1) ?_ ⟨by om, hlr, hz, 0, by simp, by simp, by simp, by simp, ?_⟩ hf
  swap
  · dsimp only
    convert h using 2 with i
    simp only [pow_zero, mul_one]
    rw [if_neg (by omega)]
  rintro ⟨l, r, s⟩ ⟨h1, h2, hz, t, ht1, ht2, ht3, ht4, h⟩
  dsimp only at h1 h2 ht1 ht2 ht3 ht4 hz h
  unfold applyStep
  dsimp only
  split
  case isFalse hlt =>
    have : l = r := by omega
    subst this
    refine Tot.pure ⟨hz, ?_⟩
    convert h using 2 with i
    by_cases c : l0 ≤ m + i ∧ m + i < r0
    · rw [if_pos c, if_pos (by omega)]
    · rw [if_neg c, if_neg (by omega)]
  case isTrue hlt =>
    have hpos := pow_pos' t
    have hle' : (l + 1) * 2 ^ t ≤ r * 2 ^ t := Nat.mul_le_mul_right _ hlt
    have el : (l + 1) * 2 ^ t = l * 2 ^ t + 2 ^ t := by ring
    have L : Tot (applyL (prm T F) φ s l) (fun q : Nat × State T F => q.1 = l + l % 2 ∧ (∀ x, 1 ≤ x → S l0 r0 x → laz q.2 x = 1) ∧
        Rep (S l0 r0) n m lg (fun i => if (l0 ≤ m + i ∧ m + i < q.1 * 2 ^ t) ∨ (r * 2 ^ t ≤ m + i ∧ m + i < r0) then φ • f i else f i) q.2) := by
      unfold applyL
      split
      next ho =>
        have hS : S l0 r0 (l / 2) := Or.inl (str_left ht1 ht2 ho)
        refine Tot.bind (allApply_tot (t := t) h h1 (by omega) (by omega) (up_one (fun x hx _ => S_up hx) hz (Or.inr hS)) φ) ?_
        rintro s' ⟨g1, g2⟩
        refine Tot.pure ⟨by om, fun x hx hSx => ?_, ?_⟩
        · dsimp only
          rw [g1 x ?_, hz x hx hSx]
          rintro rfl
          rcases hSx with hS | hS
          · exact not_str (t := t) hm h1 (by omega) (by omega) hl (by omega) (Or.inl ht1) hS
          · exact not_str (t := t) hm h1 (by omega) (by omega) (by omega) (by omega) (Or.inr (by omega)) hS
        · dsimp only
          refine Rep.mono (B := fun x => S l0 r0 x ∨ x = l / 2) ?_ (by rintro k - - (hk | rfl); exact hk; exact hS)
          convert g2 using 2 with i
          by_cases c : l * 2 ^ t ≤ m + i ∧ m + i < (l + 1) * 2 ^ t
          · rw [if_pos c, if_pos (by omega), if_neg (by omega)]
          · rw [if_neg c]
            congr 1
            simp only [eq_iff_iff]
            omega
      next ho => exact Tot.pure ⟨by om, hz, h⟩
    refine Tot.bind L ?_
    rintro ⟨l', s'⟩ ⟨e1, hz', h'⟩
    dsimp only at e1 hz' h' ⊢
    have hl' : l' ≤ r := by omega
    have hll : l * 2 ^ t ≤ l' * 2 ^ t := Nat.mul_le_mul_right _ (by omega)
    have hll2 : l' * 2 ^ t ≤ (l + 1) * 2 ^ t := Nat.mul_le_mul_right _ (by omega)
    have R : Tot (applyR (prm T F) φ s' r) (fun q : Nat × State T F => q.1 = r - r % 2 ∧ (∀ x, 1 ≤ x → S l0 r0 x → laz q.2 x = 1) ∧
        Rep (S l0 r0) n m lg (fun i => if (l0 ≤ m + i ∧ m + i < l' * 2 ^ t) ∨ (q.1 * 2 ^ t ≤ m + i ∧ m + i < r0) then φ • f i else f i) q.2) := by
      unfold applyR
      split
      next ho =>
        have hS : S l0 r0 ((r - 1) / 2) := Or.inr (str_right ht3 ht4 ho)
        have er : r * 2 ^ t = (r - 1) * 2 ^ t + 2 ^ t := by
          conv_lhs => rw [show r = (r - 1) + 1 by omega]
          ring
        have er' : (r - 1 + 1) * 2 ^ t = r * 2 ^ t := by congr 1; omega
        have h3 : l' * 2 ^ t ≤ (r - 1) * 2 ^ t := Nat.mul_le_mul_right _ (by omega)
        refine Tot.bind (allApply_tot (k := r - 1) (t := t) h' (by omega) (by omega) (by omega) (up_one (fun x hx _ => S_up hx) hz' (Or.inr hS)) φ) ?_
        rintro s'' ⟨g1, g2⟩
        refine Tot.pure ⟨by om, fun x hx hSx => ?_, ?_⟩
        · dsimp only
          rw [g1 x ?_, hz' x hx hSx]
          rintro rfl
          rcases hSx with hS | hS
          · exact not_str (t := t) hm (by omega) (by omega) (by omega) hl (by omega) (Or.inl (by omega)) hS
          · exact not_str (t := t) hm (by omega) (by omega) (by omega) (by omega) (by omega) (Or.inr (by omega)) hS
        · dsimp only
          refine Rep.mono (B := fun x => S l0 r0 x ∨ x = (r - 1) / 2) ?_ (by rintro k - - (hk | rfl); exact hk; exact hS)
          convert g2 using 2 with i
          by_cases c : (r - 1) * 2 ^ t ≤ m + i ∧ m + i < (r - 1 + 1) * 2 ^ t
          · rw [if_pos c, if_pos (by omega), if_neg (by omega)]
          · rw [if_neg c]
            congr 1
            simp only [eq_iff_iff]
            omega
      next ho => exact Tot.pure ⟨by om, hz', h'⟩
    refine Tot.bind R ?_
    rintro ⟨r', s''⟩ ⟨e3, hz'', h''⟩
    dsimp only at e3 hz'' h'' ⊢
    have q1 : l' / 2 * 2 ^ (t + 1) = l' * 2 ^ t := by
      conv_rhs => rw [show l' = 2 * (l' / 2) by omega]
      ring
    have q2 : r' / 2 * 2 ^ (t + 1) = r' * 2 ^ t := by
      conv_rhs => rw [show r' = 2 * (r' / 2) by omega]
      ring
    have q3 : (r' / 2 + 1) * 2 ^ (t + 1) = (r' + 2) * 2 ^ t := by
      conv_rhs => rw [show r' = 2 * (r' / 2) by omega]
      ring
    have q4 : r' * 2 ^ t ≤ r * 2 ^ t := Nat.mul_le_mul_right _ (by omega)
    have q5 : (r + 1) * 2 ^ t ≤ (r' + 2) * 2 ^ t := Nat.mul_le_mul_right _ (by omega)
    have q6 : 2 ^ (t + 1) = 2 * 2 ^ t := by ring
    refine Tot.pure ⟨⟨by om, by om, hz'', t + 1, ?_, ?_, ?_, ?_, ?_⟩, by om⟩
    · dsimp only; omega
    · dsimp only; omega
    · dsimp only; omega
    · dsimp only; omega
    · dsimp only
      rw [q1, q2]
      exact h''

theorem Rep.V_inv (hd : ∀ (φ : F) (a b : T), φ • (a * b) = φ • a * φ • b) (h : Rep (fun _ => False) n m lg f s) : Inv m (V (dat s) (laz s)) := by
  intro k h1 h2
  unfold V
  rw [h.inv k h1 h2 id, show 2 * k / 2 = k by omega, show (2 * k + 1) / 2 = k by omega, ← hd, up_pos _ h1, mul_smul]

theorem ctz_ok {x : Nat} (hx : x ≠ 0) : ∃ q c, Bits.ctz x = .ok c ∧ x = (2 * q + 1) * 2 ^ c := by
  obtain ⟨q, c, rfl⟩ := exists_odd hx
  exact ⟨q, c, ctz_eq q c, rfl⟩

theorem ctz_big {p q c : Nat} (hm : m = 2 ^ lg) (hp : p = (2 * q + 1) * 2 ^ c) (hp1 : m ≤ p) (hp2 : p ≤ 2 * m) : p < 2 * m ∨ lg < c + 1 := by
  rcases Nat.lt_or_ge p (2 * m) with h | h
  · exact Or.inl h
  · right
    have e0 : 2 ^ (lg + 1) = 2 * m := by rw [hm]; ring
    have e1 : p = 2 ^ (lg + 1) := by omega
    by_contra hc
    obtain ⟨d, hd⟩ := Nat.exists_eq_add_of_le (show c + 1 ≤ lg + 1 by omega)
    rw [e1, hd, pow_add, pow_succ, mul_comm (2 * q + 1), mul_assoc] at hp
    have := Nat.eq_of_mul_eq_mul_left (pow_pos' c) hp
    omega

theorem pushTo2_tot (hd : ∀ (φ : F) (a b : T), φ • (a * b) = φ • a * φ • b) (h : Rep (fun _ => False) n m lg f s) {l r : Nat} (hl : l ≤ m) (hr : r ≤ m) :
    Tot (pushTo2 (prm T F) s l r) fun s' => Rep (fun _ => False) n m lg f s' ∧ ∀ x, 1 ≤ x → S (l + m) (r + m) x → laz s' x = 1 := by
  have hm1 := h.m_pos
  have hm := h.hm
  unfold pushTo2
  rw [h.hsm]
  dsimp only
  obtain ⟨ql, cl, el, hql⟩ := ctz_ok (x := l + m) (by omega)
  obtain ⟨qr, cr, er, hqr⟩ := ctz_ok (x := r + m) (by omega)
  rw [el, ok_bind, er, ok_bind]
  refine Tot.bind (pushChain_tot hd h (p := l + m) (by omega) (ctz_big hm hql (by omega) (by omega)) (by omega) (C := fun _ => False)
    (fun _ hx _ => hx) (fun _ _ hx => hx.elim)) ?_
  rintro s1 ⟨h1, z1⟩
  refine (pushChain_tot hd h1 (p := r + m) (by omega) (ctz_big hm hqr (by omega) (by omega)) (by omega) (C := Str (l + m))
    (fun _ hx _ => str_up hx) (fun x hx hs => ?_)).mono ?_
  · exact z1 x hx (Or.inr ⟨str_lt hm (by omega) hx hs, (str_iff_chain hql).1 hs⟩)
  · rintro s2 ⟨h2, z2⟩
    refine ⟨h2, ?_⟩
    rintro x hx (hs | hs)
    · exact z2 x hx (Or.inl hs)
    · exact z2 x hx (Or.inr ⟨str_lt hm (by omega) hx hs, (str_iff_chain hqr).1 hs⟩)

theorem updateFrom2_tot {l r : Nat} (h : Rep (S (l + m) (r + m)) n m lg f s) (hl : l ≤ m) (hr : r ≤ m)
    (hz : ∀ x, 1 ≤ x → S (l + m) (r + m) x → laz s x = 1) :
    Tot (updateFrom2 (prm T F) s l r) fun s' => Rep (fun _ => False) n m lg f s' := by
  have hm1 := h.m_pos
  have hm := h.hm
  unfold updateFrom2
  rw [h.hsm]
  dsimp only
  obtain ⟨ql, cl, el, hql⟩ := ctz_ok (x := l + m) (by omega)
  obtain ⟨qr, cr, er, hqr⟩ := ctz_ok (x := r + m) (by omega)
  rw [el, ok_bind, er, ok_bind]
  refine Tot.bind (updChain_tot (C := Str (r + m)) (p := l + m) (lo := cl + 1) (h.mono ?_) (by omega) (ctz_big hm hql (by omega) (by omega))
    (by omega) ?_) ?_
  · rintro k h1 h2 (h3 | h3)
    · exact Or.inr ⟨str_lt hm (by omega) h1 h3, (str_iff_chain hql).1 h3⟩
    · exact Or.inl h3
  · rintro x h1 h2 (h3 | ⟨-, h3⟩)
    · exact hz x h1 (Or.inr h3)
    · exact hz x h1 (Or.inl ((str_iff_chain hql).2 h3))
  · rintro s1 ⟨h1, e1⟩
    refine (updChain_tot (C := fun _ => False) (p := r + m) (lo := cr + 1) (h1.mono ?_) (by omega) (ctz_big hm hqr (by omega) (by omega))
      (by omega) ?_).mono fun s2 h2 => h2.1
    · rintro k g1 g2 g3
      exact Or.inr ⟨str_lt hm (by omega) g1 g3, (str_iff_chain hqr).1 g3⟩
    · rintro x g1 g2 (g3 | ⟨-, g3⟩)
      · exact g3.elim
      · show at' 1 s1.lazy x = 1
        rw [e1]
        exact hz x g1 (Or.inr ((str_iff_chain hqr).2 g3))

theorem apply_tot (hd : ∀ (φ : F) (a b : T), φ • (a * b) = φ • a * φ • b) (h : Rep (fun _ => False) n m lg f s) {l r : Nat} (hl : l ≤ r) (hr : r ≤ n) (φ : F) :
    Tot (apply (prm T F) s l r φ) (Rep (fun _ => False) n m lg fun i => if l ≤ i ∧ i < r then φ • f i else f i) := by
  have hm1 := h.m_pos
  have hle := h.hle
  unfold apply
  rw [h.hn, decide_eq_true ⟨hl, hr⟩, check_true, ok_bind]
  refine Tot.bind (pushTo2_tot hd h (by omega) (by omega)) ?_
  rintro s1 ⟨h1, z1⟩
  dsimp only
  rw [h1.hsm]
  refine Tot.bind (applyLoop_tot (l0 := l + m) (r0 := r + m) (h1.mono fun _ _ _ hx => hx.elim) (by omega) (by omega) (by omega) z1 φ le_rfl) ?_
  rintro ⟨_, _, s2⟩ ⟨z2, h2⟩
  refine (updateFrom2_tot h2 (by omega) (by omega) z2).mono fun s3 h3 => ?_
  convert h3 using 2 with i
  congr 1
  simp only [eq_iff_iff]
  omega

theorem P_leaf (h : Rep B n m lg f s) {l r : Nat} (hr : r ≤ m) : P (V (dat s) (laz s)) (l + m) (r + m) = P f l r := by
  rw [P_shift]
  exact P_congr fun i _ hi => h.leaf i (by omega)

theorem prod_tot (hd : ∀ (φ : F) (a b : T), φ • (a * b) = φ • a * φ • b) (h : Rep (fun _ => False) n m lg f s) {l r : Nat} (hl : l ≤ r) (hr : r ≤ n) :
    Tot (prod (prm T F) s l r) fun q => Rep (fun _ => False) n m lg f q.1 ∧ q.2 = P f l r := by
  have hm1 := h.m_pos
  have hle := h.hle
  unfold prod
  rw [h.hn, decide_eq_true ⟨hl, hr⟩, check_true, ok_bind]
  refine Tot.bind (pushTo2_tot hd h (by omega) (by omega)) ?_
  rintro s1 ⟨h1, z1⟩
  dsimp only
  rw [h1.hsm]
  refine Tot.bind (prodStep_tot (D := V (dat s1) (laz s1)) h1.hsz (h1.V_inv hd) (fun k => S (l + m) (r + m) (k / 2)) ?_ (l0 := l + m) (r0 := r + m)
    (by omega) (by omega) (by omega) (fun t k a b c _ => Or.inl (str_left a b c)) (fun t k a b c _ => Or.inr (str_right a b c)) le_rfl) ?_
  · intro k hk hS
    unfold V
    rw [up_one (fun x hx _ => S_up hx) z1 (Or.inr hS), one_smul]
  · rintro ⟨a, b, c, d⟩ e
    refine Tot.pure ⟨h1, ?_⟩
    show c * d = _
    rw [← P_leaf h1 (by omega)]
    exact e

theorem pushOne_tot (hd : ∀ (φ : F) (a b : T), φ • (a * b) = φ • a * φ • b) (h : Rep (fun _ => False) n m lg f s) {p : Nat} (hp1 : m ≤ p) (hp2 : p < 2 * m) :
    Tot (pushChain (prm T F) s p 1) fun s' => Rep (fun _ => False) n m lg f s' ∧ ∀ x, 1 ≤ x → Ch p 1 x → laz s' x = 1 := by
  refine (pushChain_tot hd h hp1 (Or.inl hp2) le_rfl (C := fun _ => False) (fun _ hx _ => hx) (fun _ _ hx => hx.elim)).mono ?_
  rintro s' ⟨h1, h2⟩
  exact ⟨h1, fun x a b => h2 x a (Or.inr ⟨hp2, b⟩)⟩

theorem ch_half (p : Nat) : Ch p 1 (p / 2) := ⟨1, le_rfl, by simp⟩

theorem get_tot (hd : ∀ (φ : F) (a b : T), φ • (a * b) = φ • a * φ • b) (h : Rep (fun _ => False) n m lg f s) {i : Nat} (hi : i < n) :
    Tot (get (prm T F) s i) fun q => Rep (fun _ => False) n m lg f q.1 ∧ q.2 = f i := by
  have hle := h.hle
  unfold get
  rw [h.hn, decide_eq_true hi, check_true, ok_bind, h.hsm]
  refine Tot.bind (pushOne_tot hd h (p := i + m) (by omega) (by omega)) ?_
  rintro s1 ⟨h1, z1⟩
  have hsz := h1.hsz
  rw [h1.hsm, rd_at 1 (by omega), ok_bind]
  refine Tot.pure ⟨h1, ?_⟩
  dsimp only
  have := h1.leaf i (by omega)
  unfold V at this
  rw [Nat.add_comm m, up_one (fun x hx _ => ch_up hx) z1 (Or.inr (ch_half _)), one_smul] at this
  exact this

theorem modify_tot (hd : ∀ (φ : F) (a b : T), φ • (a * b) = φ • a * φ • b) (h : Rep (fun _ => False) n m lg f s) {i : Nat} (hi : i < n) (g : T → T) :
    Tot (modify (prm T F) s i g) (Rep (fun _ => False) n m lg (Function.update f i (g (f i)))) := by
  have hle := h.hle
  unfold modify
  rw [h.hn, decide_eq_true hi, check_true, ok_bind, h.hsm]
  refine Tot.bind (pushOne_tot hd h (p := i + m) (by omega) (by omega)) ?_
  rintro s1 ⟨h1, z1⟩
  have hsz := h1.hsz
  rw [h1.hsm, rd_at 1 (by omega), ok_bind, wr_eq (by omega), ok_bind]
  have hu := up_one (fun x hx _ => ch_up hx) z1 (Or.inr (ch_half (i + m)))
  have hv := h1.leaf i (by omega)
  unfold V at hv
  rw [Nat.add_comm m, hu, one_smul] at hv
  have ha : ∀ x, at' 1 (s1.data.setIfInBounds (i + m) (g (at' 1 s1.data (i + m)))) x = if i + m = x then g (f i) else at' 1 s1.data x := by
    intro x
    rw [at_set 1 (by omega)]
    show (if i + m = x then g (dat s1 (i + m)) else _) = _
    rw [hv]
  refine (updChain_tot (m := m) (lg := lg) (n := n) (C := fun _ => False) (p := i + m) (lo := 1) (s := ⟨s1.n, m, s1.lg, s1.data.setIfInBounds (i + m) (g (at' 1 s1.data (i + m))), s1.lazy⟩)
    ⟨h1.hn, rfl, h1.hlg, h1.hm, h1.hle, by simpa using hsz, h1.hlz, ?_, ?_, ?_⟩ (by omega) (Or.inl (by omega)) le_rfl ?_).mono fun s' h' => h'.1
  · intro k k1 k2 k3
    show at' 1 (s1.data.setIfInBounds (i + m) _) k = laz s1 k • (at' 1 (s1.data.setIfInBounds (i + m) _) (2 * k) * at' 1 (s1.data.setIfInBounds (i + m) _) (2 * k + 1))
    have hne : k ≠ (i + m) / 2 := by
      rintro rfl
      exact k3 (Or.inr ⟨by omega, ch_half _⟩)
    rw [ha, ha, ha, if_neg (by omega), if_neg (by omega), if_neg (by omega)]
    exact h1.inv k k1 k2 id
  · intro j hj
    have := h1.leaf j hj
    unfold V at this ⊢
    show up (laz s1) _ • at' 1 (s1.data.setIfInBounds (i + m) _) _ = _
    rw [ha]
    by_cases c : j = i
    · subst c
      rw [if_pos (by omega), Function.update_self, Nat.add_comm m, hu, one_smul]
    · rw [if_neg (by omega), Function.update_of_ne c]
      exact this
  · intro j hj
    rw [Function.update_of_ne (by omega), h1.pad j hj]
  · rintro x x1 x2 (hx | ⟨-, hx⟩)
    · exact hx.elim
    · exact z1 x x1 hx

theorem applyPoint_tot (hd : ∀ (φ : F) (a b : T), φ • (a * b) = φ • a * φ • b) (h : Rep (fun _ => False) n m lg f s) {i : Nat} (hi : i < n) (φ : F) :
    Tot (applyPoint (prm T F) s i φ) (Rep (fun _ => False) n m lg (Function.update f i (φ • f i))) := by
  unfold applyPoint
  refine Tot.bind (get_tot hd h hi) ?_
  rintro ⟨s1, v⟩ ⟨h1, rfl⟩
  exact modify_tot hd h1 hi fun _ => φ • f i

theorem allProd_eq (hd : ∀ (φ : F) (a b : T), φ • (a * b) = φ • a * φ • b) (h : Rep (fun _ => False) n m lg f s) : allProd s = .ok (P f 0 n) := by
  unfold allProd
  have h1 := h.m_pos
  rw [rd_at 1 (by rw [h.hsz]; omega)]
  have e := node_eq (h.V_inv hd) lg (k := 1) le_rfl (by rw [h.hm])
  unfold V at e
  rw [show 1 / 2 = 0 from rfl, up_zero, one_smul] at e
  rw [show at' 1 s.data 1 = dat s 1 from rfl, e, ← h.hm, one_mul, show (1 + 1) * m = m + m by ring]
  have := P_leaf h (l := 0) le_rfl
  rw [Nat.zero_add] at this
  show Except.ok (P (V (dat s) (laz s)) m (m + m)) = _
  rw [this, SegmentTree.P_pad h.pad (Nat.zero_le _) h.hle]

theorem ofVector_tot (a : Array T) : Tot (ofVector (prm T F) a) fun s => ∃ m lg, (m = 1 ∨ m < 2 * a.size) ∧
    Rep (fun _ => False) a.size m lg (fun i => at' 1 a i) s := by
  unfold ofVector
  refine Tot.bind (ceilPow2_tot' a.size) ?_
  rintro m ⟨h1, ⟨j, hj⟩, hmin⟩
  have hm1 : 1 ≤ m := by rw [hj]; exact pow_pos' j
  have hc : Bits.ctz m = .ok j := by
    have := ctz_eq 0 j
    rw [Nat.mul_zero, Nat.zero_add, Nat.one_mul] at this
    rw [hj, this]
  rw [hc, ok_bind]
  have hr : ∀ k, at' 1 (Array.replicate (2 * m) (1 : T)) k = 1 := by
    intro k
    unfold at'
    rw [Array.getElem?_replicate]
    split <;> rfl
  have hr' : ∀ k, at' 1 (Array.replicate m (1 : F)) k = 1 := by
    intro k
    unfold at'
    rw [Array.getElem?_replicate]
    split <;> rfl
  have hu : ∀ k, up (at' 1 (Array.replicate m (1 : F))) k = 1 := fun k =>
    up_one (C := fun _ => True) (fun _ _ _ => trivial) (fun x _ _ => hr' x) (Or.inr trivial)
  refine Tot.bind (SegmentTree.buildLeaf_tot (m := m) (by simp [prm]) a h1) ?_
  rintro d ⟨h2, h3⟩
  refine Tot.bind (SegmentTree.buildInner_tot h2 hm1) ?_
  rintro d' ⟨h4, h5, h6⟩
  refine Tot.pure ⟨m, j, hmin, rfl, rfl, rfl, hj, h1, h4, by simp, ?_, ?_, ?_⟩
  · intro k k1 k2 _
    show at' 1 d' k = at' 1 (Array.replicate m (1 : F)) k • _
    rw [hr', one_smul]
    exact h5 k k1 k2
  · intro i hi
    show up (at' 1 (Array.replicate m (1 : F))) _ • at' 1 d' (m + i) = _
    rw [hu, one_smul, h6, h3]
    split
    · rfl
    · rw [at_ge (a := a) 1 (by omega)]
      exact hr _
  · intro i hi
    exact at_ge 1 hi

end LazySegmentTree
