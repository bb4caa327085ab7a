import Verif.Model.Transform
import Mathlib.Algebra.BigOperators.Group.Finset.Basic
import Mathlib.Algebra.BigOperators.Ring.Finset
import Mathlib.Algebra.BigOperators.Module
import Mathlib.Algebra.BigOperators.GroupWithZero.Action
import Mathlib.Algebra.Module.Basic
import Mathlib.Tactic.Ring
import Mathlib.Tactic.Linarith

/-! # Proofs about the Kronecker power transform -/

namespace Kronecker
open Cxx Finset

/-! ### Digits -/

theorem dec_div {D B a e r : Nat} (he : e < D) (hr : r < B) : (a * (D * B) + e * B + r) / (D * B) = a := by
  have h1 : e * B + r < D * B := by nlinarith
  have h0 : 0 < D * B := by omega
  rw [Nat.div_eq_iff h0]
  omega

theorem dec_divB {D B a e r : Nat} (hr : r < B) : (a * (D * B) + e * B + r) / B = a * D + e := by
  have h0 : 0 < B := by omega
  rw [show a * (D * B) + e * B + r = r + B * (a * D + e) by ring, Nat.add_mul_div_left _ _ h0, Nat.div_eq_of_lt hr, Nat.zero_add]

theorem dec_digit {D B a e r : Nat} (he : e < D) (hr : r < B) : (a * (D * B) + e * B + r) / B % D = e := by
  rw [dec_divB hr, Nat.mul_comm, Nat.mul_add_mod, Nat.mod_eq_of_lt he]

theorem dec_mod {D B a e r : Nat} (hr : r < B) : (a * (D * B) + e * B + r) % B = r := by
  rw [show a * (D * B) + e * B + r = r + B * (a * D + e) by ring, Nat.add_mul_mod_self_left, Nat.mod_eq_of_lt hr]

theorem dec {D B : Nat} (hD : 0 < D) (hB : 0 < B) (x : Nat) : ∃ a e r, e < D ∧ r < B ∧ x = a * (D * B) + e * B + r := by
  refine ⟨x / B / D, x / B % D, x % B, Nat.mod_lt _ hD, Nat.mod_lt _ hB, ?_⟩
  have h1 := Nat.div_add_mod (x / B) D
  have h2 := Nat.div_add_mod x B
  rw [show x / B / D * (D * B) + x / B % D * B = B * (D * (x / B / D) + x / B % D) by ring, h1, h2]

variable {α T R : Type} (rep : α → T → Prop)

/-- The array `x` of `n` cells represents the function `f`. -/
def RepA (x : Array α) (n : Nat) (f : Nat → T) : Prop := x.size = n ∧ ∀ i, i < n → ∃ c, x[i]? = some c ∧ rep c (f i)

variable {rep}

theorem RepA.congr {x : Array α} {n : Nat} {f g : Nat → T} (h : RepA rep x n f) (e : ∀ i, i < n → f i = g i) : RepA rep x n g :=
  ⟨h.1, fun i hi => by rw [← e i hi]; exact h.2 i hi⟩

theorem RepA.rd {x : Array α} {n i : Nat} {f : Nat → T} (h : RepA rep x n f) (hi : i < n) : Tot (rd x i) fun c => rep c (f i) := by
  obtain ⟨c, h1, h2⟩ := h.2 i hi
  exact Tot.of_eq (rd_some h1) h2

theorem RepA.wr {x : Array α} {n i : Nat} {f : Nat → T} {c : α} {v : T} (h : RepA rep x n f) (hi : i < n) (hc : rep c v) :
    Tot (wr x i c) fun x' => RepA rep x' n fun j => if j = i then v else f j := by
  have hs := h.1
  rw [wr_eq (by omega)]
  refine Tot.pure ⟨by simpa using hs, fun j hj => ?_⟩
  rw [get?_set _ _ _ _ (by omega)]
  by_cases e : j = i
  · subst e
    exact ⟨c, by simp, by simpa using hc⟩
  · obtain ⟨d, h1, h2⟩ := h.2 j hj
    exact ⟨d, by simp [h1, e, Ne.symm e], by simpa [e] using h2⟩

variable [AddCommMonoid T] [CommSemiring R] [Module R T]

/-- The unit transform is multiplication by the matrix `A`. -/
def UnitOk (rep : α → T → Prop) (D : Nat) (unit : Array α → M (Array α)) (A : Nat → Nat → R) : Prop :=
  ∀ w t, RepA rep w D t → Tot (unit w) fun w' => RepA rep w' D fun e => ∑ j ∈ range D, A e j • t j

theorem gather_tot {x : Array α} {n off B D : Nat} {f : Nat → T} (h : RepA rep x n f) (hlt : ∀ e, e < D → off + e * B < n) :
    Tot (gather x off B D) fun w => RepA rep w D fun e => f (off + e * B) := by
  unfold gather
  refine (Tot.forUp (P := fun i (w : Array α) => RepA rep w i fun e => f (off + e * B)) (Nat.zero_le _) ⟨rfl, fun i hi => by omega⟩ ?_).mono fun w hw => hw
  rintro i w - hi hw
  refine Tot.bind (h.rd (hlt i hi)) ?_
  intro c hc
  refine Tot.pure ⟨by have := hw.1; simp [this], fun j hj => ?_⟩
  rcases Nat.lt_or_ge j i with c1 | c1
  · obtain ⟨d, h1, h2⟩ := hw.2 j c1
    refine ⟨d, ?_, h2⟩
    rw [Array.getElem?_push, if_neg (by have := hw.1; omega)]
    exact h1
  · have : j = i := by omega
    subst this
    refine ⟨c, ?_, hc⟩
    rw [Array.getElem?_push, if_pos hw.1.symm]

theorem scatter_tot {x w : Array α} {n off B D : Nat} {f t : Nat → T} (hB : 0 < B) (h : RepA rep x n f) (hw : RepA rep w D t) (hlt : ∀ e, e < D → off + e * B < n) :
    Tot (scatter x w off B D) fun x' => RepA rep x' n fun y => if ∃ e, e < D ∧ y = off + e * B then t ((y - off) / B) else f y := by
  unfold scatter
  classical
  refine (Tot.forUp (P := fun i (x : Array α) => RepA rep x n fun y => if ∃ e, e < i ∧ y = off + e * B then t ((y - off) / B) else f y) (Nat.zero_le _) ?_ ?_).mono ?_
  · refine h.congr fun i _ => ?_
    rw [if_neg]
    rintro ⟨e, he, -⟩
    omega
  · rintro i x - hi hx
    refine Tot.bind (hw.rd hi) ?_
    intro c hc
    refine (hx.wr (hlt i hi) hc).mono fun x' hx' => hx'.congr fun y _ => ?_
    by_cases c1 : y = off + i * B
    · rw [if_pos c1, if_pos ⟨i, by omega, c1⟩, c1, Nat.add_sub_cancel_left, Nat.mul_div_cancel _ hB]
    · rw [if_neg c1]
      by_cases c2 : ∃ e, e < i ∧ y = off + e * B
      · obtain ⟨e, he, h2⟩ := c2
        rw [if_pos ⟨e, he, h2⟩, if_pos ⟨e, by omega, h2⟩]
      · rw [if_neg c2, if_neg]
        rintro ⟨e, he, rfl⟩
        rcases Nat.lt_or_ge e i with c3 | c3
        · exact c2 ⟨e, c3, rfl⟩
        · exact c1 (by rw [show e = i by omega])
  · intro x' hx'
    exact hx'

/-- First cell of the group of `x`. -/
def base (D B x : Nat) : Nat := x / (D * B) * (D * B) + x % B

/-- One stage: the matrix acts on the digit of weight `B`. -/
def stage (A : Nat → Nat → R) (D B : Nat) (f : Nat → T) (x : Nat) : T := ∑ j ∈ range D, A (x / B % D) j • f (base D B x + j * B)

theorem base_dec {D B a e r : Nat} (he : e < D) (hr : r < B) : base D B (a * (D * B) + e * B + r) = a * (D * B) + r := by
  unfold base
  rw [dec_div he hr, dec_mod hr]

theorem offset_tot {D B n a r : Nat} {A : Nat → Nat → R} {unit : Array α → M (Array α)} (hu : UnitOk rep D unit A) (hD : 0 < D) (hB : 0 < B) (hr : r < B)
    (hn : a * (D * B) + D * B ≤ n) {f : Nat → T} {x : Array α} (h : RepA rep x n fun y => if base D B y < a * (D * B) + r then stage A D B f y else f y) :
    Tot (offsetStep D unit B (a * (D * B) + r) x) fun x' => RepA rep x' n fun y => if base D B y < a * (D * B) + r + 1 then stage A D B f y else f y := by
  classical
  unfold offsetStep
  have hlt : ∀ e, e < D → a * (D * B) + r + e * B < n := by
    intro e he
    have : (e + 1) * B ≤ D * B := Nat.mul_le_mul_right B he
    have : e * B + B ≤ D * B := by linarith
    omega
  refine Tot.bind (gather_tot h hlt) ?_
  intro w hw
  have hw2 : RepA rep w D fun e => f (a * (D * B) + r + e * B) := by
    refine hw.congr fun e he => ?_
    rw [if_neg]
    rw [show a * (D * B) + r + e * B = a * (D * B) + e * B + r by ring, base_dec he hr]
    omega
  refine Tot.bind (hu _ _ hw2) ?_
  intro w' hw'
  refine (scatter_tot hB h hw' hlt).mono fun x' hx' => hx'.congr fun y hy => ?_
  obtain ⟨a', e, r', he, hr', rfl⟩ := dec hD hB y
  have hb := base_dec (a := a') he hr'
  by_cases c : ∃ e', e' < D ∧ a' * (D * B) + e * B + r' = a * (D * B) + r + e' * B
  · rw [if_pos c]
    obtain ⟨e', he', h2⟩ := c
    have h3 : a' * (D * B) + e * B + r' = a * (D * B) + e' * B + r := by omega
    have e1 : a' = a := by rw [← dec_div he hr' (a := a'), h3, dec_div he' hr]
    have e2 : r' = r := by rw [← dec_mod hr' (D := D) (a := a') (e := e), h3, dec_mod hr]
    have e3 : e = e' := by rw [← dec_digit he hr' (a := a'), h3, dec_digit he' hr]
    subst e1 e2 e3
    rw [if_pos (by rw [hb]; omega), h2, Nat.add_sub_cancel_left, Nat.mul_div_cancel _ hB, ← h2]
    unfold stage
    rw [dec_digit he hr', hb]
  · rw [if_neg c]
    by_cases c1 : base D B (a' * (D * B) + e * B + r') < a * (D * B) + r
    · rw [if_pos c1, if_pos (by omega)]
    · rw [if_neg c1, if_neg]
      intro c2
      rw [hb] at c1 c2
      refine c ⟨e, he, ?_⟩
      have : a' * (D * B) + r' = a * (D * B) + r := by omega
      omega

theorem block_tot {D B n q : Nat} {A : Nat → Nat → R} {unit : Array α → M (Array α)} (hu : UnitOk rep D unit A) (hD : 0 < D) (hB : 0 < B)
    (hn : n = q * (D * B)) {f : Nat → T} {x : Array α} (h : RepA rep x n f) :
    Tot (loop (rowStep D unit n B) n (0, x)) fun s => RepA rep s.2 n (stage A D B f) := by
  have hDB : 0 < D * B := Nat.mul_pos hD hB
  refine Tot.loop (P := fun (s : Nat × Array α) => ∃ a, s.1 = a * (D * B) ∧ RepA rep s.2 n fun y => if base D B y < a * (D * B) then stage A D B f y else f y)
    (fun s => n - s.1) ?_ ?_ ?_
  · rintro ⟨l, x⟩ ⟨a, rfl, hx⟩
    dsimp only at hx
    unfold rowStep
    dsimp only
    by_cases c : a * (D * B) < n
    · rw [if_pos c]
      have haq : a < q := by
        rw [hn] at c
        exact Nat.lt_of_mul_lt_mul_right c
      have hle : a * (D * B) + D * B ≤ n := by
        rw [hn]
        have := Nat.mul_le_mul_right (D * B) haq
        linarith
      refine Tot.bind (Tot.forUp (P := fun off (x : Array α) => RepA rep x n fun y => if base D B y < off then stage A D B f y else f y) (by omega) hx ?_) ?_
      · rintro off x h1 h2 hx
        obtain ⟨r, rfl⟩ : ∃ r, off = a * (D * B) + r := ⟨off - a * (D * B), by omega⟩
        exact offset_tot hu hD hB (by omega) hle hx
      · intro x' hx'
        refine Tot.pure ⟨⟨a + 1, by show a * (D * B) + D * B = _; ring, ?_⟩, by show n - (a * (D * B) + D * B) < n - a * (D * B); omega⟩
        refine hx'.congr fun y _ => ?_
        obtain ⟨a', e, r', he, hr', rfl⟩ := dec hD hB y
        rw [base_dec he hr']
        by_cases c1 : a' * (D * B) + r' < a * (D * B) + B
        · rw [if_pos c1, if_pos]
          have : B ≤ D * B := Nat.le_mul_of_pos_left B hD
          linarith
        · rw [if_neg c1, if_neg]
          intro c2
          have : a' < a + 1 := Nat.lt_of_mul_lt_mul_right (lt_of_le_of_lt (Nat.le_add_right _ r') c2)
          have h3 : a' * (D * B) ≤ a * (D * B) := Nat.mul_le_mul_right _ (by omega)
          omega
    · rw [if_neg c]
      refine Tot.pure (hx.congr fun y hy => ?_)
      rw [if_pos]
      have : base D B y ≤ y := by
        obtain ⟨a', e, r', he, hr', rfl⟩ := dec hD hB y
        rw [base_dec he hr']
        have : 0 ≤ e * B := Nat.zero_le _
        omega
      omega
  · exact ⟨0, by simp, h.congr fun y _ => by rw [if_neg (by omega)]⟩
  · show n - 0 ≤ n
    omega

/-! ### All stages -/

/-- Entry `(x, y)` of the `k`-th Kronecker power of `A`. -/
def kron (A : Nat → Nat → R) (D k x y : Nat) : R := ∏ d ∈ range k, A (x / D ^ d % D) (y / D ^ d % D)

theorem sum_mul {N : Type} [AddCommMonoid N] (D B : Nat) (h : Nat → N) : ∑ y ∈ range (D * B), h y = ∑ j ∈ range D, ∑ r ∈ range B, h (j * B + r) := by
  induction D with
  | zero => simp
  | succ D ih => rw [Nat.succ_mul, sum_range_add, ih, sum_range_succ]

theorem digit_low {D : Nat} (hD : 0 < D) {i d j r : Nat} (hd : d < i) : (j * D ^ i + r) / D ^ d % D = r / D ^ d % D := by
  obtain ⟨k, rfl⟩ : ∃ k, i = d + 1 + k := ⟨i - d - 1, by omega⟩
  rw [show j * D ^ (d + 1 + k) + r = r + D ^ d * (D * (j * D ^ k)) by rw [pow_add, pow_succ]; ring,
    Nat.add_mul_div_left _ _ (Nat.pow_pos hD), Nat.add_mul_mod_self_left]

theorem digit_top {D : Nat} (hD : 0 < D) {i j r : Nat} (hj : j < D) (hr : r < D ^ i) : (j * D ^ i + r) / D ^ i % D = j := by
  rw [show j * D ^ i + r = r + D ^ i * j by ring, Nat.add_mul_div_left _ _ (Nat.pow_pos hD), Nat.div_eq_of_lt hr, Nat.zero_add, Nat.mod_eq_of_lt hj]

theorem kron_right {A : Nat → Nat → R} {D : Nat} (hD : 0 < D) {i x j r : Nat} (hj : j < D) (hr : r < D ^ i) :
    kron A D (i + 1) x (j * D ^ i + r) = A (x / D ^ i % D) j * kron A D i x r := by
  unfold kron
  rw [prod_range_succ, digit_top hD hj hr, mul_comm]
  congr 1
  refine prod_congr rfl fun d hd => ?_
  rw [digit_low hD (mem_range.1 hd)]

theorem kron_left {A : Nat → Nat → R} {D : Nat} (hD : 0 < D) {i x j r : Nat} (hj : j < D) (hr : r < D ^ i) :
    kron A D (i + 1) (j * D ^ i + r) x = A j (x / D ^ i % D) * kron A D i r x := by
  unfold kron
  rw [prod_range_succ, digit_top hD hj hr, mul_comm]
  congr 1
  refine prod_congr rfl fun d hd => ?_
  rw [digit_low hD (mem_range.1 hd)]

/-- Value after the stages of weights below `D ^ i`. -/
def after (A : Nat → Nat → R) (D i : Nat) (f : Nat → T) (x : Nat) : T := ∑ y ∈ range (D ^ i), kron A D i x y • f (x / D ^ i * D ^ i + y)

theorem after_zero (A : Nat → Nat → R) (D : Nat) (f : Nat → T) (x : Nat) : after A D 0 f x = f x := by
  simp [after, kron]

theorem kron_congr {A : Nat → Nat → R} {D i x x' y : Nat} (hD : 0 < D) (h : x % D ^ i = x' % D ^ i) : kron A D i x y = kron A D i x' y := by
  unfold kron
  refine prod_congr rfl fun d hd => ?_
  have key : ∀ z, z / D ^ d % D = (z % D ^ i) / D ^ d % D := by
    intro z
    conv_lhs => rw [← Nat.div_add_mod z (D ^ i), Nat.mul_comm]
    exact digit_low hD (mem_range.1 hd)
  rw [key x, key x', h]

theorem stage_after {A : Nat → Nat → R} {D : Nat} (hD : 0 < D) (i : Nat) (f : Nat → T) (x : Nat) : stage A D (D ^ i) (after A D i f) x = after A D (i + 1) f x := by
  have hB : 0 < D ^ i := Nat.pow_pos hD
  unfold stage
  conv_rhs => unfold after
  rw [show D ^ (i + 1) = D * D ^ i by rw [pow_succ, Nat.mul_comm], sum_mul]
  refine sum_congr rfl fun j hj => ?_
  have hj' := mem_range.1 hj
  unfold after
  rw [smul_sum]
  refine sum_congr rfl fun r hr => ?_
  have hr' := mem_range.1 hr
  obtain ⟨a, e, s, he, hs, rfl⟩ := dec hD hB x
  rw [kron_right hD hj' hr', dec_digit he hs, smul_smul, base_dec he hs, dec_div he hs,
    show a * (D * D ^ i) + s + j * D ^ i = a * (D * D ^ i) + j * D ^ i + s by ring, dec_divB hs]
  congr 1
  · congr 1
    exact kron_congr hD (by rw [dec_mod hs, dec_mod hs])
  · congr 1
    ring

theorem transform_tot {D k : Nat} {A : Nat → Nat → R} {unit : Array α → M (Array α)} (hu : UnitOk rep D unit A) (hD : 2 ≤ D) {f : Nat → T} {x : Array α}
    (h : RepA rep x (D ^ k) f) : Tot (transform D unit x) fun x' => RepA rep x' (D ^ k) fun i => ∑ y ∈ range (D ^ k), kron A D k i y • f y := by
  unfold transform
  have hs := h.1
  rw [hs]
  refine Tot.bind (Tot.loop (P := fun (s : Nat × Array α) => ∃ i, i ≤ k ∧ s.1 = D ^ i ∧ RepA rep s.2 (D ^ k) (after A D i f))
    (Q := fun s => RepA rep s.2 (D ^ k) (after A D k f)) (fun s => D ^ k - s.1) ?_ ?_ ?_) ?_
  · rintro ⟨B, x⟩ ⟨i, hi, rfl, hx⟩
    dsimp only at hx
    unfold blockStep
    dsimp only
    have hpos : 0 < D ^ i := Nat.pow_pos (by omega)
    by_cases c : D ^ i < D ^ k
    · rw [if_pos c]
      have hik : i < k := (Nat.pow_lt_pow_iff_right (by omega)).1 c
      have hdiv : D ^ k = D ^ (k - i - 1) * (D * D ^ i) := by
        rw [show D * D ^ i = D ^ (i + 1) by rw [pow_succ, Nat.mul_comm], ← pow_add]
        congr 1; omega
      refine Tot.bind (block_tot hu (by omega) hpos hdiv hx) ?_
      rintro ⟨l, x'⟩ hx'
      refine Tot.pure ⟨⟨i + 1, hik, by show D ^ i * D = _; rw [pow_succ], hx'.congr fun y _ => stage_after (by omega) i f y⟩, ?_⟩
      show D ^ k - D ^ i * D < D ^ k - D ^ i
      have : D ^ i * 2 ≤ D ^ i * D := Nat.mul_le_mul_left _ hD
      omega
    · rw [if_neg c]
      have : i = k := by
        by_contra hne
        exact c ((Nat.pow_lt_pow_iff_right (by omega)).2 (by omega))
      subst this
      exact Tot.pure hx
  · exact ⟨0, Nat.zero_le _, by simp, h.congr fun y _ => (after_zero A D f y).symm⟩
  · show D ^ k - 1 ≤ D ^ k
    omega
  · rintro ⟨B, x⟩ hx
    refine Tot.pure (hx.congr fun y hy => ?_)
    unfold after
    rw [Nat.div_eq_of_lt hy]
    simp

/-- The Kronecker power of a product of matrices. -/
theorem kron_mul {A B C : Nat → Nat → R} {D : Nat} (hD : 0 < D) (hC : ∀ i, i < D → ∀ j, j < D → ∑ e ∈ range D, A i e * B e j = C i j) (k x z : Nat) :
    ∑ y ∈ range (D ^ k), kron A D k x y * kron B D k y z = kron C D k x z := by
  induction k with
  | zero => simp [kron]
  | succ k ih =>
    rw [show D ^ (k + 1) = D * D ^ k by rw [pow_succ, Nat.mul_comm], sum_mul]
    have : ∀ j ∈ range D, ∑ r ∈ range (D ^ k), kron A D (k + 1) x (j * D ^ k + r) * kron B D (k + 1) (j * D ^ k + r) z =
        (A (x / D ^ k % D) j * B j (z / D ^ k % D)) * kron C D k x z := by
      intro j hj
      rw [← ih, mul_sum]
      refine sum_congr rfl fun r hr => ?_
      rw [kron_right hD (mem_range.1 hj) (mem_range.1 hr), kron_left hD (mem_range.1 hj) (mem_range.1 hr)]
      ring
    rw [sum_congr rfl this, ← Finset.sum_mul, hC _ (Nat.mod_lt _ hD) _ (Nat.mod_lt _ hD)]
    unfold kron
    rw [prod_range_succ, mul_comm]

end Kronecker
