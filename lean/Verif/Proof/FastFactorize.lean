import Verif.Model.FastFactorize
import Mathlib.Data.Nat.Prime.Basic
import Mathlib.Data.Nat.ModEq
import Mathlib.Data.Nat.Log
import Mathlib.Algebra.BigOperators.Group.List.Basic
import Mathlib.Algebra.BigOperators.Group.Finset.Basic
import Mathlib.Data.Finset.Card
import Mathlib.Tactic.Ring

/-! # Pollard's rho method: proofs -/

namespace FastFactorize
open Cxx

theorem floorLog2_tot {n : Nat} (hn : n < 2 ^ 64) : Tot (floorLog2 n) fun _ => True := by
  unfold floorLog2
  refine Tot.bind (P := fun _ => True) ?_ fun _ _ => Tot.pure trivial
  refine Tot.loopG (P := fun k s => s.2 < 2 ^ k) (k := 64) ?_ hn (le_refl _)
  rintro k ⟨i, m⟩ h
  dsimp only at h
  unfold log2Step
  dsimp only
  by_cases h0 : m = 0
  · rw [if_pos h0]; exact Tot.pure trivial
  · rw [if_neg h0]
    refine Tot.pure ?_
    cases k with
    | zero => simp at h; omega
    | succ k => exact ⟨k, by omega, by dsimp only; rw [pow_succ] at h; omega⟩

/-! ### The sequence modulo a prime factor -/

/-- The iterates of `f`. -/
def Y (n c i : Nat) : Nat := (f n c)^[i] 2

theorem Y_succ (n c i : Nat) : Y n c (i + 1) = f n c (Y n c i) := Function.iterate_succ_apply' _ _ _

theorem Y_add (n c i j : Nat) : (f n c)^[j] (Y n c i) = Y n c (i + j) := by
  unfold Y
  rw [Nat.add_comm, Function.iterate_add_apply]

theorem f_mod {n p : Nat} (h : p ∣ n) (c : Nat) {x y : Nat} (hxy : x % p = y % p) : f n c x % p = f n c y % p := by
  unfold f
  rw [Nat.mod_mod_of_dvd _ h, Nat.mod_mod_of_dvd _ h]
  exact Nat.ModEq.add_right c (Nat.ModEq.mul hxy hxy)

theorem Y_shift {n p : Nat} (h : p ∣ n) (c : Nat) {i j : Nat} (hij : Y n c i % p = Y n c j % p) (d : Nat) :
    Y n c (i + d) % p = Y n c (j + d) % p := by
  induction d with
  | zero => exact hij
  | succ d ih =>
    rw [← Nat.add_assoc, ← Nat.add_assoc, Y_succ, Y_succ]
    exact f_mod h c ih

theorem Y_period {n p : Nat} (h : p ∣ n) (c : Nat) {i l : Nat} (hij : Y n c i % p = Y n c (i + l) % p) {j : Nat} (hj : i ≤ j) (t : Nat) :
    Y n c j % p = Y n c (j + l * t) % p := by
  induction t with
  | zero => rfl
  | succ t ih =>
    rw [ih]
    have := Y_shift h c hij (j - i + l * t)
    rw [show i + (j - i + l * t) = j + l * t by omega, show i + l + (j - i + l * t) = j + l * (t + 1) by rw [Nat.mul_succ]; omega] at this
    exact this

theorem Y_collide {n p : Nat} (h : p ∣ n) (hp : 0 < p) (c : Nat) : ∃ i l, i < p ∧ 0 < l ∧ l ≤ p ∧ Y n c i % p = Y n c (i + l) % p := by
  obtain ⟨a, ha, b, hb, hne, e⟩ := Finset.exists_ne_map_eq_of_card_lt_of_maps_to (s := Finset.range (p + 1)) (t := Finset.range p)
    (by simp) (f := fun i => Y n c i % p) (fun i _ => by simpa using Nat.mod_lt _ hp)
  simp only [Finset.mem_range] at ha hb
  rcases Nat.lt_or_gt_of_ne hne with hl | hl
  · exact ⟨a, b - a, by omega, by omega, by omega, by rw [show a + (b - a) = b by omega]; exact e⟩
  · exact ⟨b, a - b, by omega, by omega, by omega, by rw [show b + (a - b) = a by omega]; exact e.symm⟩

theorem dist_mod {p x y : Nat} (h : x % p = y % p) : p ∣ dist x y := by
  unfold dist
  by_cases hx : x > y
  · rw [if_pos hx]
    exact (Nat.modEq_iff_dvd' hx.le).1 (show y % p = x % p from h.symm)
  · rw [if_neg hx]
    exact (Nat.modEq_iff_dvd' (by omega)).1 (show x % p = y % p from h)

/-- As soon as `r` has reached a prime factor, the round finds it. -/
theorem round_hits {n p : Nat} (h : p ∣ n) (hp : 2 ≤ p) (c : Nat) {r : Nat} (hr : p ≤ r) :
    ∃ i, r < i ∧ i ≤ 2 * r ∧ p ∣ dist (Y n c (2 * (r - 1))) (Y n c (2 * (r - 1) + i)) := by
  obtain ⟨i, l, hi, hl, hlp, e⟩ := Y_collide h (by omega) c
  have hd := Nat.div_add_mod r l
  have hm := Nat.mod_lt r hl
  refine ⟨l * (r / l + 1), by rw [Nat.mul_succ]; omega, by rw [Nat.mul_succ]; omega, ?_⟩
  exact dist_mod (Y_period h c e (by omega) _)

/-! ### One batch -/

theorem batch_iter (n c x i : Nat) (q : Nat) : ∀ L,
    (batchStep n c x)^[L] (Y n c i, q) = (Y n c (i + L), ((batchStep n c x)^[L] (Y n c i, q)).2) ∧
    (((batchStep n c x)^[L] (Y n c i, q)).2 ≡ q * ((List.range L).map fun j => dist x (Y n c (i + j + 1))).prod [MOD n]) := by
  intro L
  induction L with
  | zero => exact ⟨rfl, by simp only [Function.iterate_zero, id, List.range_zero, List.map_nil, List.prod_nil, Nat.mul_one]; exact Nat.ModEq.refl _⟩
  | succ L ih =>
    obtain ⟨h1, h2⟩ := ih
    obtain ⟨u, hu⟩ : ∃ u, u = ((batchStep n c x)^[L] (Y n c i, q)).2 := ⟨_, rfl⟩
    rw [← hu] at h1 h2
    rw [Function.iterate_succ_apply', h1]
    unfold batchStep
    dsimp only
    rw [← Y_succ]
    refine ⟨rfl, ?_⟩
    rw [List.range_succ, List.map_append, List.prod_append, List.map_cons, List.map_nil, List.prod_cons, List.prod_nil, Nat.mul_one,
      ← Nat.mul_assoc]
    exact (Nat.mod_modEq _ _).trans (h2.mul_right _)

theorem gcd_congr {a b n : Nat} (h : a ≡ b [MOD n]) : Nat.gcd a n = Nat.gcd b n := Nat.ModEq.gcd_eq h

theorem coprime_prod {n : Nat} {l : List Nat} : Nat.Coprime l.prod n ↔ ∀ x ∈ l, Nat.Coprime x n := by
  induction l with
  | nil => simp
  | cons a l ih => simp [Nat.coprime_mul_iff_left, ih]

/-! ### The rounds -/

/-- What is known when a common factor has been found: it comes from one of the `L` terms after `ys`. -/
def Hit (n c m x ys g : Nat) : Prop :=
  g ≠ 1 ∧ g ∣ n ∧ ∃ s L, ys = Y n c s ∧ L ≤ m ∧ ∃ j < L, ¬ Nat.Coprime (dist x (Y n c (s + j + 1))) n

theorem batches_tot {n c m r x ys q : Nat} (hm : 0 < m) (j0 : Nat) (hx : x = Y n c j0) (hq : Nat.Coprime q n) :
    Tot (loop (batch n c m r x) r ⟨0, Y n c (j0 + r), ys, q, 1⟩) fun b =>
      Hit n c m x b.ys b.g ∨ (b.g = 1 ∧ b.y = Y n c (j0 + 2 * r) ∧ Nat.Coprime b.q n ∧
        ∀ i, r < i → i ≤ 2 * r → Nat.Coprime (dist x (Y n c (j0 + i))) n) := by
  refine Tot.loop (P := fun b : Batch => Hit n c m x b.ys b.g ∨ (b.g = 1 ∧ b.y = Y n c (j0 + r + min b.k r) ∧ Nat.Coprime b.q n ∧
      ∀ i, r < i → i ≤ r + b.k → i ≤ 2 * r → Nat.Coprime (dist x (Y n c (j0 + i))) n)) (fun b => r - b.k) ?_ ?_ (by dsimp only; omega)
  · rintro ⟨k, y, ys, q, g⟩ h
    dsimp only at h ⊢
    unfold batch
    dsimp only
    by_cases hc : k < r ∧ g = 1
    · rw [if_pos hc]
      refine Tot.pure ⟨?_, by dsimp only; omega⟩
      dsimp only
      rcases h with h | ⟨-, hy, hq, hi⟩
      · exact absurd hc.2 h.1
      subst hy
      obtain ⟨h1, h2⟩ := batch_iter n c x (j0 + r + min k r) q (min m (r - k))
      obtain ⟨u, hu⟩ : ∃ u, u = ((batchStep n c x)^[min m (r - k)] (Y n c (j0 + r + min k r), q)).2 := ⟨_, rfl⟩
      rw [← hu] at h1 h2
      rw [h1]
      dsimp only
      by_cases hg : Nat.gcd u n = 1
      · right
        rw [gcd_congr h2] at hg
        have hpr := (Nat.coprime_mul_iff_left.1 hg).2
        rw [coprime_prod] at hpr
        refine ⟨by rw [gcd_congr h2]; exact hg, ?_, ?_, ?_⟩
        · congr 1
          omega
        · show Nat.gcd u n = 1
          rw [gcd_congr h2]; exact hg
        · intro i h3 h4 h5
          by_cases h6 : i ≤ r + k
          · exact hi i h3 h6 h5
          · refine hpr _ (List.mem_map.2 ⟨i - r - k - 1, List.mem_range.2 (by omega), ?_⟩)
            congr 2
            omega
      · left
        refine ⟨hg, Nat.gcd_dvd_right _ _, j0 + r + min k r, min m (r - k), rfl, Nat.min_le_left _ _, ?_⟩
        by_contra hall
        apply hg
        rw [gcd_congr h2]
        refine Nat.coprime_mul_iff_left.2 ⟨hq, coprime_prod.2 ?_⟩
        intro z hz
        obtain ⟨j, hj, rfl⟩ := List.mem_map.1 hz
        by_contra hn
        exact hall ⟨j, List.mem_range.1 hj, hn⟩
    · rw [if_neg hc]
      refine Tot.pure ?_
      rcases h with h | ⟨hg, hy, hq, hi⟩
      · exact .inl h
      · right
        have hk : r ≤ k := by
          by_contra hk
          exact hc ⟨by omega, hg⟩
        refine ⟨hg, by rw [hy]; congr 1; omega, hq, fun i h1 h2 => hi i h1 (by omega) h2⟩
  · right
    dsimp only
    exact ⟨rfl, by simp, hq, fun i h1 h2 _ => by omega⟩

theorem rounds_tot {n c m p : Nat} (hm : 0 < m) (hp : p ∣ n) (hp2 : 2 ≤ p) (hb : p < 2 ^ 32) (hn : n ≠ 1) :
    Tot (loop (round n c m) 64 ⟨1, 0, 2, 0, 1, 1⟩) fun s => Hit n c m s.x s.ys s.g := by
  refine Tot.loopG (P := fun k (s : Rho) => (Hit n c m s.x s.ys s.g ∧ 0 ≤ k) ∨ ∃ t, k + t = 64 ∧ t ≤ 32 ∧ s.r = 2 ^ t ∧ s.g = 1 ∧ s.y = Y n c (2 * (s.r - 1)) ∧
    Nat.Coprime s.q n) (k := 64) ?_ ?_ (le_refl _)
  · rintro k ⟨r, x, y, ys, q, g⟩ h
    dsimp only at h
    unfold round
    dsimp only
    rcases h with ⟨h, -⟩ | ⟨t, hkt, ht, hr, hg, hy, hq⟩
    · rw [if_neg h.1]
      exact Tot.pure h
    · rw [if_pos hg]
      have hr0 : 0 < r := by rw [hr]; exact Nat.two_pow_pos t
      have hr1 : r ≤ 2 ^ 32 := by rw [hr]; exact Nat.pow_le_pow_right (by omega) ht
      subst hg
      refine Tot.bind (P := fun b : Batch => Hit n c m y b.ys b.g ∨ (b.g = 1 ∧ b.y = Y n c (2 * (r - 1) + 2 * r) ∧ Nat.Coprime b.q n ∧
        ∀ i, r < i → i ≤ 2 * r → Nat.Coprime (dist y (Y n c (2 * (r - 1) + i))) n)) ?_ ?_
      · rw [hy, Y_add]
        exact batches_tot hm (2 * (r - 1)) rfl hq
      · rintro ⟨k', y', ys', q', g'⟩ hb'
        dsimp only at hb' ⊢
        rw [i64_ok ⟨by omega, by omega⟩, ok_bind]
        refine Tot.pure ?_
        dsimp only
        refine ⟨k - 1, by omega, ?_⟩
        rcases hb' with h | ⟨hg, hy', hq', hi⟩
        · exact .inl ⟨h, by omega⟩
        · right
          have hrp : r < p := by
            by_contra hle
            obtain ⟨i, h1, h2, h3⟩ := round_hits hp hp2 c (show p ≤ r by omega)
            have := hi i h1 h2
            rw [hy] at this
            have hd := Nat.dvd_gcd h3 hp
            rw [this] at hd
            have := Nat.le_of_dvd (by omega) hd
            omega
          have ht' : t < 32 := by
            by_contra hle
            have : 2 ^ 32 ≤ r := by rw [hr]; exact Nat.pow_le_pow_right (by omega) (by omega)
            omega
          refine ⟨t + 1, by omega, by omega, by rw [hr, pow_succ]; omega, hg, ?_, hq'⟩
          rw [hy']
          congr 1
          omega
  · right
    exact ⟨0, by omega, by omega, by simp, rfl, by simp [Y], Nat.coprime_one_left n⟩

theorem retry_tot {n c m : Nat} {s : Rho} (hn : 1 < n) (h : Hit n c m s.x s.ys s.g) : Tot (retry n c m s) fun g => g ≠ 1 ∧ g ∣ n := by
  obtain ⟨hg, hd, st, L, hys, hL, j, hj, hnc⟩ := h
  unfold retry
  by_cases hgn : s.g = n
  · rw [if_pos hgn]
    refine Tot.bind (P := fun t => t.2 ≠ 1 ∧ t.2 ∣ n) ?_ fun t ht => Tot.pure ht
    refine Tot.loopG (P := fun k t => (t.2 ≠ 1 ∧ t.2 ∣ n ∧ 0 ≤ k) ∨ (t.2 = 1 ∧ ∃ i ≤ j, k + i = m + 1 ∧ t.1 = Y n c (st + i))) (k := m + 1) ?_ ?_ (le_refl _)
    · rintro k ⟨y, g⟩ h
      dsimp only at h
      unfold retryStep
      dsimp only
      rcases h with ⟨h1, h2, -⟩ | ⟨h1, i, hi, hk, hy⟩
      · rw [if_neg h1]; exact Tot.pure ⟨h1, h2⟩
      · rw [if_pos h1]
        refine Tot.pure ⟨k - 1, by omega, ?_⟩
        dsimp only
        rw [hy, ← Y_succ]
        by_cases hg1 : Nat.gcd (dist s.x (Y n c (st + i + 1))) n = 1
        · right
          refine ⟨hg1, i + 1, ?_, by omega, rfl⟩
          by_contra hle
          have : i = j := by omega
          exact hnc (this ▸ hg1)
        · exact .inl ⟨hg1, Nat.gcd_dvd_right _ _, by omega⟩
    · right
      exact ⟨rfl, 0, by omega, by omega, hys⟩
  · rw [if_neg hgn]
    exact Tot.pure ⟨hg, hd⟩

theorem small_factor {n : Nat} (hn : 1 < n) (hp : ¬ n.Prime) : n.minFac * n.minFac ≤ n := by
  have := Nat.minFac_sq_le_self (by omega) hp
  rwa [pow_two] at this

theorem search_tot {n c : Nat} (hn : 1 < n) (hb : n < 2 ^ 63) (hp : ¬ n.Prime) : Tot (search n c) fun g => g ≠ 1 ∧ g ∣ n := by
  unfold search
  refine Tot.bind (floorLog2_tot (by omega)) fun e _ => ?_
  have hpr := Nat.minFac_prime (n := n) (by omega)
  have hs := small_factor hn hp
  have hlt : n.minFac < 2 ^ 32 := by
    by_contra h
    have := Nat.mul_le_mul (show 2 ^ 32 ≤ n.minFac by omega) (show 2 ^ 32 ≤ n.minFac by omega)
    omega
  refine Tot.bind (rounds_tot (Nat.two_pow_pos _) (Nat.minFac_dvd n) hpr.two_le hlt (by omega)) fun s h => retry_tot hn h

/-- The contract of the primality test: it answers, and accepts every prime. -/
def Accepts (prm : Nat → M Bool) : Prop := ∀ m < 2 ^ 63, ∃ b, prm m = .ok b ∧ (m.Prime → b = true)

theorem pollard_tot {prm : Nat → M Bool} (hprm : Accepts prm) : ∀ (cs : List Nat) {n : Nat}, 1 < n → n < 2 ^ 63 → ¬ n.Prime →
    Tot (pollard prm cs n) fun o => ∀ p, o = some p → 1 < p ∧ p ∣ n ∧ prm p = .ok true
  | [], n, _, _, _ => Tot.pure fun p h => by simp at h
  | c :: cs, n, hn, hb, hp => by
    unfold pollard
    refine Tot.bind (search_tot hn hb hp) fun g ⟨hg, hd⟩ => ?_
    have hg0 : 0 < g := Nat.pos_of_dvd_of_pos hd (by omega)
    by_cases hlt : g < n
    · rw [if_pos hlt]
      obtain ⟨b, e, hb1⟩ := hprm g (by omega)
      rw [e, ok_bind]
      cases b with
      | true =>
        rw [if_pos rfl]
        refine Tot.pure fun p h => ?_
        obtain rfl := Option.some.inj h
        exact ⟨by omega, hd, e⟩
      | false =>
        rw [if_neg (by simp)]
        obtain ⟨k, hk⟩ := hd
        have hdiv : n / g = k := by rw [hk]; exact Nat.mul_div_cancel_left _ hg0
        have hk1 : 1 < k := by
          by_contra h
          have : k = 0 ∨ k = 1 := by omega
          rcases this with rfl | rfl <;> omega
        have hkd : k ∣ n := ⟨g, by rw [hk, Nat.mul_comm]⟩
        have hkn := Nat.le_of_dvd (by omega) hkd
        rw [hdiv]
        obtain ⟨b, e', hb2⟩ := hprm k (by omega)
        rw [e', ok_bind]
        cases b with
        | true =>
          rw [if_pos rfl]
          refine Tot.pure fun p h => ?_
          obtain rfl := Option.some.inj h
          exact ⟨hk1, hkd, e'⟩
        | false =>
          rw [if_neg (by simp)]
          refine (pollard_tot hprm cs (n := g) (by omega) (by omega) (fun h => by simpa using hb1 h)).mono ?_
          intro o ho p hp
          obtain ⟨h1, h2, h3⟩ := ho p hp
          exact ⟨h1, h2.trans ⟨k, hk⟩, h3⟩
    · rw [if_neg hlt]
      exact pollard_tot hprm cs hn hb hp

end FastFactorize
