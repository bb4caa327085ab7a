import Verif.Model.ModArith
import Mathlib.Tactic.Ring
import Mathlib.Tactic.Linarith
import Mathlib.Data.Int.ModEq
import Mathlib.Data.Nat.ModEq
import Mathlib.Algebra.Group.Basic
import Mathlib.Algebra.Group.Defs

/-! # Proofs about modular arithmetic -/

namespace Powi
open Cxx

/-- Binary exponentiation under an invariant `R t k`: "`t` represents the `k`-th power". -/
theorem powi_tot {T : Type} {mul : T → T → M T} {one a : T} (R : T → Nat → Prop) (h1 : R one 0) (ha : R a 1)
    (b : Nat) (hm : ∀ x y i j, i + j ≤ 2 * b → R x i → R y j → Tot (mul x y) fun z => R z (i + j)) : Tot (powi mul one a b) fun r => R r b := by
  unfold powi
  refine Tot.bind (Tot.loop (P := fun (s : Nat × T × T) => ∃ i k, R s.2.1 i ∧ R s.2.2 k ∧ i + k * s.1 = b) (Q := fun s => R s.2.1 b) (fun s => s.1) ?_ ?_ (le_refl _)) ?_
  · rintro ⟨n, r, p⟩ ⟨i, k, hr, hp, e⟩
    dsimp only at hr hp e
    unfold powStep
    by_cases c : n = 0
    · rw [if_pos c]
      subst c
      refine Tot.pure ?_
      show R r b
      rw [← e]; simpa using hr
    · rw [if_neg c]
      have hn := Nat.div_add_mod n 2
      have hk : k ≤ k * n := Nat.le_mul_of_pos_right k (by omega)
      refine Tot.bind (P := fun r' => R r' (i + k * (n % 2))) ?_ fun r' hr' => ?_
      · unfold condMul
        by_cases d : n % 2 = 1
        · simp only [d, if_true, Nat.mul_one]; exact hm _ _ _ _ (by omega) hr hp
        · rw [if_neg d]
          have : n % 2 = 0 := by omega
          rw [this]; exact Tot.pure hr
      · refine Tot.bind (hm _ _ _ _ (by omega) hp hp) fun p' hp' => Tot.pure ⟨⟨_, _, hr', hp', ?_⟩, ?_⟩
        · show i + k * (n % 2) + (k + k) * (n / 2) = b
          rw [← e]
          conv_rhs => rw [← hn]
          ring
        · show n / 2 < n
          omega
  · exact ⟨0, 1, h1, ha, by simp⟩
  · intro s hs; exact Tot.pure hs

end Powi

namespace Barrett
open Cxx

theorem L_eq {m : Nat} (hm : 2 ≤ m) (hm' : m < 2 ^ 64) : ∃ e < m, L m * m = 2 ^ 64 + e := by
  unfold L
  have h1 : (2 ^ 64 - 1) / m + 1 < 2 ^ 64 := by
    have : (2 ^ 64 - 1) / m ≤ (2 ^ 64 - 1) / 2 := Nat.div_le_div_left hm (by norm_num)
    omega
  rw [Nat.mod_eq_of_lt h1]
  have h2 := Nat.div_add_mod (2 ^ 64 - 1) m
  have h3 := Nat.mod_lt (2 ^ 64 - 1) (show 0 < m by omega)
  refine ⟨m - 1 - (2 ^ 64 - 1) % m, by omega, ?_⟩
  rw [Nat.add_mul, Nat.mul_comm ((2 ^ 64 - 1) / m)]
  omega

theorem quo_near {m x : Nat} (hm : 2 ≤ m) (hm' : m < 2 ^ 64) (hx : x < 2 ^ 64) :
    x * L m / 2 ^ 64 = x / m ∨ x * L m / 2 ^ 64 = x / m + 1 := by
  obtain ⟨e, he, hL⟩ := L_eq hm hm'
  obtain ⟨l, hl⟩ : ∃ l, l = L m := ⟨_, rfl⟩
  obtain ⟨k, hk⟩ : ∃ k, k = x / m := ⟨_, rfl⟩
  rw [← hl] at hL ⊢
  rw [← hk]
  have h1 := Nat.div_add_mod x m
  have h2 := Nat.mod_lt x (show 0 < m by omega)
  rw [← hk] at h1
  obtain ⟨s, hs⟩ : ∃ s, s = x % m := ⟨_, rfl⟩
  rw [← hs] at h1 h2
  have lo : k * 2 ^ 64 ≤ x * l := by
    have : k * (l * m) ≤ x * l := by
      calc k * (l * m) = (m * k) * l := by ring
        _ ≤ x * l := Nat.mul_le_mul_right _ (by omega)
    rw [hL] at this
    exact Nat.le_trans (Nat.mul_le_mul_left k (Nat.le_add_right (2 ^ 64) e)) this
  have hi : x * l < (k + 2) * 2 ^ 64 := by
    have hxe : x * e < 2 ^ 64 * m := by
      rcases Nat.eq_zero_or_pos e with rfl | he0
      · simp; omega
      · calc x * e < 2 ^ 64 * e := Nat.mul_lt_mul_of_pos_right hx he0
          _ ≤ 2 ^ 64 * m := Nat.mul_le_mul_left _ (le_of_lt he)
    have h3 : x * l * m = x * 2 ^ 64 + x * e := by rw [Nat.mul_assoc, hL, Nat.mul_add]
    have h4 : x * l * m < (k + 2) * 2 ^ 64 * m := by
      have e1 : (k + 2) * 2 ^ 64 * m = (m * k + m) * 2 ^ 64 + 2 ^ 64 * m := by ring
      have e2 : x * 2 ^ 64 ≤ (m * k + m) * 2 ^ 64 := Nat.mul_le_mul_right _ (by omega)
      omega
    exact Nat.lt_of_mul_lt_mul_right h4
  have b1 : k ≤ x * l / 2 ^ 64 := (Nat.le_div_iff_mul_le (by norm_num)).2 lo
  have b2 : x * l / 2 ^ 64 < k + 2 := (Nat.div_lt_iff_lt_mul (by norm_num)).2 hi
  omega

theorem quorem_eq {care : Bool} {m x : Nat} (hm : 1 ≤ m) (hc : care = true ∨ 2 ≤ m) (hm' : m ≤ 2 ^ 31) (hx : x < 2 ^ 64) :
    quorem care m x = (x / m, x % m) := by
  unfold quorem
  by_cases c : care = true ∧ m = 1
  · rw [if_pos (by simpa using c), c.2]
    simp [Nat.mod_one]
  rw [if_neg (by simpa using c)]
  have hm2 : 2 ≤ m := by
    rcases hc with h | h
    · have : m ≠ 1 := fun e => c ⟨h, e⟩
      omega
    · exact h
  have h1 := Nat.div_add_mod x m
  have h2 := Nat.mod_lt x (show 0 < m by omega)
  have hkm : m * (x / m) ≤ x := Nat.mul_div_le x m
  dsimp only
  rcases quo_near hm2 (by omega) hx with e | e
  · rw [e]
    have e1 : x / m * m = m * (x / m) := Nat.mul_comm _ _
    have hr : rest m x (x / m) = (x % m : Nat) := by
      unfold rest
      rw [Nat.mod_eq_of_lt (show x / m * m < 2 ^ 64 by omega)]
      rw [show x + 2 ^ 64 - x / m * m = x % m + 2 ^ 64 by omega, Nat.add_mod_right, Nat.mod_eq_of_lt (by omega)]
      exact toI32_of_lt (by omega)
    rw [hr]
    unfold fix
    rw [if_neg (by omega)]
    rfl
  · rw [e]
    have e1 : (x / m + 1) * m = m * (x / m) + m := by ring
    have hr : rest m x (x / m + 1) = (x % m : Nat) - (m : Int) := by
      unfold rest
      have hmod : (x + 2 ^ 64 - (x / m + 1) * m % 2 ^ 64) % 2 ^ 64 = 2 ^ 64 - (m - x % m) := by
        rcases Nat.lt_or_ge ((x / m + 1) * m) (2 ^ 64) with c | c
        · rw [Nat.mod_eq_of_lt c, Nat.mod_eq_of_lt (by omega)]; omega
        · have : (x / m + 1) * m % 2 ^ 64 = (x / m + 1) * m - 2 ^ 64 := by
            rw [Nat.mod_eq_sub_mod c, Nat.mod_eq_of_lt (by omega)]
          rw [this]
          rw [show x + 2 ^ 64 - ((x / m + 1) * m - 2 ^ 64) = (2 ^ 64 - (m - x % m)) + 2 ^ 64 by omega, Nat.add_mod_right, Nat.mod_eq_of_lt (by omega)]
      rw [hmod]
      unfold toI32
      have : (2 ^ 64 - (m - x % m)) % 2 ^ 32 = 2 ^ 32 - (m - x % m) := by omega
      rw [this, if_neg (by omega)]
      omega
    rw [hr]
    unfold fix
    rw [if_pos (by omega)]
    have hk : x / m < 2 ^ 64 := lt_of_le_of_lt (Nat.div_le_self _ _) hx
    refine Prod.ext ?_ ?_
    · show (x / m + 1 + 2 ^ 64 - 1) % 2 ^ 64 = x / m
      rw [show x / m + 1 + 2 ^ 64 - 1 = x / m + 2 ^ 64 by omega, Nat.add_mod_right, Nat.mod_eq_of_lt hk]
    · show ((((x % m : Nat) : Int) - m + m) % 2 ^ 32).toNat = x % m
      rw [show ((x % m : Nat) : Int) - m + m = (x % m : Nat) by omega, Int.emod_eq_of_lt (by omega) (by omega)]
      rfl

theorem quo_wrong {m : Nat} (hm : 2 ^ 31 < m) (hm' : m < 2 ^ 32) (care : Bool) : (quorem care m (2 ^ 31)).1 = 2 ^ 64 - 1 := by
  unfold quorem
  rw [if_neg (by omega)]
  have hL : L m < 2 ^ 33 := by
    unfold L
    have : (2 ^ 64 - 1) / m < 2 ^ 33 - 1 := by
      rw [Nat.div_lt_iff_lt_mul (by omega)]
      have : (2 ^ 33 - 1) * (2 ^ 31 + 1) ≤ (2 ^ 33 - 1) * m := Nat.mul_le_mul_left _ (by omega)
      omega
    rw [Nat.mod_eq_of_lt (by omega)]; omega
  have hq : 2 ^ 31 * L m / 2 ^ 64 = 0 := Nat.div_eq_of_lt (by omega)
  rw [hq]
  dsimp only
  have : rest m (2 ^ 31) 0 = -2 ^ 31 := by
    unfold rest; simp; decide
  rw [this]
  unfold fix
  rw [if_pos (by norm_num)]
  rfl

end Barrett

namespace Montgomery
open Cxx

theorem pow_two_mul (w : Nat) : 2 ^ (2 * w) = 2 ^ w * 2 ^ w := by rw [two_mul, pow_add]

theorem mod_mod_D (w x : Nat) : x % 2 ^ (2 * w) % 2 ^ w = x % 2 ^ w := by
  apply Nat.mod_mod_of_dvd
  rw [pow_two_mul]; exact Dvd.intro _ rfl

theorem newton_step {w n c inv : Nat} (h : ((n : Int) * inv) ≡ 1 [ZMOD (2 : Int) ^ min c w]) :
    ((n : Int) * (inv * ((2 + 2 ^ (2 * w) - n * inv % 2 ^ (2 * w)) % 2 ^ (2 * w) % 2 ^ w) % 2 ^ (2 * w) % 2 ^ w : Nat)) ≡ 1 [ZMOD (2 : Int) ^ min (2 * c) w] := by
  rw [mod_mod_D, mod_mod_D]
  have hd : (2 : Int) ^ min (2 * c) w ∣ 2 ^ w := pow_dvd_pow _ (Nat.min_le_right _ _)
  have hD : (2 : Int) ^ w ∣ 2 ^ (2 * w) := pow_dvd_pow _ (by omega)
  have hlt : n * inv % 2 ^ (2 * w) < 2 ^ (2 * w) := Nat.mod_lt _ (by positivity)
  have e1 : (((2 + 2 ^ (2 * w) - n * inv % 2 ^ (2 * w)) % 2 ^ w : Nat) : Int) ≡ 2 - n * inv [ZMOD (2 : Int) ^ w] := by
    rw [Int.natCast_mod, Nat.cast_sub (by omega)]
    push_cast
    refine (Int.mod_modEq _ _).trans ?_
    have a1 : ((n : Int) * inv % 2 ^ (2 * w)) ≡ n * inv [ZMOD (2 : Int) ^ w] := (Int.mod_modEq _ _).of_dvd hD
    have a2 : ((2 : Int) + 2 ^ (2 * w)) ≡ 2 [ZMOD (2 : Int) ^ w] := by
      rw [Int.modEq_iff_dvd]
      have : (2 : Int) - (2 + 2 ^ (2 * w)) = -2 ^ (2 * w) := by ring
      rw [this]; exact Int.dvd_neg.2 hD
    exact a2.sub a1
  have e2 : ((inv * ((2 + 2 ^ (2 * w) - n * inv % 2 ^ (2 * w)) % 2 ^ w) % 2 ^ w : Nat) : Int) ≡ inv * (2 - n * inv) [ZMOD (2 : Int) ^ w] := by
    rw [Int.natCast_mod, Nat.cast_mul]
    push_cast at e1 ⊢
    exact (Int.mod_modEq _ _).trans (e1.mul_left _)
  have e3 := (e2.of_dvd hd).mul_left (n : Int)
  refine e3.trans ?_
  rw [Int.modEq_iff_dvd] at h ⊢
  have e4 : (1 : Int) - n * (inv * (2 - n * inv)) = (1 - n * inv) * (1 - n * inv) := by ring
  rw [e4]
  refine Dvd.dvd.trans ?_ (mul_dvd_mul h h)
  rw [← pow_add]
  exact pow_dvd_pow _ (by omega)

theorem newton_tot {w n : Nat} (hn : n % 2 = 1) (hw : n < 2 ^ w) : Tot (loop (newton w n) w (2, n)) fun s =>
    s.2 < 2 ^ w ∧ ((n : Int) * s.2) ≡ 1 [ZMOD (2 : Int) ^ w] := by
  refine Tot.loop (P := fun (s : Nat × Nat) => 1 ≤ s.1 ∧ s.2 < 2 ^ w ∧ ((n : Int) * s.2) ≡ 1 [ZMOD (2 : Int) ^ min s.1 w]) (fun s => w - s.1) ?_ ?_ (by omega)
  · rintro ⟨c, inv⟩ ⟨h1, h2, h3⟩
    dsimp only at h1 h2 h3
    unfold newton
    by_cases d : c < w
    · rw [if_pos d]
      refine Tot.pure ⟨⟨by om, Nat.mod_lt _ (by positivity), newton_step h3⟩, by om⟩
    · rw [if_neg d]
      refine Tot.pure ⟨h2, ?_⟩
      rwa [Nat.min_eq_right (by omega)] at h3
  · refine ⟨by om, hw, ?_⟩
    have : ((n : Int) * n) ≡ 1 [ZMOD (2 : Int) ^ 2] := by
      obtain ⟨k, hk⟩ : ∃ k, n = 2 * k + 1 := ⟨n / 2, by omega⟩
      rw [Int.modEq_iff_dvd, hk]
      exact ⟨-(k * k + k), by push_cast; ring⟩
    exact this.of_dvd (pow_dvd_pow _ (Nat.min_le_left _ _))

/-- What a constructed object satisfies. -/
structure Good (w : Nat) (s : State) : Prop where
  odd : s.n % 2 = 1
  lt : 2 * s.n < 2 ^ w
  n2 : 2 ^ w ∣ s.n * s.n2 + 1
  rr : s.rr < s.n ∧ s.rr ≡ 2 ^ w * 2 ^ w [MOD s.n]

theorem calcN2_tot {w n : Nat} (hn : n % 2 = 1) (hw : n < 2 ^ w) : Tot (calcN2 w n) fun n2 => 2 ^ w ∣ n * n2 + 1 := by
  unfold calcN2
  refine Tot.bind (newton_tot hn hw) ?_
  rintro ⟨c, inv⟩ ⟨h1, h2⟩
  dsimp only at h1 h2 ⊢
  have hw1 : 1 < 2 ^ w := by
    rcases Nat.eq_zero_or_pos w with rfl | h
    · simp at hw; omega
    · exact Nat.one_lt_two_pow (by omega)
  have e1 : n * inv % 2 ^ w = 1 := by
    have : ((n * inv : Nat) : Int) ≡ ((1 : Nat) : Int) [ZMOD ((2 ^ w : Nat) : Int)] := by push_cast; exact h2
    rw [Int.natCast_modEq_iff] at this
    rw [this, Nat.mod_eq_of_lt hw1]
  rw [mod_mod_D, decide_eq_true e1, check_true, ok_bind]
  refine Tot.pure ?_
  rw [mod_mod_D]
  have hle : inv ≤ 2 ^ (2 * w) := by
    rw [pow_two_mul]; nlinarith
  have hz : ((2 ^ w : Nat) : Int) ∣ ((n * ((2 ^ (2 * w) - inv) % 2 ^ w) + 1 : Nat) : Int) := by
    rw [← Int.modEq_zero_iff_dvd]
    push_cast
    rw [Nat.cast_sub hle]
    push_cast
    have a1 : ((2 : Int) ^ (2 * w) - inv) % 2 ^ w ≡ -inv [ZMOD (2 : Int) ^ w] := by
      refine (Int.mod_modEq _ _).trans ?_
      rw [Int.modEq_iff_dvd]
      have : -(inv : Int) - (2 ^ (2 * w) - inv) = -2 ^ (2 * w) := by ring
      rw [this]; exact Int.dvd_neg.2 (pow_dvd_pow _ (by omega))
    have a2 := (a1.mul_left (n : Int)).add_right 1
    refine a2.trans ?_
    rw [Int.modEq_iff_dvd] at h2 ⊢
    have : (0 : Int) - (n * -inv + 1) = -(1 - n * inv) := by ring
    rw [this]; exact Int.dvd_neg.2 h2
  exact_mod_cast hz

theorem make_tot {w n : Nat} (hn : n % 2 = 1) (hw : 2 * n < 2 ^ w) : Tot (make w n) fun s => s.n = n ∧ Good w s := by
  unfold make
  refine Tot.bind (calcN2_tot hn (by omega)) fun n2 h2 => ?_
  unfold calcRR
  rw [if_neg (by omega), pure_eq, ok_bind, decide_eq_true hn, check_true, ok_bind]
  refine Tot.pure ⟨rfl, hn, hw, h2, Nat.mod_lt _ (by omega), ?_⟩
  show (2 ^ (2 * w) - n) % n ≡ _ [MOD n]
  refine (Nat.mod_modEq _ _).trans ?_
  have hle : n ≤ 2 ^ w * 2 ^ w := by nlinarith
  rw [pow_two_mul]
  have : (2 ^ w * 2 ^ w - n) + n = 2 ^ w * 2 ^ w := by omega
  rw [Nat.ModEq, ← this]
  simp

theorem reduce_spec {w : Nat} {s : State} (h : Good w s) {t : Nat} (ht : t < 2 ^ w * s.n) :
    reduce w s t < s.n ∧ reduce w s t * 2 ^ w ≡ t [MOD s.n] := by
  obtain ⟨R, hR⟩ : ∃ R, R = 2 ^ w := ⟨_, rfl⟩
  have hlt := h.lt
  have hn2 := h.n2
  unfold reduce
  rw [mod_mod_D]
  simp only [pow_two_mul]
  rw [← hR] at ht hlt hn2 ⊢
  obtain ⟨n, hn⟩ : ∃ n, n = s.n := ⟨_, rfl⟩
  have hodd := h.odd
  rw [← hn] at ht hlt hn2 hodd ⊢
  obtain ⟨m, hm⟩ : ∃ m, m = t % R * s.n2 % R := ⟨_, rfl⟩
  rw [← hm]
  have R0 : 0 < R := by omega
  have mR : m < R := by rw [hm]; exact Nat.mod_lt _ R0
  have mn : m * n < R * n := Nat.mul_lt_mul_of_pos_right mR (by omega)
  have RR : 2 * (R * n) ≤ R * R := by nlinarith
  rw [Nat.mod_eq_of_lt (show m * n < R * R by omega), Nat.mod_eq_of_lt (show t + m * n < R * R by omega)]
  have hdiv : R ∣ t + m * n := by
    have e1 : m ≡ t * s.n2 [MOD R] := by
      rw [hm]
      exact (Nat.mod_modEq _ _).trans ((Nat.mod_modEq _ _).mul_right _)
    have e2 : t + m * n ≡ t * (n * s.n2 + 1) [MOD R] := by
      have := (e1.mul_right n).add_left t
      have e : t + t * s.n2 * n = t * (n * s.n2 + 1) := by ring
      rwa [e] at this
    have e3 : t * (n * s.n2 + 1) ≡ 0 [MOD R] := (Nat.modEq_zero_iff_dvd).2 (Dvd.dvd.mul_left hn2 _)
    exact (Nat.modEq_zero_iff_dvd).1 (e2.trans e3)
  obtain ⟨u, hu⟩ := hdiv
  rw [hu, Nat.mul_div_cancel_left _ R0]
  have u2 : u < 2 * n := by
    have : R * u < R * (2 * n) := by
      rw [← hu]
      have : R * (2 * n) = R * n + R * n := by ring
      omega
    exact Nat.lt_of_mul_lt_mul_left this
  rw [Nat.mod_eq_of_lt (show u < R by omega)]
  have hmod : u * R ≡ t [MOD n] := by
    rw [Nat.mul_comm, ← hu]
    have : m * n ≡ 0 [MOD n] := (Nat.modEq_zero_iff_dvd).2 (Dvd.intro_left _ rfl)
    simpa using this.add_left t
  by_cases c : u ≥ n
  · rw [if_pos c]
    refine ⟨by omega, ?_⟩
    have e : u - n + n = u := by omega
    rw [← e] at hmod
    have : (u - n + n) * R ≡ (u - n) * R [MOD n] := by
      rw [Nat.add_mul]
      have : n * R ≡ 0 [MOD n] := (Nat.modEq_zero_iff_dvd).2 (Dvd.intro _ rfl)
      simpa using this.add_left ((u - n) * R)
    exact this.symm.trans hmod
  · rw [if_neg c]
    exact ⟨by omega, hmod⟩

theorem coprime_R {w : Nat} {s : State} (h : Good w s) : Nat.Coprime s.n (2 ^ w) := by
  apply Nat.Coprime.pow_right
  rw [Nat.coprime_comm, Nat.Coprime, Nat.gcd_rec, h.odd]
  rfl

theorem cancel_R {w : Nat} {s : State} (h : Good w s) {a b : Nat} (e : a * 2 ^ w ≡ b * 2 ^ w [MOD s.n]) : a ≡ b [MOD s.n] :=
  Nat.ModEq.cancel_right_of_coprime (coprime_R h) e

theorem lt_RN {w : Nat} {s : State} (h : Good w s) {a : Nat} (ha : a < s.n) : a < 2 ^ w * s.n := by
  have := h.lt
  have : 0 < 2 ^ w := by positivity
  nlinarith

theorem mul_spec {w : Nat} {s : State} (h : Good w s) {a b : Nat} (ha : a < 2 ^ w) (hb : b < s.n) :
    mul w s a b < s.n ∧ mul w s a b * 2 ^ w ≡ a * b [MOD s.n] := by
  have hlt := h.lt
  have hab : a * b < 2 ^ w * s.n := by
    have : a * b ≤ 2 ^ w * b := Nat.mul_le_mul_right _ (by omega)
    have : 2 ^ w * b < 2 ^ w * s.n := Nat.mul_lt_mul_of_pos_left hb (by positivity)
    omega
  unfold mul
  rw [Nat.mod_eq_of_lt (by rw [pow_two_mul]; nlinarith)]
  exact reduce_spec h hab

theorem toMont_spec {w : Nat} {s : State} (h : Good w s) {t : Nat} (ht : t < 2 ^ w) :
    toMont w s t < s.n ∧ toMont w s t ≡ t * 2 ^ w [MOD s.n] := by
  have := mul_spec h ht h.rr.1
  refine ⟨this.1, cancel_R h ?_⟩
  refine this.2.trans ?_
  rw [Nat.mul_assoc]
  exact h.rr.2.mul_left _

end Montgomery

namespace Modint61
open Cxx

theorem fastMod_eq {v : Nat} (hv : v < 2 ^ 64) : fastMod v = v % md := by
  unfold fastMod
  rw [Nat.and_two_pow_sub_one_eq_mod, Nat.shiftRight_eq_div_pow]
  have h1 := Nat.div_add_mod v (2 ^ 61)
  have h2 := Nat.mod_lt v (show 0 < 2 ^ 61 by norm_num)
  obtain ⟨u, hu⟩ : ∃ u, u = v / 2 ^ 61 := ⟨_, rfl⟩
  obtain ⟨d, hd⟩ : ∃ d, d = v % 2 ^ 61 := ⟨_, rfl⟩
  rw [← hu, ← hd] at h1 ⊢
  rw [← hd] at h2
  have hu8 : u < 8 := by omega
  dsimp only
  rw [Nat.mod_eq_of_lt (show u + d < 2 ^ 64 by omega)]
  have e : v = u + d + md * u := by unfold md; omega
  rw [e, Nat.add_mul_mod_self_left]
  by_cases c : u + d ≥ md
  · rw [if_pos c, Nat.mod_eq_sub_mod c, Nat.mod_eq_of_lt (by unfold md at *; omega)]
  · rw [if_neg c, Nat.mod_eq_of_lt (by omega)]

theorem add_eq {a b : Nat} (ha : a < md) (hb : b < md) : add a b = (a + b) % md := by
  unfold add
  have : md = 2 ^ 61 - 1 := rfl
  rw [Nat.mod_eq_of_lt (show a + b < 2 ^ 64 by omega)]
  by_cases c : a + b ≥ md
  · simp only [c, if_true]; rw [Nat.mod_eq_sub_mod c, Nat.mod_eq_of_lt (by omega)]
  · simp only [c, if_false]; rw [Nat.mod_eq_of_lt (by omega)]

theorem sub_eq {a b : Nat} (ha : a < md) (hb : b < md) : sub a b = (a + md - b) % md := by
  unfold sub
  have : md = 2 ^ 61 - 1 := rfl
  by_cases c : a < b
  · simp only [c, if_true]
    rw [Nat.mod_eq_of_lt (show a + md < 2 ^ 64 by omega), show a + md + 2 ^ 64 - b = a + md - b + 2 ^ 64 by omega, Nat.add_mod_right,
      Nat.mod_eq_of_lt (show a + md - b < 2 ^ 64 by omega), Nat.mod_eq_of_lt (by omega)]
  · simp only [c, if_false]
    rw [show a + 2 ^ 64 - b = a - b + 2 ^ 64 by omega, Nat.add_mod_right, Nat.mod_eq_of_lt (by omega),
      show a + md - b = a - b + md by omega, Nat.add_mod_right, Nat.mod_eq_of_lt (by omega)]

theorem mul_eq {a b : Nat} (ha : a < md) (hb : b < md) : mul a b = a * b % md := by
  unfold mul
  simp only [Nat.and_two_pow_sub_one_eq_mod, Nat.shiftRight_eq_div_pow, Nat.shiftLeft_eq]
  have hmd : md = 2 ^ 61 - 1 := rfl
  have a1 := Nat.div_add_mod a (2 ^ 31)
  have a2 := Nat.mod_lt a (show 0 < 2 ^ 31 by norm_num)
  have b1 := Nat.div_add_mod b (2 ^ 31)
  have b2 := Nat.mod_lt b (show 0 < 2 ^ 31 by norm_num)
  obtain ⟨au, hau⟩ : ∃ u, u = a / 2 ^ 31 := ⟨_, rfl⟩
  obtain ⟨ad, had⟩ : ∃ u, u = a % 2 ^ 31 := ⟨_, rfl⟩
  obtain ⟨bu, hbu⟩ : ∃ u, u = b / 2 ^ 31 := ⟨_, rfl⟩
  obtain ⟨bd, hbd⟩ : ∃ u, u = b % 2 ^ 31 := ⟨_, rfl⟩
  simp only [← hau, ← had, ← hbu, ← hbd] at a1 a2 b1 b2 ⊢
  have au2 : au ≤ 2 ^ 30 - 1 := by omega
  have bu2 : bu ≤ 2 ^ 30 - 1 := by omega
  have p1 : au * bd ≤ (2 ^ 30 - 1) * (2 ^ 31 - 1) := Nat.mul_le_mul au2 (by omega)
  have p2 : ad * bu ≤ (2 ^ 31 - 1) * (2 ^ 30 - 1) := Nat.mul_le_mul (by omega) bu2
  have p3 : au * bu ≤ (2 ^ 30 - 1) * (2 ^ 30 - 1) := Nat.mul_le_mul au2 bu2
  have p4 : ad * bd ≤ (2 ^ 31 - 1) * (2 ^ 31 - 1) := Nat.mul_le_mul (by omega) (by omega)
  obtain ⟨x, hx⟩ : ∃ x, x = au * bd := ⟨_, rfl⟩
  obtain ⟨y, hy⟩ : ∃ x, x = ad * bu := ⟨_, rfl⟩
  obtain ⟨z, hz⟩ : ∃ x, x = au * bu := ⟨_, rfl⟩
  obtain ⟨t, ht⟩ : ∃ x, x = ad * bd := ⟨_, rfl⟩
  have hab : a * b = z * 2 ^ 62 + (x + y) * 2 ^ 31 + t := by
    rw [← a1, ← b1, hx, hy, hz, ht]; ring
  rw [← hx] at p1; rw [← hy] at p2; rw [← hz] at p3; rw [← ht] at p4
  rw [← hx, ← hy, ← hz, ← ht]
  rw [Nat.mod_eq_of_lt (show x < 2 ^ 64 by omega), Nat.mod_eq_of_lt (show y < 2 ^ 64 by omega), Nat.mod_eq_of_lt (show z < 2 ^ 64 by omega),
    Nat.mod_eq_of_lt (show t < 2 ^ 64 by omega), Nat.mod_eq_of_lt (show x + y < 2 ^ 64 by omega), Nat.mod_eq_of_lt (show z * 2 ^ 1 < 2 ^ 64 by omega)]
  have m1 := Nat.div_add_mod (x + y) (2 ^ 30)
  have m2 := Nat.mod_lt (x + y) (show 0 < 2 ^ 30 by norm_num)
  obtain ⟨mu, hmu⟩ : ∃ u, u = (x + y) / 2 ^ 30 := ⟨_, rfl⟩
  obtain ⟨m', hm'⟩ : ∃ u, u = (x + y) % 2 ^ 30 := ⟨_, rfl⟩
  rw [← hmu, ← hm'] at m1 ⊢
  rw [← hm'] at m2
  rw [Nat.mod_eq_of_lt (show z * 2 ^ 1 + mu < 2 ^ 64 by omega), Nat.mod_eq_of_lt (show m' * 2 ^ 31 < 2 ^ 64 by omega),
    Nat.mod_eq_of_lt (show z * 2 ^ 1 + mu + m' * 2 ^ 31 < 2 ^ 64 by omega), Nat.mod_eq_of_lt (show z * 2 ^ 1 + mu + m' * 2 ^ 31 + t < 2 ^ 64 by omega),
    fastMod_eq (by omega), hab, ← m1]
  have e : z * 2 ^ 62 + (2 ^ 30 * mu + m') * 2 ^ 31 + t = z * 2 ^ 1 + mu + m' * 2 ^ 31 + t + md * (z * 2 + mu) := by
    rw [hmd, Nat.mul_add]
    omega
  rw [e, Nat.add_mul_mod_self_left]

theorem md_pos : 0 < md := by decide

theorem mul_lt {a b : Nat} (ha : a < md) (hb : b < md) : mul a b < md := by
  rw [mul_eq ha hb]; exact Nat.mod_lt _ md_pos

theorem pow_eq {a : Nat} (ha : a < md) (b : Nat) : pow a b = .ok (a ^ b % md) := by
  rw [← tot_eq]
  refine (Powi.powi_tot (fun t k => t = a ^ k % md) ?_ ?_ b ?_)
  · rw [pow_zero]; decide
  · rw [pow_one, Nat.mod_eq_of_lt ha]
  · rintro x y i j - rfl rfl
    refine Tot.pure ?_
    show mul _ _ = _
    rw [mul_eq (Nat.mod_lt _ md_pos) (Nat.mod_lt _ md_pos), ← Nat.mul_mod, ← pow_add]

theorem inv_eq {a : Nat} (ha : a < md) : inv a = .ok (a ^ (md - 2) % md) := by
  unfold inv
  have : Tot (forUp 2 61 (a, mul a a) fun _ (s : Nat × Nat) => (do
      let p := mul s.2 s.2
      return (mul s.1 p, p) : M (Nat × Nat))) fun s => s.1 = a ^ (2 ^ 61 - 3) % md ∧ s.2 = a ^ 2 ^ 60 % md := by
    refine Tot.forUp (P := fun i (s : Nat × Nat) => s.1 = a ^ (2 ^ i - 3) % md ∧ s.2 = a ^ 2 ^ (i - 1) % md) (by norm_num) ?_ ?_
    · refine ⟨by simp [Nat.mod_eq_of_lt ha], ?_⟩
      show mul a a = _
      rw [mul_eq ha ha]; norm_num [pow_two]
    · rintro i ⟨x, p⟩ h2 - ⟨h1, hp⟩
      dsimp only at h1 hp ⊢
      subst h1 hp
      obtain ⟨k, rfl⟩ : ∃ k, i = k + 2 := ⟨i - 2, by omega⟩
      have e1 : mul (a ^ 2 ^ (k + 2 - 1) % md) (a ^ 2 ^ (k + 2 - 1) % md) = a ^ 2 ^ (k + 2) % md := by
        rw [mul_eq (Nat.mod_lt _ md_pos) (Nat.mod_lt _ md_pos), ← Nat.mul_mod, ← pow_add]
        congr 2
        rw [show k + 2 - 1 = k + 1 by omega, pow_succ 2 (k + 1)]; ring
      rw [e1]
      refine Tot.pure ⟨?_, rfl⟩
      show mul _ _ = _
      rw [mul_eq (Nat.mod_lt _ md_pos) (Nat.mod_lt _ md_pos), ← Nat.mul_mod, ← pow_add]
      congr 2
      have : 4 ≤ 2 ^ (k + 2) := by rw [pow_add]; have : 1 ≤ 2 ^ k := Nat.one_le_two_pow; omega
      rw [show k + 2 + 1 = (k + 2) + 1 by rfl, pow_succ 2 (k + 2)]
      omega
  obtain ⟨s, e, h1, -⟩ := this
  rw [e, ok_bind, h1]
  rfl

end Modint61
