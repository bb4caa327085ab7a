import Verif.Proof.ExtGcd
import Mathlib.RingTheory.Coprime.Lemmas

/-! # Proofs about garner -/

namespace Garner
open Cxx ExtGcd

/-- Product of the first `j` moduli. -/
def P (m : Nat → Int) : Nat → Int
  | 0 => 1
  | j + 1 => P m j * m j

/-- Mixed radix value of the first `j` digits. -/
def V (m A : Nat → Int) : Nat → Int
  | 0 => 0
  | j + 1 => V m A j + A j * P m j

theorem P_pos {m : Nat → Int} {n : Nat} (h : ∀ j < n, 0 < m j) : 0 < P m n := by
  induction n with
  | zero => exact Int.one_pos
  | succ n ih => exact Int.mul_pos (ih fun j hj => h j (by omega)) (h n (by omega))

theorem V_bounds {m A : Nat → Int} {n : Nat} (h : ∀ j < n, 0 ≤ A j ∧ A j < m j) : 0 ≤ V m A n ∧ V m A n < P m n := by
  induction n with
  | zero => exact ⟨le_refl _, Int.one_pos⟩
  | succ n ih =>
    obtain ⟨h1, h2⟩ := ih fun j hj => h j (by omega)
    obtain ⟨h3, h4⟩ := h n (by omega)
    have hp : 0 < P m n := by omega
    constructor
    · exact add_nonneg h1 (mul_nonneg h3 (le_of_lt hp))
    · show V m A n + A n * P m n < P m n * m n
      nlinarith

theorem V_congr {m A B : Nat → Int} {n : Nat} (h : ∀ j < n, A j = B j) : V m A n = V m B n := by
  induction n with
  | zero => rfl
  | succ n ih => simp only [V]; rw [ih fun j hj => h j (by omega), h n (by omega)]

theorem dvd_P {m : Nat → Int} {i n : Nat} (h : i < n) : m i ∣ P m n := by
  induction n with
  | zero => omega
  | succ n ih =>
    rcases Nat.lt_or_ge i n with c | c
    · exact Dvd.dvd.mul_right (ih c) _
    · have : i = n := by omega
      subst this; exact Dvd.intro_left _ rfl

theorem V_later {m A : Nat → Int} {i n : Nat} (h : i < n) : V m A n ≡ V m A (i + 1) [ZMOD m i] := by
  induction n with
  | zero => omega
  | succ n ih =>
    rcases Nat.lt_or_ge i n with c | c
    · have : A n * P m n ≡ 0 [ZMOD m i] := (Int.modEq_zero_iff_dvd).2 (Dvd.dvd.mul_left (dvd_P c) _)
      have := (ih c).add this
      simpa [V] using this
    · have : i = n := by omega
      subst this; rfl

/-- The moduli and residues of the system. -/
abbrev mm (eq : Array (Int × Int)) (j : Nat) : Int := (at' (0, 0) eq j).2
abbrev xx (eq : Array (Int × Int)) (j : Nat) : Int := (at' (0, 0) eq j).1

theorem calcPrefix_eq {eq : Array (Int × Int)} {a : Array Int} {i : Nat} {mod : Int} (hi : i ≤ eq.size) (ha : eq.size = a.size)
    (hm : ∀ j < i, 0 < mm eq j ∧ mm eq j < 2 ^ 31) (hA : ∀ j < i, 0 ≤ at' 0 a j ∧ at' 0 a j < 2 ^ 31) (hmod : 0 < mod) (hmod' : mod < 2 ^ 31) :
    calcPrefix eq a i mod = .ok (V (mm eq) (at' 0 a) i % mod) := by
  unfold calcPrefix
  have : Tot (forUp 0 i ((0 : Int), (1 : Int)) (prefixStep eq a mod)) fun s => s.1 = V (mm eq) (at' 0 a) i % mod ∧ 0 ≤ s.2 ∧ s.2 < 2 ^ 31 ∧ s.2 ≡ P (mm eq) i [ZMOD mod] := by
    refine Tot.forUp (P := fun j (s : Int × Int) => s.1 = V (mm eq) (at' 0 a) j % mod ∧ 0 ≤ s.2 ∧ s.2 < 2 ^ 31 ∧ s.2 ≡ P (mm eq) j [ZMOD mod]) (by omega) ?_ ?_
    · exact ⟨by simp [V], by norm_num, by norm_num, rfl⟩
    · rintro j ⟨r, p⟩ - hj ⟨h1, h2, h3, h4⟩
      dsimp only at h1 h2 h3 h4
      obtain ⟨ha1, ha2⟩ := hA j hj
      obtain ⟨hm1, hm2⟩ := hm j hj
      obtain ⟨x, hx⟩ : ∃ x, x = at' 0 a j := ⟨_, rfl⟩
      obtain ⟨e, he⟩ : ∃ e, e = mm eq j := ⟨_, rfl⟩
      have r0 : 0 ≤ r := by rw [h1]; exact Int.emod_nonneg _ (by omega)
      have r1 : r < mod := by rw [h1]; exact Int.emod_lt_of_pos _ hmod
      unfold prefixStep
      rw [rd_at 0 (by omega), ok_bind, ← hx]
      rw [← hx] at ha1 ha2
      rw [← he] at hm1 hm2
      have b1 : 0 ≤ x * p := mul_nonneg ha1 h2
      have b2 : x * p ≤ (2 ^ 31 - 1) * (2 ^ 31 - 1) := mul_le_mul (by omega) (by omega) h2 (by norm_num)
      have b3 : 0 ≤ p * e := mul_nonneg h2 (by omega)
      have b4 : p * e ≤ (2 ^ 31 - 1) * (2 ^ 31 - 1) := mul_le_mul (by omega) (by omega) (by omega) (by norm_num)
      norm_num at b2 b4
      rw [i64_ok (by norm_num; omega), ok_bind, i64_ok (by norm_num; omega), ok_bind, rd_at (0, 0) (by omega), ok_bind]
      change Tot (i64 (p * mm eq j) >>= _) _
      rw [← he, i64_ok (by norm_num; omega), ok_bind, if_neg (by omega)]
      refine Tot.pure ⟨?_, ?_, ?_, ?_⟩
      · show (r + x * p).tmod mod = (V _ _ j + at' 0 a j * P _ j) % mod
        rw [Int.tmod_eq_emod_of_nonneg (by omega), ← hx]
        refine Int.ModEq.add ?_ (h4.mul_left _)
        rw [h1]; exact Int.mod_modEq _ _
      · exact Int.tmod_nonneg _ (by omega)
      · have := Int.tmod_lt_of_pos (p * e) hmod
        show Int.tmod _ _ < _
        omega
      · show (p * e).tmod mod ≡ P _ j * mm eq j [ZMOD mod]
        rw [Int.tmod_eq_emod_of_nonneg b3, ← he]
        exact (Int.mod_modEq _ _).trans (h4.mul_right _)
  obtain ⟨s, e, h, -⟩ := this
  rw [e, ok_bind, h]; rfl

/-- A system `garner` accepts: `int` residues, positive `int` moduli, pairwise coprime. -/
structure Sys (eq : Array (Int × Int)) : Prop where
  pos : ∀ j < eq.size, 0 < mm eq j ∧ mm eq j < 2 ^ 31
  res : ∀ j < eq.size, -2 ^ 31 ≤ xx eq j ∧ xx eq j < 2 ^ 31
  cop : ∀ i < eq.size, ∀ j < eq.size, i ≠ j → Int.gcd (mm eq i) (mm eq j) = 1

theorem digitStep_tot {eq : Array (Int × Int)} (h : Sys eq) {i : Nat} {a : Array Int} (hi : i < eq.size) (ha : a.size = eq.size)
    (hA : ∀ j < i, 0 ≤ at' 0 a j ∧ at' 0 a j < mm eq j) :
    Tot (digitStep eq i a) fun a' => a'.size = eq.size ∧ (∀ j < i, at' 0 a' j = at' 0 a j) ∧ 0 ≤ at' 0 a' i ∧ at' 0 a' i < mm eq i ∧
      V (mm eq) (at' 0 a') (i + 1) ≡ xx eq i [ZMOD mm eq i] := by
  obtain ⟨m1, m2⟩ := h.pos i hi
  obtain ⟨x1, x2⟩ := h.res i hi
  unfold digitStep
  rw [rd_at (0, 0) hi, ok_bind]
  change Tot (calcPrefix eq a i (mm eq i) >>= fun c => i64 (xx eq i - c) >>= fun d => if mm eq i = 0 then _ else _) _
  rw [calcPrefix_eq (by omega) (by omega) (fun j hj => h.pos j (by omega)) (fun j hj => ⟨(hA j hj).1, by have := (hA j hj).2; have := h.pos j (by omega); omega⟩) m1 m2, ok_bind]
  obtain ⟨v, hv⟩ : ∃ v, v = V (mm eq) (at' 0 a) i := ⟨_, rfl⟩
  rw [← hv]
  have c1 := Int.emod_nonneg v (show mm eq i ≠ 0 by omega)
  have c2 := Int.emod_lt_of_pos v m1
  rw [i64_ok (by norm_num; omega), ok_bind, if_neg (by omega)]
  obtain ⟨d, hd⟩ : ∃ d, d = xx eq i - v % mm eq i := ⟨_, rfl⟩
  rw [← hd]
  change Tot (i64 (if d.tmod (mm eq i) < 0 then d.tmod (mm eq i) + mm eq i else d.tmod (mm eq i)) >>= fun x =>
    forUp 0 i x (divStep eq (mm eq i)) >>= fun x => wr a i x) _
  have hx0 : (if d.tmod (mm eq i) < 0 then d.tmod (mm eq i) + mm eq i else d.tmod (mm eq i)) = d % mm eq i := by
    have := safeMod_tot (x := d) (m := mm eq i) (by rw [abs_lt]; norm_num; omega) m1 (by omega)
    unfold safeMod at this
    rw [if_neg (by omega)] at this
    have hb : |d.tdiv (mm eq i)| < 2 ^ 63 := by
      have h1 := abs_tdiv_tmod d (mm eq i)
      have : |d| < 2 ^ 63 := by rw [abs_lt]; norm_num; omega
      have : 1 ≤ |mm eq i| := Int.one_le_abs (by omega)
      nlinarith [abs_nonneg (d.tdiv (mm eq i)), abs_nonneg (d.tmod (mm eq i))]
    rw [i64_abs hb, ok_bind] at this
    have l1 : (d.tmod (mm eq i)) < mm eq i := Int.tmod_lt_of_pos _ m1
    have l2 : -(d.tmod (mm eq i)) < mm eq i := by rw [← Int.neg_tmod]; exact Int.tmod_lt_of_pos _ m1
    by_cases c : d.tmod (mm eq i) < 0
    · simp only [c, if_true] at this ⊢
      rw [i64_ok (by norm_num; omega)] at this
      exact Except.ok.inj this
    · simp only [c, if_false] at this ⊢
      exact Except.ok.inj this
  rw [hx0]
  have e1 := Int.emod_nonneg d (show mm eq i ≠ 0 by omega)
  have e2 := Int.emod_lt_of_pos d m1
  rw [i64_ok (by norm_num; omega), ok_bind]
  refine Tot.bind (Tot.forUp (P := fun j (x : Int) => 0 ≤ x ∧ x < mm eq i ∧ x * P (mm eq) j ≡ xx eq i - v [ZMOD mm eq i]) (by omega) ⟨e1, e2, ?_⟩ ?_) ?_
  · simp only [P, mul_one]
    refine (Int.mod_modEq _ _).trans ?_
    rw [hd]
    exact Int.ModEq.sub_left _ (Int.mod_modEq _ _)
  · rintro j x - hj ⟨h1, h2, h3⟩
    unfold divStep
    rw [rd_at (0, 0) (by omega), ok_bind]
    obtain ⟨j1, j2⟩ := h.pos j (by omega)
    refine Tot.bind (invMod_tot (a := mm eq j) (m := mm eq i) (by rw [abs_of_pos j1]; norm_num; omega) m1 (by norm_num; omega) (h.cop j (by omega) i hi (by omega))) ?_
    rintro w ⟨w1, w2, w3⟩
    have b1 : 0 ≤ x * w := mul_nonneg h1 w1
    have b2 : x * w ≤ (2 ^ 31 - 1) * (2 ^ 31 - 1) := mul_le_mul (by omega) (by omega) w1 (by norm_num)
    norm_num at b2
    rw [i64_ok (by norm_num; omega), ok_bind]
    refine Tot.pure ⟨Int.tmod_nonneg _ b1, Int.tmod_lt_of_pos _ m1, ?_⟩
    rw [Int.tmod_eq_emod_of_nonneg b1]
    have t1 : x * w % mm eq i * P (mm eq) (j + 1) ≡ x * w * (P (mm eq) j * mm eq j) [ZMOD mm eq i] := (Int.mod_modEq _ _).mul_right _
    refine t1.trans ?_
    have t2 : x * w * (P (mm eq) j * mm eq j) = x * P (mm eq) j * (mm eq j * w) := by ring
    rw [t2]
    have := h3.mul w3
    simpa using this
  · rintro x ⟨h1, h2, h3⟩
    refine Tot.wr (by omega) ⟨by simpa using ha, fun j hj => ?_, ?_, ?_, ?_⟩
    · rw [at_set 0 (by omega), if_neg (by omega)]
    · rw [at_set 0 (by omega), if_pos rfl]; exact h1
    · rw [at_set 0 (by omega), if_pos rfl]; exact h2
    · show V _ _ i + _ * P _ i ≡ _ [ZMOD _]
      rw [at_set 0 (by omega), if_pos rfl, V_congr (B := at' 0 a) fun j hj => by rw [at_set 0 (by omega), if_neg (by omega)], ← hv]
      have := h3.add_left v
      simpa using this

theorem garner_tot {eq : Array (Int × Int)} (h : Sys eq) {m : Int} (hm : 0 < m) (hm' : m < 2 ^ 31) :
    ∃ X, 0 ≤ X ∧ X < P (mm eq) eq.size ∧ (∀ i < eq.size, X ≡ xx eq i [ZMOD mm eq i]) ∧ garner eq m = .ok (X % m) := by
  have : Tot (forUp 0 eq.size (Array.replicate eq.size 0) (digitStep eq)) fun a => a.size = eq.size ∧
      (∀ j < eq.size, 0 ≤ at' 0 a j ∧ at' 0 a j < mm eq j ∧ V (mm eq) (at' 0 a) (j + 1) ≡ xx eq j [ZMOD mm eq j]) := by
    refine Tot.forUp (P := fun i (a : Array Int) => a.size = eq.size ∧
      (∀ j < i, 0 ≤ at' 0 a j ∧ at' 0 a j < mm eq j ∧ V (mm eq) (at' 0 a) (j + 1) ≡ xx eq j [ZMOD mm eq j])) (by omega) ⟨by simp, fun j hj => by omega⟩ ?_
    rintro i a - hi ⟨ha, hA⟩
    refine (digitStep_tot h hi ha fun j hj => ⟨(hA j hj).1, (hA j hj).2.1⟩).mono ?_
    rintro a' ⟨s1, s2, s3, s4, s5⟩
    refine ⟨s1, fun j hj => ?_⟩
    rcases Nat.lt_or_ge j i with c | c
    · obtain ⟨t1, t2, t3⟩ := hA j c
      rw [s2 j c]
      refine ⟨t1, t2, ?_⟩
      rw [V_congr (B := at' 0 a) fun k hk => s2 k (by omega)]
      exact t3
    · have : j = i := by omega
      subst this; exact ⟨s3, s4, s5⟩
  obtain ⟨a, e, ha, hA⟩ := this
  have hb := V_bounds (m := mm eq) (A := at' 0 a) (n := eq.size) fun j hj => ⟨(hA j hj).1, (hA j hj).2.1⟩
  refine ⟨V (mm eq) (at' 0 a) eq.size, hb.1, hb.2, fun i hi => (V_later hi).trans (hA i hi).2.2, ?_⟩
  unfold garner
  rw [e, ok_bind, calcPrefix_eq (le_refl _) (by omega) h.pos (fun j hj => ⟨(hA j hj).1, by have := (hA j hj).2.1; have := h.pos j hj; omega⟩) hm hm']

theorem gcd_P {m : Nat → Int} {c : Int} {n : Nat} (h : ∀ j < n, Int.gcd (m j) c = 1) : Int.gcd (P m n) c = 1 := by
  induction n with
  | zero => simp [P]
  | succ n ih => exact (Int.isCoprime_iff_gcd_eq_one.2 (ih fun j hj => h j (by omega))).mul_left (Int.isCoprime_iff_gcd_eq_one.2 (h n (by omega))) |> Int.isCoprime_iff_gcd_eq_one.1

theorem crt_unique {m : Nat → Int} {n : Nat} (hc : ∀ i < n, ∀ j < n, i ≠ j → Int.gcd (m i) (m j) = 1) {X Y : Int}
    (h : ∀ i < n, X ≡ Y [ZMOD m i]) : X ≡ Y [ZMOD P m n] := by
  induction n with
  | zero => exact Int.modEq_one
  | succ n ih =>
    have h1 := ih (fun i hi j hj => hc i (by omega) j (by omega)) fun i hi => h i (by omega)
    have h2 := h n (by omega)
    have h3 : Int.gcd (P m n) (m n) = 1 := gcd_P fun j hj => hc j (by omega) n (by omega) (by omega)
    rw [Int.modEq_iff_dvd] at h1 h2 ⊢
    exact (Int.isCoprime_iff_gcd_eq_one.2 h3).mul_dvd h1 h2

end Garner
