import Verif.Proof.Garner

/-! # ext_gcd, inv_mod and garner: properties C20, C21, C22 -/

namespace ExtGcd
open Cxx

/-- **C20.** For all `long long` values other than `LLONG_MIN`, `ext_gcd` terminates without overflow and returns Bézout coefficients of the
non-negative greatest common divisor. -/
theorem extGcd_correct (a b : Int) (ha : Fits64 a) (hb : Fits64 b) :
    ∃ x y, extGcd a b = .ok (x, y, (Int.gcd a b : Int)) ∧ a * x + b * y = Int.gcd a b := by
  obtain ⟨⟨x, y, g⟩, e, h1, h2, -⟩ := extGcd_tot (a := a) (b := b) (abs_lt.2 ha) (abs_lt.2 hb)
  dsimp only at h1 h2
  subst h2
  exact ⟨x, y, e, h1⟩

/-- The excluded value does overflow: `LLONG_MIN / -1`. -/
theorem extGcd_min_overflows : extGcd (-2 ^ 63) (-1) = .error .ub := by decide

example : Fits64 240 ∧ Fits64 (-46) ∧ extGcd 240 (-46) = .ok (-9, -47, 2) := by
  refine ⟨⟨by norm_num, by norm_num⟩, ⟨by norm_num, by norm_num⟩, by decide⟩

/-- **C21.** `inv_mod(a, m)` is the inverse of `a` modulo `m` in `[0, m)`. -/
theorem invMod_correct (a m : Int) (ha : Fits64 a) (hm : 0 < m) (hm' : m < 2 ^ 63) (hg : Int.gcd a m = 1) :
    ∃ r, invMod a m = .ok r ∧ 0 ≤ r ∧ r < m ∧ a * r ≡ 1 [ZMOD m] := by
  obtain ⟨r, e, h⟩ := invMod_tot (abs_lt.2 ha) hm hm' hg
  exact ⟨r, e, h⟩

/-- Without an inverse the assertion fails. -/
theorem invMod_aborts (a m : Int) (ha : Fits64 a) (hm : Fits64 m) (hg : Int.gcd a m ≠ 1) : invMod a m = .error .assertion := by
  obtain ⟨x, y, e, -⟩ := extGcd_correct a m ha hm
  unfold invMod
  rw [e, ok_bind, decide_eq_false (show ¬ ((Int.gcd a m : Int) = 1) by exact_mod_cast hg), check_false]
  rfl

/-- `gcd_inv(a, m)` returns the greatest common divisor `g` and an `x` in `[0, m)` with `a x = g` modulo `m`. -/
theorem gcdInv_correct (a m : Int) (ha : Fits64 a) (hm : 0 < m) (hm' : m < 2 ^ 63) :
    ∃ x, gcdInv a m = .ok (x, (Int.gcd a m : Int)) ∧ 0 ≤ x ∧ x < m ∧ a * x ≡ Int.gcd a m [ZMOD m] := by
  obtain ⟨⟨x, y, g⟩, e, h1, h2, h3, -⟩ := extGcd_tot (a := a) (b := m) (abs_lt.2 ha) (by rw [abs_of_pos hm]; exact hm')
  dsimp only at h1 h2 h3
  subst h2
  refine ⟨x % m, ?_, Int.emod_nonneg _ (by omega), Int.emod_lt_of_pos _ hm, ?_⟩
  · unfold gcdInv
    rw [e, ok_bind]
    dsimp only
    rw [safeMod_tot h3 hm hm']
    rfl
  · refine ((Int.mod_modEq _ _).mul_left _).trans ?_
    rw [Int.modEq_iff_dvd]
    exact ⟨y, by linarith⟩

example : invMod 3 7 = .ok 5 ∧ invMod (-3) 7 = .ok 2 ∧ invMod 6 9 = .error .assertion ∧ gcdInv 6 9 = .ok (8, 3) := by decide

end ExtGcd

namespace Garner
open Cxx

/-- `X` solves the system of congruences `X = x_i (mod m_i)` and is the least non-negative solution. -/
def Solves (eq : List (Int × Int)) (X : Int) : Prop :=
  0 ≤ X ∧ X < (eq.map Prod.snd).prod ∧ ∀ e ∈ eq, X ≡ e.1 [ZMOD e.2]

/-- Inputs: `int` residues, positive `int` moduli, pairwise coprime. -/
def Valid (eq : List (Int × Int)) : Prop :=
  (∀ e ∈ eq, (-2 ^ 31 ≤ e.1 ∧ e.1 < 2 ^ 31) ∧ (0 < e.2 ∧ e.2 < 2 ^ 31)) ∧ eq.Pairwise fun e f => Int.gcd e.2 f.2 = 1

theorem P_append (l : List (Int × Int)) : ∀ (j : Nat), j ≤ l.length → P (mm l.toArray) j = ((l.take j).map Prod.snd).prod
  | 0, _ => by simp [P]
  | j + 1, h => by
    have hl : j < l.length := by omega
    rw [P, P_append l j (by omega), List.take_add_one]
    simp [mm, at', hl]

theorem sys_of_valid {eq : List (Int × Int)} (h : Valid eq) : Sys eq.toArray := by
  obtain ⟨h1, h2⟩ := h
  have hat : ∀ j (hj : j < eq.length), at' (0, 0) eq.toArray j = eq[j] := fun j hj => by simp [at', hj]
  refine ⟨fun j hj => ?_, fun j hj => ?_, fun i hi j hj hij => ?_⟩
  · simp only [List.size_toArray] at hj
    unfold mm; rw [hat j hj]; exact (h1 _ (List.getElem_mem hj)).2
  · simp only [List.size_toArray] at hj
    unfold xx; rw [hat j hj]; exact (h1 _ (List.getElem_mem hj)).1
  · simp only [List.size_toArray] at hi hj
    unfold mm; rw [hat i hi, hat j hj]
    rcases Nat.lt_or_gt_of_ne hij with c | c
    · exact List.pairwise_iff_getElem.1 h2 i j hi hj c
    · rw [Int.gcd_comm]; exact List.pairwise_iff_getElem.1 h2 j i hj hi c

theorem solves_iff (eq : List (Int × Int)) (X : Int) : Solves eq X ↔
    0 ≤ X ∧ X < P (mm eq.toArray) eq.length ∧ ∀ i < eq.length, X ≡ xx eq.toArray i [ZMOD mm eq.toArray i] := by
  have hat : ∀ j (hj : j < eq.length), at' (0, 0) eq.toArray j = eq[j] := fun j hj => by simp [at', hj]
  unfold Solves
  rw [P_append eq _ (le_refl _), List.take_length]
  refine and_congr_right fun _ => and_congr_right fun _ => ⟨fun h i hi => ?_, fun h e he => ?_⟩
  · unfold xx mm; rw [hat i hi]; exact h _ (List.getElem_mem hi)
  · obtain ⟨i, hi, rfl⟩ := List.mem_iff_getElem.1 he
    have := h i hi
    unfold xx mm at this; rw [hat i hi] at this; exact this

/-- **C22.** The system has exactly one solution below the product of the moduli, and `garner` returns it modulo `m`, without overflow. -/
theorem garner_correct (eq : List (Int × Int)) (h : Valid eq) (m : Int) (hm : 0 < m) (hm' : m < 2 ^ 31) :
    ∃ X, Solves eq X ∧ (∀ Y, Solves eq Y → Y = X) ∧ garner eq.toArray m = .ok (X % m) := by
  have hs := sys_of_valid h
  obtain ⟨X, h1, h2, h3, h4⟩ := garner_tot hs hm hm'
  simp only [List.size_toArray] at h2 h3
  refine ⟨X, (solves_iff eq X).2 ⟨h1, h2, h3⟩, fun Y hY => ?_, h4⟩
  obtain ⟨y1, y2, y3⟩ := (solves_iff eq Y).1 hY
  have := crt_unique (m := mm eq.toArray) (n := eq.length) (fun i hi j hj => hs.cop i (by simpa using hi) j (by simpa using hj)) (X := Y) (Y := X)
    fun i hi => (y3 i hi).trans (h3 i hi).symm
  rw [Int.ModEq, Int.emod_eq_of_lt y1 y2, Int.emod_eq_of_lt h1 h2] at this
  exact this

example : Valid [(2, 3), (3, 5), (-5, 7)] ∧ Solves [(2, 3), (3, 5), (-5, 7)] 23 ∧ garner #[(2, 3), (3, 5), (-5, 7)] 10 = .ok 3 := by
  refine ⟨⟨by decide, by decide⟩, ⟨by decide, by decide, by decide⟩, by decide⟩

end Garner
