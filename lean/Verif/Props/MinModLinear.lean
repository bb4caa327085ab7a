import Verif.Proof.MinModLinear
import Mathlib.Order.Bounds.Defs

/-!
# C116: `min_of_mod_of_linear` is the least value of `(a x + b) mod m`

The function computes `b + (m - 1 - k)` and `l + r` in `int`, so it is not correct for all reduced arguments (`overflow`); it is correct
whenever `b + m ≤ 2^31`.
-/

namespace MinModLinear
open Cxx

/-- The values `(a x + b) mod m` for `0 ≤ x < n`. -/
def values (n m a b : Int) : Set Int := {v | ∃ x : Int, 0 ≤ x ∧ x < n ∧ v = (a * x + b) % m}

/-- If `b + m ≤ 2^31`, the result is the least of the values. Missing from the full property: arguments with `b + m > 2^31`, for which the
program can overflow. -/
theorem minMod_partial {n m a b : Int} (hn : 1 ≤ n ∧ n < 2 ^ 31) (hm : 1 ≤ m ∧ m < 2 ^ 31) (ha : -m ≤ a ∧ a ≤ m) (hb : 0 ≤ b ∧ b + m ≤ 2 ^ 31) :
    ∃ r, minMod n m a b = .ok r ∧ IsLeast (values n m a b) r := by
  obtain ⟨r, e, h0, h1, ⟨i, hi, hle⟩, h3⟩ := minMod_tot hn hm ha hb
  have lb : ∀ x : Int, 0 ≤ x → x < n → r ≤ (a * x + b) % m := by
    intro x hx0 hx
    by_contra hc
    have hx1 : 0 ≤ (a * x + b) % m := Int.emod_nonneg _ (by omega)
    refine h3 ⟨by omega, x.toNat, by omega, ?_⟩
    rw [show ((x.toNat : Nat) : Int) = x by omega]
    omega
  refine ⟨r, e, ⟨i, by omega, by omega, le_antisymm (lb i (by omega) (by omega)) hle⟩, ?_⟩
  rintro _ ⟨x, hx0, hx, rfl⟩
  exact lb x hx0 hx

example : minMod 5 17 7 10 = .ok 0 := by decide +kernel

example : ∃ r, minMod 5 17 7 9 = .ok r ∧ IsLeast (values 5 17 7 9) r :=
  minMod_partial ⟨by decide, by decide⟩ ⟨by decide, by decide⟩ ⟨by decide, by decide⟩ ⟨by decide, by decide⟩

/-- The full property is false: for `m = 2^31 - 1` and the reduced argument `b = 2^31 - 2` the sum `b + (m - 1 - k)` overflows. -/
theorem overflow : ∃ n m a b : Int, (1 ≤ n ∧ n < 2 ^ 31) ∧ (1 ≤ m ∧ m < 2 ^ 31) ∧ (0 ≤ a ∧ a < m) ∧ (0 ≤ b ∧ b < m) ∧ minMod n m a b = .error .ub :=
  ⟨1, 2 ^ 31 - 1, 0, 2 ^ 31 - 2, by decide, by decide, by decide, by decide, by decide +kernel⟩

/-- For an empty range the result is `m - 1`. -/
theorem minMod_empty {m a b : Int} (hm : 1 ≤ m ∧ m ≤ 2 ^ 30) (hb : 0 ≤ b ∧ b + m ≤ 2 ^ 31) : minMod 0 m a b = .ok (m - 1) := by
  have hfs : ∀ c, floorSum 0 m a c = .ok 0 := by
    intro c
    unfold floorSum
    rw [if_pos (by omega)]
    rfl
  have : Tot (minMod 0 m a b) fun r => r = m - 1 := by
    unfold minMod
    rw [hfs, ok_bind, i64_ok ⟨by omega, by omega⟩, ok_bind, i32_ok ⟨by omega, by omega⟩, ok_bind]
    refine Tot.bind (Tot.loop (P := fun s : Int × Int => -1 ≤ s.1 ∧ s.1 < m ∧ s.2 = m - 1) (Q := fun s : Int × Int => s.2 = m - 1)
      (fun s => (s.2 - s.1).toNat) ?_ ?_ ?_) fun s hs => Tot.pure hs
    · rintro ⟨l, r⟩ ⟨h1, h2, h3⟩
      dsimp only at h1 h2 h3
      subst h3
      unfold step
      dsimp only
      rw [i32_ok ⟨by omega, by omega⟩, ok_bind]
      by_cases hd : m - 1 - l > 1
      · rw [if_pos hd, i32_ok ⟨by omega, by omega⟩, ok_bind, i32_ok ⟨by omega, by omega⟩, ok_bind, i32_ok ⟨by omega, by omega⟩, ok_bind, hfs,
          ok_bind, if_neg (by omega)]
        exact Tot.pure ⟨⟨by dsimp only; omega, by dsimp only; omega, rfl⟩, by dsimp only; omega⟩
      · rw [if_neg hd]
        exact Tot.pure rfl
    · exact ⟨le_refl (-1 : Int), by show (-1 : Int) < m; omega, rfl⟩
    · show (m - 1 - -1).toNat ≤ _
      omega
  obtain ⟨r, e, rfl⟩ := this
  exact e

example : minMod 0 17 7 9 = .ok 16 := minMod_empty ⟨by decide, by decide⟩ ⟨by decide, by decide⟩

end MinModLinear
