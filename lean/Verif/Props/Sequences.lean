import Verif.Proof.Sequences
import Mathlib.Tactic.NormNum.Prime

/-! # Number sequences: properties -/

namespace Sequences.Props
open Cxx

/-- C198. `montmort_number(n)` lists, for `i = 0, …, n`, the number of permutations of `i` elements without fixed point. -/
theorem montmort_correct (F : Type) [Field F] [DecidableEq F] (n : Nat) :
    Tot (montmort n : M (Array F)) fun r => r.size = n + 1 ∧ ∀ i ≤ n, r[i]? = some (Fintype.card (derangements (Fin i)) : F) := by
  refine (montmort_tot n).mono ?_
  rintro r ⟨h1, h2⟩
  refine ⟨h1, fun i hi => ?_⟩
  rw [get_at 0 (by omega), h2 i hi, card_derangements_eq_numDerangements, Fintype.card_fin]

example : (montmort 5 : M (Array ℚ)) = .ok #[1, 0, 1, 2, 9, 44] := by decide +kernel

/-- C199. `powers(n, k)` lists the powers `i ^ k` for `i = 0, …, n` (with `0 ^ 0 = 1`), for every `k` below `2 ^ 63`. -/
theorem powers_partial (F : Type) [Field F] [DecidableEq F] (n k : Nat) (hk : k < 2 ^ 63) :
    Tot (powers n k : M (Array F)) fun r => r.size = n + 1 ∧ ∀ i ≤ n, r[i]? = some ((i : F) ^ k) := by
  refine (powers_tot n k hk).mono ?_
  rintro r ⟨h1, h2⟩
  exact ⟨h1, fun i hi => by rw [get_at 0 (by omega), h2 i hi]⟩

/-- For larger exponents, which the parameter type `uint64_t` allows, the conversion to `long long` makes the exponent negative and the call stops at the assertion of `pow`. -/
theorem powers_counterexample (F : Type) [Field F] [DecidableEq F] (n k : Nat) (hn : 2 ≤ n) (hk : 2 ^ 63 ≤ k) : (powers n k : M (Array F)) = .error .assertion := powers_neg n k hn hk

example : (powers 6 2 : M (Array ℚ)) = .ok #[0, 1, 4, 9, 16, 25, 36] := by decide +kernel
example : 2 ≤ 5 ∧ 2 ^ 63 ≤ 2 ^ 64 - 1 := by decide

/-- C200. `eulerian_number_table(n)` for `n ≥ 1`: row `i` has `i` entries, the numbers of permutations of `i` elements with `k = 0, …, i - 1` descents. -/
theorem table_correct (F : Type) [Field F] [DecidableEq F] (n : Nat) (hn : 1 ≤ n) :
    Tot (eulerianTable n : M (Array (Array F))) fun r => r.size = n + 1 ∧ ∀ i ≤ n, ∃ row, r[i]? = some row ∧ row.size = i ∧ ∀ k < i, row[k]? = some (eulerianNumber i k : F) := by
  refine (table_tot hn).mono ?_
  rintro r ⟨h1, h2⟩
  refine ⟨h1, fun i hi => ⟨_, get_at #[] (by omega), (h2 i hi).1, fun k hk => ?_⟩⟩
  rw [get_at 0 (by rw [(h2 i hi).1]; exact hk), (h2 i hi).2 k hk]

example : (eulerianTable 4 : M (Array (Array ℚ))) = .ok #[#[], #[1], #[1, 1], #[1, 4, 1], #[1, 11, 11, 1]] := by decide +kernel
example : (List.range 4).map (eulerianNumber 4) = [1, 11, 11, 1] := by simp [List.range_succ, eulerian_rec, eulerian_zero]

/-- C200. `eulerian_number(n)` returns the numbers of permutations of `n` elements with `k = 0, …, n - 1` descents, modulo every prime `p > n + 1`, the table of factorials being fresh. -/
theorem eulerian_correct (p : Nat) [hp : Fact p.Prime] (n : Nat) (hn : n + 1 < p) (hn' : n < 2 ^ 63) :
    Tot (eulerian (Factorial.init : Factorial.Tab (ZMod p)) n) fun r => r.2.size = n ∧ ∀ k < n, r.2[k]? = some (eulerianNumber n k : ZMod p) := by
  refine (eulerian_tot hn' Factorial.inv_init ?_).mono ?_
  · have : Factorial.newSize (Factorial.init : Factorial.Tab (ZMod p)).fac.size (n + 1) = n + 2 := by
      show Factorial.newSize 1 (n + 1) = n + 2
      unfold Factorial.newSize
      rw [if_neg (by omega)]
      omega
    rw [this, Ne, ZMod.natCast_eq_zero_iff, hp.out.dvd_factorial]
    omega
  · rintro r ⟨h1, h2⟩
    exact ⟨h1, fun k hk => by rw [get_at 0 (by omega), h2 k hk]⟩

example : Fact (Nat.Prime 31) ∧ 5 + 1 < 31 ∧ (eulerian (Factorial.init : Factorial.Tab ℚ) 5).map (fun r => r.2) = .ok #[1, 26, 66, 26, 1] :=
  ⟨⟨by norm_num⟩, by decide, by decide +kernel⟩

/-- C201. Over a prime modulus, in every history of calls of `binom(n, r)` with any signed arguments, each call returns the binomial coefficient modulo `p`, 0 unless `0 ≤ r ≤ n`. The table of
factorials is fresh at first and used by no other code. -/
theorem lucas_partial (p : Nat) [Fact p.Prime] (qs : List (Int × Int)) :
    Tot (runOps (fun t (q : Int × Int) => binomSmall p t q.1 q.2) (Factorial.init : Factorial.Tab (ZMod p)) qs) fun r =>
      r.2 = qs.map fun q => if 0 ≤ q.2 ∧ q.2 ≤ q.1 then (q.1.toNat.choose q.2.toNat : ZMod p) else 0 := by
  have key : ∀ (qs : List (Int × Int)) (t : Factorial.Tab (ZMod p)), Factorial.Inv t → (t.fac.size = 1 ∨ t.fac.size = p) →
      Tot (runOps (fun t (q : Int × Int) => binomSmall p t q.1 q.2) t qs) fun r =>
        r.2 = qs.map fun q => if 0 ≤ q.2 ∧ q.2 ≤ q.1 then (q.1.toNat.choose q.2.toNat : ZMod p) else 0 := by
    intro qs
    induction qs with
    | nil => intro t _ _; exact Tot.pure rfl
    | cons q qs ih =>
      intro t h1 h2
      unfold runOps
      refine (binomSmall_tot h1 h2 q.1 q.2).bind ?_
      rintro ⟨t', x⟩ ⟨⟨k1, k2⟩, k3⟩
      refine (ih t' k1 (Or.inr k2)).bind ?_
      rintro ⟨t2, l⟩ hl
      refine Tot.pure ?_
      dsimp only at hl k3 ⊢
      rw [List.map_cons, hl, k3]
  exact key qs _ Factorial.inv_init (Or.inl rfl)

instance prime7 : Fact (Nat.Prime 7) := ⟨by norm_num⟩

/-- If other code has used the shared table before, the call can stop at the assertion of a division by zero: modulo 7, after `fac(4)`. -/
theorem lucas_counterexample : (do
    let r ← Factorial.fac (Factorial.init : Factorial.Tab (ZMod 7)) 4
    binomSmall 7 r.1 5 2) = .error .assertion := by
  obtain ⟨r, e, h1, h2, h3⟩ := Factorial.ensure_tot (F := ZMod 7) Factorial.inv_init (n := 4) (fun e => absurd ((ZMod.natCast_eq_zero_iff _ 7).mp e) (by decide))
  have hs : r.fac.size = 5 := h2
  have h5 : Factorial.ensure r (7 - 1) = .error .assertion := Factorial.ensure_assert h1 (by omega) (by rw [hs]; exact (ZMod.natCast_eq_zero_iff _ 7).mpr (by decide))
  have e1 : Factorial.fac (Factorial.init : Factorial.Tab (ZMod 7)) 4 = .ok (r, at' 0 r.fac 4) := by
    unfold Factorial.fac
    rw [e, ok_bind, rd_at 0 (by omega), ok_bind, pure_eq]
  rw [e1, ok_bind]
  unfold binomSmall
  rw [h5]
  rfl

example : (((12 : Int).toNat.choose (6 : Int).toNat : Nat) : ZMod 5) = 4 := by decide +kernel

end Sequences.Props
