import Verif.Proof.SumOfMultiplicative

/-!
# C121: sums of the Möbius function and of Euler's function
-/

namespace SumOfMult.Props
open Cxx

/-- For every `n` and every size of the table of small values (`thr + 1`, with fewer than `2^32` large values), the constructor of
`SumOfMobiusFunction` terminates without undefined behaviour and then, for every denominator `den ≥ 1`, `operator()(den)` returns
`∑_{k = 1}^{⌊n / den⌋} μ(k)` (in the value type, any commutative ring). -/
theorem sum_of_mobius (T : Type) [CommRing T] (n thr : Nat) (h : n / (thr + 1) + 1 < 2 ^ 32) :
    ∃ b, SumOfMobius.build (T := T) n thr = .ok b ∧ ∀ den, 1 ≤ den →
      SumOfMult.ask n b.1 b.2 den = .ok (∑ k ∈ Finset.Icc 1 (n / den), ((ArithmeticFunction.moebius k : Int) : T)) :=
  SumOfMobius.build_tot h

/-- The same for `SumOfTotientFunction` and Euler's function; `n` is not the largest 64 bit number. -/
theorem sum_of_totient (T : Type) [CommRing T] (n thr : Nat) (h : n / (thr + 1) + 1 < 2 ^ 32) (hn : n + 1 < 2 ^ 64) :
    ∃ b, SumOfTotient.build (T := T) n thr = .ok b ∧ ∀ den, 1 ≤ den →
      SumOfMult.ask n b.1 b.2 den = .ok (∑ k ∈ Finset.Icc 1 (n / den), ((Nat.totient k : Nat) : T)) :=
  SumOfTotient.build_tot h hn

/-- A zero denominator is undefined behaviour. -/
theorem zero_denominator {T : Type} [CommRing T] (n : Nat) (dps dpl : Array T) : SumOfMult.ask n dps dpl 0 = .error .ub := rfl

/-- The hypotheses hold for `n = 30` with the table of the values up to `6`; the sums up to `30` and up to `15` are right. -/
example : 30 / (6 + 1) + 1 < 2 ^ 32 ∧ 30 + 1 < 2 ^ 64 ∧
    (do let b ← SumOfMobius.build (T := Int) 30 6; SumOfMult.ask 30 b.1 b.2 1) = .ok (-3) ∧
    (do let b ← SumOfMobius.build (T := Int) 30 6; SumOfMult.ask 30 b.1 b.2 2) = .ok (-1) ∧
    (do let b ← SumOfTotient.build (T := Int) 30 6; SumOfMult.ask 30 b.1 b.2 1) = .ok 278 ∧
    (do let b ← SumOfTotient.build (T := Int) 30 6; SumOfMult.ask 30 b.1 b.2 2) = .ok 72 := by
  decide +kernel

end SumOfMult.Props
