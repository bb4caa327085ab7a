import Verif.Proof.ModTables
import Mathlib.Data.ZMod.Basic
import Mathlib.Algebra.Field.ZMod

/-!
Properties C129, C130 and C131: tables of factorials, inverses and powers.
-/

/-! C129: factorials, binomial and multinomial coefficients.  The full claim would allow every history of calls with arguments
below the modulus; `table_fails` shows that the code does not satisfy it, because the table doubles. -/
namespace Factorial.Props
open Cxx

/-- Over a prime modulus `p`, every history of calls with arguments below `N`, where `2 N ≤ p + 2`, succeeds and returns the factorials,
their inverses and the coefficients. -/
theorem answers_partial (p : Nat) [Fact p.Prime] (N : Nat) (hN : 2 * N ≤ p + 2) (ops : List Op) (hv : ∀ op ∈ ops, op.arg < N) :
    Tot (runOps step (init : Tab (ZMod p)) ops) fun r => TraceOk (fun (_ : Unit) _ => ()) (fun _ => Ans) () ops r.2 := by
  refine history_tot ?_ hv
  intro k hk hk' e
  have := Nat.le_of_dvd hk ((ZMod.natCast_eq_zero_iff k p).mp e)
  omega

example : Fact (Nat.Prime 7) ∧ 2 * 4 ≤ 7 + 2 ∧ ∀ op ∈ [Op.binom 3 2, Op.polynom 3 [1, 1], Op.fac 2, Op.perm (-1) 5], op.arg < 4 :=
  ⟨⟨by decide⟩, by decide, by decide⟩

/-- Over a field of characteristic zero every history of calls succeeds and returns the specified values. -/
theorem answers_char_zero (F : Type) [Field F] [DecidableEq F] [CharZero F] (ops : List Op) :
    Tot (runOps step (init : Tab F) ops) fun r => TraceOk (fun (_ : Unit) _ => ()) (fun _ => Ans) () ops r.2 := by
  have : ∃ N : Nat, ∀ op ∈ ops, op.arg < N := by
    induction ops with
    | nil => exact ⟨0, by simp⟩
    | cons a l ih =>
      obtain ⟨N, h⟩ := ih
      refine ⟨N + a.arg.toNat + 1, ?_⟩
      intro op ho
      rcases List.mem_cons.mp ho with rfl | ho
      · omega
      · have := h op ho
        omega
  obtain ⟨N, hN⟩ := this
  exact history_tot (fun k hk _ => by exact_mod_cast hk.ne') hN

example : CharZero ℚ := inferInstance

instance prime7 : Fact (Nat.Prime 7) := ⟨by decide⟩

/-- Counterexample to the full claim: modulo 7, after `fac(4)` the call `fac(5)` doubles the table to ten entries and divides by `9! = 0`. -/
theorem table_fails : ∃ ops : List Op, (∀ op ∈ ops, op.arg < 7) ∧ runOps step (init : Tab (ZMod 7)) ops = .error .assertion := by
  refine ⟨[.fac 4, .fac 5], by decide, ?_⟩
  obtain ⟨r, e, h1, h2, h3⟩ := ensure_tot (F := ZMod 7) inv_init (n := 4) (fun e => absurd ((ZMod.natCast_eq_zero_iff _ 7).mp e) (by decide))
  have hs : r.fac.size = 5 := h2
  have h5 : ensure r 5 = .error .assertion := ensure_assert h1 (by omega) (by rw [hs]; exact (ZMod.natCast_eq_zero_iff _ 7).mpr (by decide))
  have e1 : step init (.fac 4) = .ok (r, at' 0 r.fac 4) := by
    unfold step
    dsimp only
    unfold fac
    rw [e, ok_bind, rd_at 0 (by omega), ok_bind, pure_eq]
  have e2 : step r (.fac 5) = .error .assertion := by
    unfold step
    dsimp only
    unfold fac
    rw [h5, err_bind]
  unfold runOps
  rw [e1, ok_bind]
  unfold runOps
  rw [e2]
  rfl

end Factorial.Props

namespace InvMods.Props
open Cxx

/-- C130: over a prime modulus, for every history of lookups below the modulus, the entry at `i > 0` is the inverse of `i` (and the entry at
`0` is `0`). -/
theorem inverses (p : Nat) [hp : Fact p.Prime] (is : List Nat) (hv : ∀ i ∈ is, i < p) :
    Tot (runOps (get p) (#[] : Array (ZMod p)) is) fun r =>
      TraceOk (fun (_ : Unit) _ => ()) (fun _ (i : Nat) (x : ZMod p) => (0 < i → x * (i : ZMod p) = 1) ∧ (i = 0 → x = 0)) () is r.2 :=
  history_tot hp.out (by simp) hv

example : Fact (Nat.Prime 7) ∧ ∀ i ∈ [3, 6, 0, 2], i < 7 := ⟨⟨by decide⟩, by decide⟩

/-- C130: `get_invs` returns the inverses of the entries, and stops at its assertion exactly when an entry is zero. -/
theorem batch (F : Type) [Field F] [DecidableEq F] (vs : Array F) :
    ((0 : F) ∉ vs → Tot (getInvs vs) fun r => r.size = vs.size ∧ ∀ i (h : i < vs.size) (h' : i < r.size), r[i] * vs[i] = 1) ∧
    ((0 : F) ∈ vs → getInvs vs = .error .assertion) := by
  refine ⟨fun h => ?_, getInvs_assert⟩
  refine (getInvs_tot fun x hx e => h (e ▸ hx)).mono ?_
  rintro r ⟨h1, h2⟩
  refine ⟨h1, fun i hi hi' => ?_⟩
  have := h2 i hi
  simpa [at', hi, hi'] using this

example : (0 : ℚ) ∉ #[1, 2, (3 : ℚ)] ∧ (0 : ℚ) ∈ #[1, (0 : ℚ)] := by simp

end InvMods.Props

namespace PowMods.Props
open Cxx

/-- C131: for every history of lookups the entry at `i` is the `i`-th power of the base. -/
theorem powers (F : Type) [Field F] (b : F) (is : List Nat) :
    Tot (runOps (get b) #[1] is) fun r => TraceOk (fun (_ : Unit) _ => ()) (fun _ i x => x = b ^ i) () is r.2 :=
  history_tot b is

example : ∃ (b : ℚ) (is : List Nat), b ≠ 0 ∧ b ≠ 1 ∧ is = [5, 2, 0] := ⟨2, [5, 2, 0], by decide, by decide, rfl⟩

end PowMods.Props
