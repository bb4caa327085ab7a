import Verif.Model.RandomWalk
import Verif.Proof.BinomialSum
import Mathlib.Data.ZMod.Basic
import Mathlib.Algebra.Field.ZMod
import Mathlib.Algebra.BigOperators.Fin
import Mathlib.Algebra.BigOperators.Pi
import Mathlib.Data.Fintype.Powerset
import Mathlib.Data.Fintype.BigOperators

/-!
# Properties of `library/math/util.hpp`
-/

namespace RandomWalk
open Cxx ModTables

/-! ### Specification: walks are sequences of steps -/

/-- The number of sequences of `n` steps `+1` or `-1` with sum `x`. -/
def count1 (n : Nat) (x : Int) : Nat := Fintype.card {f : Fin n → Bool // ∑ i, (if f i then (1 : Int) else -1) = x}

/-- The four directions. -/
def dir : Fin 4 → Int × Int := ![(1, 0), (-1, 0), (0, 1), (0, -1)]

/-- The number of sequences of `n` steps to one of the four neighbours that lead from the origin to `(x, y)`. -/
def count2 (n : Nat) (x y : Int) : Nat := Fintype.card {f : Fin n → Fin 4 // ∑ i, dir (f i) = (x, y)}

/-! ### Proof -/

theorem sum_eq {n : Nat} (f : Fin n → Bool) :
    ∑ i, (if f i then (1 : Int) else -1) = 2 * ((Finset.univ.filter fun i => f i = true).card : Int) - n := by
  have : ∀ i, (if f i then (1 : Int) else -1) = 2 * (if f i = true then 1 else 0) - 1 := by
    intro i; split <;> simp
  rw [Finset.sum_congr rfl (fun i _ => this i), Finset.sum_sub_distrib, ← Finset.mul_sum, Finset.sum_boole]
  simp

theorem count1_choose (n k : Nat) : count1 n (2 * k - n) = n.choose k := by
  unfold count1
  rw [Fintype.card_subtype]
  have : (Finset.powersetCard k (Finset.univ : Finset (Fin n))).card = n.choose k := by simp
  rw [← this]
  refine Finset.card_bij' (fun f _ => Finset.univ.filter fun i => f i = true) (fun s _ i => decide (i ∈ s)) ?_ ?_ ?_ ?_
  · intro f hf
    have hf := (Finset.mem_filter.mp hf).2
    rw [sum_eq] at hf
    rw [Finset.mem_powersetCard]
    exact ⟨Finset.subset_univ _, by omega⟩
  · intro s hs
    have hs := (Finset.mem_powersetCard.mp hs).2
    refine Finset.mem_filter.mpr ⟨Finset.mem_univ _, ?_⟩
    rw [sum_eq]
    simp [hs]
  · intro f _
    funext i
    simp
  · intro s _
    ext i
    simp

theorem count1_odd (n : Nat) (x : Int) (h : (n + x) % 2 ≠ 0) : count1 n x = 0 := by
  unfold count1
  rw [Fintype.card_eq_zero_iff]
  refine ⟨fun ⟨f, hf⟩ => ?_⟩
  rw [sum_eq] at hf
  omega

theorem count1_neg (n : Nat) (x : Int) : count1 n (-x) = count1 n x := by
  unfold count1
  refine Fintype.card_congr ⟨fun f => ⟨fun i => !f.1 i, ?_⟩, fun f => ⟨fun i => !f.1 i, ?_⟩, fun f => by simp, fun f => by simp⟩
  · have h := congrArg Neg.neg f.2
    rw [neg_neg] at h
    refine Eq.trans ?_ h
    rw [← Finset.sum_neg_distrib]
    refine Finset.sum_congr rfl fun i _ => ?_
    cases hb : f.1 i <;> simp [hb]
  · refine Eq.trans ?_ (congrArg Neg.neg f.2)
    rw [← Finset.sum_neg_distrib]
    refine Finset.sum_congr rfl fun i _ => ?_
    cases hb : f.1 i <;> simp [hb]

/-- The coordinates along the two diagonals of a direction. -/
def diag : Fin 4 ≃ Bool × Bool where
  toFun := ![(true, true), (false, false), (true, false), (false, true)]
  invFun b := if b.1 then (if b.2 then 0 else 2) else (if b.2 then 3 else 1)
  left_inv := by decide
  right_inv := by decide

theorem diag_fst (d : Fin 4) : (if (diag d).1 then (1 : Int) else -1) = (dir d).1 + (dir d).2 := by
  revert d; decide

theorem diag_snd (d : Fin 4) : (if (diag d).2 then (1 : Int) else -1) = (dir d).1 - (dir d).2 := by
  revert d; decide

theorem count2_eq (n : Nat) (x y : Int) : count2 n x y = count1 n (x + y) * count1 n (x - y) := by
  unfold count2 count1
  rw [← Fintype.card_prod]
  have key : ∀ f : Fin n → Fin 4, (∑ i, dir (f i) = (x, y)) ↔
      (∑ i, (if (diag (f i)).1 then (1 : Int) else -1) = x + y ∧ ∑ i, (if (diag (f i)).2 then (1 : Int) else -1) = x - y) := by
    intro f
    rw [Finset.sum_congr rfl (fun i _ => diag_fst (f i)), Finset.sum_congr rfl (fun i _ => diag_snd (f i)), Finset.sum_add_distrib,
      Finset.sum_sub_distrib, Prod.ext_iff, Prod.fst_sum, Prod.snd_sum]
    constructor
    · rintro ⟨h1, h2⟩
      dsimp only at h1 h2
      omega
    · rintro ⟨h1, h2⟩
      dsimp only
      omega
  refine Fintype.card_congr ⟨fun f => (⟨fun i => (diag (f.1 i)).1, ((key f.1).mp f.2).1⟩, ⟨fun i => (diag (f.1 i)).2, ((key f.1).mp f.2).2⟩),
    fun g => ⟨fun i => diag.symm (g.1.1 i, g.2.1 i), (key _).mpr ?_⟩, fun f => ?_, fun g => ?_⟩
  · simp only [Equiv.apply_symm_apply]
    exact ⟨g.1.2, g.2.2⟩
  · simp
  · simp

theorem i32_ok {x : Int} (h : -2 ^ 31 ≤ x ∧ x < 2 ^ 31) : i32 x = .ok x := by
  unfold i32; rw [if_pos h]

theorem mag_eq {x : Int} (h1 : -2 ^ 31 < x) : mag x = .ok |x| := by
  unfold mag
  split
  · rename_i h
    rw [i32_ok (by omega), abs_of_neg h]
  · rename_i h
    rw [abs_of_nonneg (by omega)]

theorem count1_abs (n : Nat) (x : Int) : count1 n |x| = count1 n x := by
  rcases abs_choice x with h | h <;> rw [h]
  exact count1_neg n x

/-- Half of `n + |x|`. -/
theorem count1_half {n : Nat} {x m : Int} (hm : m = n + |x|) (h : m % 2 = 0) : 0 ≤ m.tdiv 2 ∧ count1 n x = n.choose (m.tdiv 2).toNat := by
  have h0 : 0 ≤ |x| := abs_nonneg x
  have e : m.tdiv 2 = m / 2 := Int.tdiv_eq_ediv_of_nonneg (by omega)
  rw [e]
  refine ⟨by omega, ?_⟩
  rw [← count1_choose, ← count1_abs n x]
  congr 1
  omega

variable {p : Nat} [hp : Fact p.Prime] {N : Nat}

theorem walk1_tot (hF : ∀ k : Nat, 0 < k → k + 2 < 2 * N → (k : ZMod p) ≠ 0) {t : Factorial.Tab (ZMod p)} (ht : BinomSum.TOk N t) {n x : Int}
    (hn : 0 ≤ n) (hN : n < N) (hx : n + |x| < 2 ^ 31) :
    Tot (walk1 t n x) fun r => BinomSum.TOk N r.1 ∧ r.2 = (count1 n.toNat x : ZMod p) := by
  have h0 : 0 ≤ |x| := abs_nonneg x
  have h1 := neg_abs_le x
  unfold walk1
  rw [mag_eq (by omega), ok_bind]
  refine Tot.bind (BinomSum.ensure_ok hF ht (by omega)) fun t' ht' => ?_
  rw [i32_ok (by omega), ok_bind]
  by_cases hc : (n + |x|) % 2 = 0
  · rw [if_neg (by omega)]
    obtain ⟨g1, g2⟩ := count1_half (n := n.toNat) (x := x) (m := n + |x|) (by omega) hc
    refine (BinomSum.binom_ok hF ht' hN).mono ?_
    rintro r ⟨k1, k2⟩
    exact ⟨k1, by rw [k2, if_pos ⟨hn, g1⟩, g2]⟩
  · rw [if_pos hc]
    refine Tot.pure ⟨ht', ?_⟩
    rw [← count1_abs, count1_odd _ _ (by omega)]
    simp

/-- The calls whose arguments and sums fit an `int`, of length below `N`. -/
def Pre (N : Nat) : Op → Prop
  | .walk1 n x => 0 ≤ n ∧ n < N ∧ n + |x| < 2 ^ 31
  | .walk2 n x y => 0 ≤ n ∧ n < N ∧ n + |x| + |y| < 2 ^ 31

/-- The result of a call. -/
def Ans : Op → ZMod p → Prop
  | .walk1 n x, r => r = (count1 n.toNat x : ZMod p)
  | .walk2 n x y, r => r = (count2 n.toNat x y : ZMod p)

theorem step_tot (hF : ∀ k : Nat, 0 < k → k + 2 < 2 * N → (k : ZMod p) ≠ 0) (t : Factorial.Tab (ZMod p)) (_ : Unit) (c : Op)
    (ht : BinomSum.TOk N t) (hc : Pre N c) : Tot (step t c) fun r => BinomSum.TOk N r.1 ∧ Ans c r.2 := by
  cases c with
  | walk1 n x => exact walk1_tot hF ht hc.1 hc.2.1 hc.2.2
  | walk2 n x y =>
    obtain ⟨h0, h1, h2⟩ := hc
    have a1 := abs_add_le x y
    have a2 := abs_sub x y
    have b1 := abs_le.mp a1
    have b2 := abs_le.mp a2
    dsimp only [step]
    unfold walk2
    rw [i32_ok (by omega), ok_bind]
    refine Tot.bind (walk1_tot hF ht h0 h1 (by omega)) ?_
    rintro a ⟨g1, g2⟩
    rw [i32_ok (by omega), ok_bind]
    refine Tot.bind (walk1_tot hF g1 h0 h1 (by omega)) ?_
    rintro b ⟨k1, k2⟩
    refine Tot.pure ⟨k1, ?_⟩
    dsimp only [Ans]
    rw [g2, k2, count2_eq]
    push_cast
    rfl

/-- C214: for every prime modulus `p`, `random_walk_1d(n, x)` is the number of sequences of `n` steps `+1` or `-1` that end in `x`, and
`random_walk_2d(n, x, y)` the number of sequences of `n` steps to one of four neighbours that end in `(x, y)`, modulo `p`; in every
history of calls with lengths below `N`, `2 N ≤ p + 2` (the static table of factorials, which doubles, must not reach `p`), and any
end points such that the sums fit an `int`. -/
theorem walks_partial (p : Nat) [Fact p.Prime] (N : Nat) (hN : 2 * N ≤ p + 2) (ops : List Op) (hops : ∀ c ∈ ops, Pre N c) :
    Tot (runOps step (Factorial.init : Factorial.Tab (ZMod p)) ops) fun r => TraceOk (fun (_ : Unit) _ => ()) (fun _ => Ans) () ops r.2 := by
  have hF : ∀ k : Nat, 0 < k → k + 2 < 2 * N → (k : ZMod p) ≠ 0 := by
    intro k hk hk' e
    have := Nat.le_of_dvd hk ((ZMod.natCast_eq_zero_iff k p).mp e)
    omega
  have hv : ∀ l : List Op, (∀ c ∈ l, Pre N c) → ValidOps (fun (_ : Unit) (c : Op) => Pre N c) (fun _ _ => ()) () l := by
    intro l
    induction l with
    | nil => intro _; trivial
    | cons a l ih => intro h; exact ⟨h a (by simp), ih fun c hc => h c (by simp [hc])⟩
  obtain ⟨r, hr, -, ht⟩ := refine (Sim := fun t (_ : Unit) => BinomSum.TOk N t) (step_tot hF)
    (show BinomSum.TOk N (Factorial.init : Factorial.Tab (ZMod p)) from ⟨Factorial.inv_init, .inl rfl⟩) (hv ops hops)
  exact ⟨r, hr, ht⟩

/-- Walks of several lengths, with end points out of reach and of the wrong parity, modulo 11. -/
example : Fact (Nat.Prime 11) ∧ 2 * 6 ≤ 11 + 2 ∧ ∀ c ∈ [Op.walk1 5 (-3), .walk1 4 1, .walk1 2 100, .walk2 5 1 (-2)], Pre 6 c :=
  ⟨⟨by decide⟩, by decide, by simp [Pre]⟩

/-- C214: the variants that take the binomial coefficients `C(n, ·)` as a function count the same walks, in any field. -/
theorem walksWith_correct {F : Type} [Field F] (n : Nat) (binom : Int → M F) (hb : ∀ k : Nat, binom k = .ok (n.choose k : F)) (x y : Int) :
    (n + |x| < 2 ^ 31 → walk1With n x binom = .ok (count1 n x : F)) ∧
      (n + |x| + |y| < 2 ^ 31 → walk2With n x y binom = .ok (count2 n x y : F)) := by
  have one : ∀ x : Int, n + |x| < 2 ^ 31 → walk1With n x binom = .ok (count1 n x : F) := by
    intro x hx
    have h0 : 0 ≤ |x| := abs_nonneg x
    have h1 := neg_abs_le x
    unfold walk1With
    rw [mag_eq (by omega), ok_bind, i32_ok (by omega), ok_bind]
    by_cases hc : ((n : Int) + |x|) % 2 = 0
    · rw [if_neg (by omega)]
      obtain ⟨g1, g2⟩ := count1_half (n := n) (x := x) rfl hc
      rw [g2, ← hb, Int.toNat_of_nonneg g1]
    · rw [if_pos hc, ← count1_abs, count1_odd _ _ hc]
      simp [pure_eq]
  refine ⟨one x, fun h => ?_⟩
  have a1 := abs_add_le x y
  have a2 := abs_sub x y
  have b1 := abs_le.mp a1
  have b2 := abs_le.mp a2
  unfold walk2With
  rw [i32_ok (by omega), ok_bind, one _ (by omega), ok_bind, i32_ok (by omega), ok_bind, one _ (by omega), ok_bind, count2_eq]
  push_cast
  rfl

example : ∀ k : Nat, (fun k : Int => (Except.ok ((7 : Nat).choose k.toNat : ℚ) : M ℚ)) k = .ok ((7 : Nat).choose k : ℚ) := by simp

end RandomWalk
