import Verif.Proof.GaussF2
import Verif.Spec.LinearSystem
import Mathlib.Algebra.Field.Rat

/-!
# C52: Gaussian elimination
-/

namespace GaussProps
open Cxx LinearSystem

/-- Entry `(i, j)` of a matrix given by its rows, and entry `i` of a vector. -/
def mat {F : Type} [Field F] (A : Array (Array F)) (i j : Nat) : F := ((A[i]?.getD #[])[j]?).getD 0
/-- Entry `i` of a vector. -/
def vec {F : Type} [Field F] (b : Array F) (i : Nat) : F := (b[i]?).getD 0

variable {F : Type} [Field F]

/-- What a `GaussianElimination` object for `A x = b` (`n` equations, `m` unknowns) must report. -/
structure Describes (n m : Nat) (A : Nat → Nat → F) (b : Nat → F) (r : Gauss.Result F) : Prop where
  solvable : Gauss.hasSolution r = true ↔ ∃ x, Solves n m A b x
  unsolvable : Gauss.hasSolution r = false → Gauss.getSolution r = none ∧ Gauss.dimension r = -1
  solution : Gauss.hasSolution r = true → ∃ x0, Gauss.getSolution r = some x0 ∧ x0.size = m ∧
    (∀ t < r.basis.size, (r.basis[t]?.getD #[]).size = m) ∧ Gauss.dimension r = r.basis.size ∧
    (∀ y, Solves n m A b y ↔ InAffineSpan m r.basis.size (vec x0) (mat r.basis) y) ∧ Independent m r.basis.size (mat r.basis)
  unique : Gauss.hasUniqueSolution r = true ↔ ∃ x, Solves n m A b x ∧ ∀ y, Solves n m A b y → ∀ j < m, y j = x j
  multiple : Gauss.hasMultipleSolutions r = true ↔ ∃ x y, Solves n m A b x ∧ Solves n m A b y ∧ ∃ j < m, x j ≠ y j

theorem solves_congr {n m : Nat} {A : Nat → Nat → F} {b : Nat → F} {e : Nat → Nat → F} (h : ∀ r < n, (∀ c < m, e r c = A r c) ∧ e r m = b r) (x : Nat → F) :
    Gauss.Sol n m e x ↔ Solves n m A b x := by
  refine forall_congr' fun r => forall_congr' fun hr => ?_
  obtain ⟨h1, h2⟩ := h r hr
  rw [h2, Finset.sum_congr rfl fun c hc => by rw [h1 c (Finset.mem_range.1 hc)]]

theorem describes_of_outcome {n m : Nat} {A : Nat → Nat → F} {b : Nat → F} {S : (Nat → F) → Prop} {r : Gauss.Result F} (h : Gauss.Outcome n m S r) (hS : ∀ x, S x ↔ Solves n m A b x) :
    Describes n m A b r := by
  rw [Gauss.Outcome] at h
  by_cases he : r.empty = true
  · rw [if_pos he] at h
    obtain ⟨h1, h2⟩ := h
    have h1' : ¬ ∃ x, Solves n m A b x := fun ⟨x, hx⟩ => h1 ⟨x, (hS x).2 hx⟩
    have e1 : Gauss.hasSolution r = false := by simp [Gauss.hasSolution, he]
    refine ⟨?_, fun _ => ⟨by simp [Gauss.getSolution, he], by simp [Gauss.dimension, he]⟩, fun h => by rw [e1] at h; exact absurd h (by decide), ?_, ?_⟩
    · rw [e1]
      exact ⟨fun h => absurd h (by decide), fun h => absurd h h1'⟩
    · rw [show Gauss.hasUniqueSolution r = false by simp [Gauss.hasUniqueSolution, he]]
      exact ⟨fun h => absurd h (by decide), fun ⟨x, hx, _⟩ => absurd ⟨x, hx⟩ h1'⟩
    · rw [show Gauss.hasMultipleSolutions r = false by simp [Gauss.hasMultipleSolutions, h2]]
      exact ⟨fun h => absurd h (by decide), fun ⟨x, y, hx, _⟩ => absurd ⟨x, hx⟩ h1'⟩
  · rw [if_neg he] at h
    obtain ⟨R, L, p, q, e, hsol, hrref, hx, hL, hsz, hpar⟩ := h
    have e1 : Gauss.hasSolution r = true := by simp [Gauss.hasSolution, he]
    have hiff : ∀ y, Solves n m A b y ↔ InAffineSpan m r.basis.size (vec r.x0) (mat r.basis) y := by
      intro y
      rw [← hS, ← hsol, hrref.param hpar y, hL]
      rfl
    have hind : Independent m r.basis.size (mat r.basis) := by
      rw [hL]
      exact hrref.indep hpar
    have hx0 : Solves n m A b (vec r.x0) := (hiff _).2 ⟨fun _ => 0, fun j _ => by simp⟩
    refine ⟨⟨fun _ => ⟨_, hx0⟩, fun _ => e1⟩, fun h => by rw [e1] at h; exact absurd h (by decide),
      fun _ => ⟨r.x0, by simp [Gauss.getSolution, he], hx, by rw [hL]; exact hsz, by simp [Gauss.dimension, he], hiff, hind⟩, ?_, ?_⟩
    all_goals
      have hmult : 0 < r.basis.size → ∃ x y, Solves n m A b x ∧ Solves n m A b y ∧ ∃ j < m, x j ≠ y j := by
        intro h0
        refine ⟨vec r.x0, fun j => vec r.x0 j + mat r.basis 0 j, hx0, (hiff _).2 ⟨fun t => if t = 0 then 1 else 0, fun j _ => ?_⟩, ?_⟩
        · simp [h0]
        · by_contra hcon
          have hz := hind (fun t => if t = 0 then 1 else 0) (fun j hj => ?_) 0 h0
          · simp at hz
          · have : mat r.basis 0 j = 0 := by
              by_contra hne
              exact hcon ⟨j, hj, fun h => hne (by simpa using h)⟩
            simp [h0, this]
      have huniq : r.basis.size = 0 → ∀ y, Solves n m A b y → ∀ j < m, y j = vec r.x0 j := by
        intro h0 y hy j hj
        obtain ⟨c, hc⟩ := (hiff y).1 hy
        rw [hc j hj, h0]
        simp
    · constructor
      · intro h
        have h0 : r.basis.size = 0 := by simpa [Gauss.hasUniqueSolution, he] using h
        exact ⟨_, hx0, huniq h0⟩
      · rintro ⟨x, h1, h2⟩
        have h0 : r.basis.size = 0 := by
          by_contra hne
          obtain ⟨u, v, hu, hv, j, hj, hne'⟩ := hmult (by omega)
          exact hne' (by rw [h2 u hu j hj, h2 v hv j hj])
        simp [Gauss.hasUniqueSolution, he, h0]
    · constructor
      · intro h
        exact hmult (by simpa [Gauss.hasMultipleSolutions] using h)
      · rintro ⟨x, y, h1, h2, j, hj, hne⟩
        have h0 : 0 < r.basis.size := by
          by_contra hne'
          exact hne (by rw [huniq (by omega) x h1 j hj, huniq (by omega) y h2 j hj])
        simpa [Gauss.hasMultipleSolutions] using h0

/-- C52: for every nonempty rectangular system over a field, the object describes exactly the solution set. -/
theorem gauss_describes [DecidableEq F] (A : Array (Array F)) (b : Array F) (m : Nat) (hn : 0 < A.size) (hb : b.size = A.size) (hA : ∀ i < A.size, (A[i]?.getD #[]).size = m) :
    ∃ r, Gauss.make (Gauss.Ops.field F) A b = .ok r ∧ Describes A.size m (mat A) (vec b) r := by
  have : Tot (Gauss.make (Gauss.Ops.field F) A b) (Describes A.size m (mat A) (vec b)) := by
    rw [Gauss.make]
    refine Tot.bind (Gauss.augment_tot rfl hb hA) ?_
    rintro Ab ⟨h1, h2⟩
    refine (Gauss.solve_tot h1 hn).mono ?_
    intro r hr
    exact describes_of_outcome hr (solves_congr h2)
  exact this

/-- C52: the element type `bool` with xor and and is the field with two elements. -/
theorem gauss_f2_ops : Gauss.Ops.f2 = @Gauss.Ops.field Bool F2.field := by
  rw [Gauss.Ops.f2, Gauss.Ops.field]
  congr 1
  · funext x; cases x <;> rfl

/-- C52: `GaussianEliminationF2`. -/
theorem gauss_describes_f2 (A : Array (Array Bool)) (b : Array Bool) (m : Nat) (hn : 0 < A.size) (hb : b.size = A.size) (hA : ∀ i < A.size, (A[i]?.getD #[]).size = m) :
    ∃ r, Gauss.make Gauss.Ops.f2 A b = .ok r ∧ @Describes Bool F2.field A.size m (@mat Bool F2.field A) (@vec Bool F2.field b) r := by
  rw [gauss_f2_ops]
  exact @gauss_describes Bool F2.field _ A b m hn hb hA

/-- C52: a system without equations reads `Ab[0]` of an empty vector. -/
theorem gauss_no_rows [DecidableEq F] (b : Array F) : Gauss.make (Gauss.Ops.field F) #[] b = .error .ub := rfl

attribute [local instance] F2.field

/-- C52 (bitset variant): solvability, the particular solution, independence; and exactly which solutions the basis reaches: those that vanish on the columns from `J` on,
where `J` is the number of unknowns unless it is the dimension plus the number of equations. -/
theorem gauss_f2_bitset_partial (A : GaussF2.MatrixF2) (b : Array Bool) (hn : A.dat.size = A.n) (hA : ∀ i < A.n, (A.dat[i]?.getD #[]).size = A.m) (hb : b.size = A.n) :
    ∃ r, GaussF2.solve A b = .ok r ∧ (r.solution.isSome = true ↔ ∃ x, Solves A.n A.m (mat A.dat) (vec b) x) ∧
      ∀ x0, r.solution = some x0 → x0.size = A.m ∧ Solves A.n A.m (mat A.dat) (vec b) (vec x0) ∧ (∀ t < r.basis.size, (r.basis[t]?.getD #[]).size = A.m) ∧
        Independent A.m r.basis.size (mat r.basis) ∧
        ∃ J ≤ A.m, (J = A.m ∨ J = r.basis.size + A.n) ∧
          ∀ y, InAffineSpan A.m r.basis.size (vec x0) (mat r.basis) y ↔ Solves A.n A.m (mat A.dat) (vec b) y ∧ ∀ j, J ≤ j → j < A.m → y j = 0 := by
  obtain ⟨r, hr, -, Ab, ⟨hAb1, hAb2⟩, ho⟩ := GaussF2.solve_tot hn hA hb
  have hS : ∀ x, Gauss.Sol A.n A.m (Gauss.ent Ab) x ↔ Solves A.n A.m (mat A.dat) (vec b) x := solves_congr hAb2
  refine ⟨r, hr, ?_⟩
  rw [GaussF2.Outcome] at ho
  cases hsol : r.solution with
  | none =>
    rw [hsol] at ho
    refine ⟨⟨fun h => absurd h (by decide), fun ⟨x, hx⟩ => absurd ⟨x, (hS x).2 hx⟩ ho.1⟩, fun x0 h => by simp at h⟩
  | some x0 =>
    rw [hsol] at ho
    obtain ⟨J, s, h, hrhs, hx, hxp, hxq, hbs, hvec⟩ := ho
    obtain ⟨hrref, hpar⟩ := GaussF2.outcome_param h hrhs hxp hxq hvec
    have hJ := h.le
    have hx0J : ∀ j, J ≤ j → j < A.m → vec x0 j = 0 := fun j h1 _ => hxq j fun k hk => by have := h.plt k hk; omega
    have hBJ : ∀ t < r.basis.size, ∀ j, J ≤ j → j < A.m → mat r.basis t j = 0 := by
      intro t ht j h1 _
      have := (hvec t (by omega)).2.2 j fun k hk => by have := h.plt k hk; omega
      rw [if_neg (by have := h.qlt t (by omega); omega)] at this
      exact this
    have hspan : ∀ y, InAffineSpan A.m r.basis.size (vec x0) (mat r.basis) y ↔ Solves A.n A.m (mat A.dat) (vec b) y ∧ ∀ j, J ≤ j → j < A.m → y j = 0 := by
      intro y
      constructor
      · rintro ⟨c, hc⟩
        have hy : ∀ j, J ≤ j → j < A.m → y j = 0 := by
          intro j h1 h2
          rw [hc j h2, hx0J j h1 h2, zero_add]
          exact Finset.sum_eq_zero fun t ht => by rw [hBJ t (Finset.mem_range.1 ht) j h1 h2, mul_zero]
        refine ⟨?_, hy⟩
        rw [← hS, ← h.sol, ← GaussF2.sol_trunc hJ hy, hrref.param hpar, ← hbs]
        exact ⟨c, fun j hj => hc j (by omega)⟩
      · rintro ⟨h1, hy⟩
        rw [← hS, ← h.sol, ← GaussF2.sol_trunc hJ hy, hrref.param hpar, ← hbs] at h1
        obtain ⟨c, hc⟩ := h1
        refine ⟨c, fun j hj => ?_⟩
        by_cases hjJ : j < J
        · exact hc j hjJ
        · rw [hy j (by omega) hj, hx0J j (by omega) hj, zero_add]
          exact (Finset.sum_eq_zero fun t ht => by rw [hBJ t (Finset.mem_range.1 ht) j (by omega) hj, mul_zero]).symm
    have hsolves : Solves A.n A.m (mat A.dat) (vec b) (vec x0) := ((hspan _).1 ⟨fun _ => 0, fun j _ => by rw [Finset.sum_eq_zero fun t _ => zero_mul _, add_zero]⟩).1
    refine ⟨⟨fun _ => ⟨_, hsolves⟩, fun _ => rfl⟩, ?_⟩
    rintro x0' h0
    cases h0
    refine ⟨hx, hsolves, fun t ht => (hvec t (by omega)).1, fun c hc t ht => ?_, J, hJ, ?_, hspan⟩
    · rw [hbs] at hc ht
      exact hrref.indep hpar c (fun j hj => hc j (by omega)) t ht
    · by_cases hr : s.rank < A.n
      · exact Or.inl (h.full hr)
      · have := h.rank
        have := h.num
        exact Or.inr (by omega)

/-- C52 (bitset variant): the basis is complete whenever it has at least (unknowns − equations) elements, in particular for square systems. -/
theorem gauss_f2_bitset_complete (A : GaussF2.MatrixF2) (b : Array Bool) (hn : A.dat.size = A.n) (hA : ∀ i < A.n, (A.dat[i]?.getD #[]).size = A.m) (hb : b.size = A.n) (hm : A.m ≤ A.n) :
    ∃ r, GaussF2.solve A b = .ok r ∧ ∀ x0, r.solution = some x0 → ∀ y, Solves A.n A.m (mat A.dat) (vec b) y ↔ InAffineSpan A.m r.basis.size (vec x0) (mat r.basis) y := by
  obtain ⟨r, hr, -, h⟩ := gauss_f2_bitset_partial A b hn hA hb
  refine ⟨r, hr, fun x0 hx y => ?_⟩
  obtain ⟨-, -, -, -, J, hJ, h1, h2⟩ := h x0 hx
  have : J = A.m := by omega
  subst this
  rw [h2 y]
  exact ⟨fun h => ⟨h, fun j h1 h2 => by omega⟩, fun h => h.1⟩

/-- C52 fails for the bitset variant: for the single equation `x₀ + x₁ = 0` the basis is empty although `(1, 1)` is a solution. -/
theorem gauss_f2_bitset_incomplete : ∃ r x0, GaussF2.solve ⟨1, 2, #[#[true, true]]⟩ #[false] = .ok r ∧ r.solution = some x0 ∧ r.basis.size = 0 ∧
    Solves 1 2 (mat #[#[true, true]]) (vec #[false]) (fun _ => true) ∧ ¬ InAffineSpan 2 r.basis.size (vec x0) (mat r.basis) (fun _ => true) := by
  refine ⟨⟨false, some #[false, false], #[]⟩, #[false, false], rfl, rfl, rfl, ?_, ?_⟩
  · intro i hi
    have : i = 0 := by omega
    subst this
    rfl
  · rintro ⟨c, hc⟩
    have := hc 0 (by omega)
    rw [show Finset.range (#[] : Array (Array Bool)).size = ∅ from rfl, Finset.sum_empty] at this
    exact absurd this (by decide)

/-- `normalized()` fails its own assertion for every solution space with a nonempty basis. -/
theorem gauss_f2_normalized_asserts (s : GaussF2.SolutionSpace) (h : 0 < s.basis.size) : GaussF2.normalize s = .error .assertion := by
  rw [GaussF2.normalize, GaussF2.addAll]
  cases hl : s.basis.toList with
  | nil =>
    have : s.basis.toList.length = s.basis.size := Array.length_toList
    rw [hl, List.length_nil] at this
    omega
  | cons e l => rfl

/-- The hypotheses hold for a rank 2 system in 3 unknowns over the rationals. -/
example : ∃ r, Gauss.make (Gauss.Ops.field ℚ) #[#[0, 2, 4], #[1, 1, 1], #[1, 3, 5]] #[2, 1, 3] = .ok r ∧
    Describes 3 3 (mat #[#[0, 2, 4], #[1, 1, 1], #[1, 3, 5]]) (vec #[2, 1, 3]) r :=
  gauss_describes _ _ 3 (by decide) (by decide) (fun i hi => by
    have : i = 0 ∨ i = 1 ∨ i = 2 := by simp at hi; omega
    rcases this with rfl | rfl | rfl <;> rfl)

example : Gauss.make Gauss.Ops.f2 #[#[true, true, false], #[false, true, true]] #[true, false] = .ok ⟨#[true, false, false], #[#[true, true, true]], false⟩ := by decide +kernel
example : GaussF2.solve ⟨2, 2, #[#[true, true], #[true, true]]⟩ #[true, true] = .ok ⟨false, some #[true, false], #[#[true, true]]⟩ := by decide +kernel

end GaussProps
