import Mathlib.Algebra.Order.Ring.Abs
import Mathlib.Algebra.Order.Ring.Int
import Mathlib.Tactic.Ring
import Verif.Model.AffineClamp

/-!
# Properties of `library/algebra/monoid/affine_clamp.hpp`
-/

namespace AffineClamp
open Cxx

/-- A value of the type of `w` bits. -/
def InT (w : Nat) (x : Int) : Prop := -2 ^ (w - 1) ≤ x ∧ x < 2 ^ (w - 1)

/-- A function object with a non-empty range. -/
structure Valid (w : Nat) (f : Fn) : Prop where
  a : InT w f.a
  b : InT w f.b
  l : InT w f.l
  r : InT w f.r
  le : f.l ≤ f.r

/-- The function meant: `x ↦ min (max (a x + b) l) r`. -/
def value (f : Fn) (x : Int) : Int := min (max (f.a * x + f.b) f.l) f.r

theorem ar_in {w : Nat} {x : Int} (h : InT w x) : ar w x = .ok x := if_pos h

theorem pow_le {w : Nat} (hw : w ≤ 64) : (2 : Int) ^ (w - 1) ≤ 2 ^ 63 := by
  have : 2 ^ (w - 1) ≤ 2 ^ 63 := Nat.pow_le_pow_right (by omega) (by omega)
  exact_mod_cast this

theorem mul_bound {a x B : Int} (ha : -B ≤ a ∧ a ≤ B) (hx : -B ≤ x ∧ x ≤ B) : -(B * B) ≤ a * x ∧ a * x ≤ B * B := by
  have h : |a * x| ≤ B * B := by
    rw [abs_mul]
    exact mul_le_mul (abs_le.mpr ha) (abs_le.mpr hx) (abs_nonneg _) (by omega)
  exact abs_le.mp h

theorem apply_eq {w : Nat} (hw : w ≤ 64) {f : Fn} (hf : Valid w f) {x : Int} (hx : InT w x) : apply f x = .ok (value f x) := by
  have hp := pow_le hw
  obtain ⟨a1, a2⟩ := hf.a
  obtain ⟨b1, b2⟩ := hf.b
  obtain ⟨x1, x2⟩ := hx
  have hb := mul_bound (B := 2 ^ 63) (a := f.a) (x := x) (by omega) (by omega)
  have hle := hf.le
  unfold apply affine ar clamp value
  rw [if_pos (by omega), ok_bind, if_pos (by omega), ok_bind, if_neg (by omega)]
  congr 1
  omega

theorem value_in {w : Nat} {f : Fn} (hf : Valid w f) (x : Int) : InT w (value f x) := by
  obtain ⟨l1, l2⟩ := hf.l
  obtain ⟨r1, r2⟩ := hf.r
  unfold InT value
  omega

theorem value_comp (f g : Fn) (hg : g.l ≤ g.r) (hf : f.l ≤ f.r) (x : Int) :
    value f (value g x) = min (max (f.a * g.a * x + (f.a * g.b + f.b)) (min (value f g.l) (value f g.r))) (max (value f g.l) (value f g.r)) := by
  have e : f.a * g.a * x + (f.a * g.b + f.b) = f.a * (g.a * x + g.b) + f.b := by ring
  rw [e]
  unfold value
  generalize g.a * x + g.b = v
  rcases Int.le_total 0 f.a with ha | ha
  · have mono : ∀ y z : Int, y ≤ z → f.a * y ≤ f.a * z := fun y z h => Int.mul_le_mul_of_nonneg_left h ha
    have m1 := mono _ _ hg
    rcases Int.lt_or_le v g.l with h1 | h1
    · rw [show min (max v g.l) g.r = g.l by omega]
      have := mono _ _ (show v ≤ g.l by omega)
      omega
    · rcases Int.lt_or_le g.r v with h2 | h2
      · rw [show min (max v g.l) g.r = g.r by omega]
        have := mono _ _ (show g.r ≤ v by omega)
        omega
      · rw [show min (max v g.l) g.r = v by omega]
        have := mono _ _ h1
        have := mono _ _ h2
        omega
  · have mono : ∀ y z : Int, y ≤ z → f.a * z ≤ f.a * y := fun y z h => Int.mul_le_mul_of_nonpos_left ha h
    have m1 := mono _ _ hg
    rcases Int.lt_or_le v g.l with h1 | h1
    · rw [show min (max v g.l) g.r = g.l by omega]
      have := mono _ _ (show v ≤ g.l by omega)
      omega
    · rcases Int.lt_or_le g.r v with h2 | h2
      · rw [show min (max v g.l) g.r = g.r by omega]
        have := mono _ _ (show g.r ≤ v by omega)
        omega
      · rw [show min (max v g.l) g.r = v by omega]
        have := mono _ _ h1
        have := mono _ _ h2
        omega

/-- C211: evaluation.  `f(x)` is the value of `a x + b`, however large, moved into `[l, r]`; there is no overflow. -/
theorem apply_correct {w : Nat} (hw : w ≤ 64) {f : Fn} (hf : Valid w f) {x : Int} (hx : InT w x) :
    apply f x = .ok (min (max (f.a * x + f.b) f.l) f.r) := apply_eq hw hf hx

/-- C211, the part that holds: if the coefficients of the composition fit into the type, `compose(f, g)` is the function `x ↦ f(g(x))`, also for
negative slopes. -/
theorem compose_partial {w : Nat} (hw : w ≤ 64) {f g : Fn} (hf : Valid w f) (hg : Valid w g) (h1 : InT w (f.a * g.a))
    (h2 : InT w (f.a * g.b)) (h3 : InT w (f.a * g.b + f.b)) :
    Tot (compose w f g) fun h => Valid w h ∧ ∀ x, InT w x → apply h x = (apply g x >>= apply f) := by
  have hfr : InT w (value f g.r) := value_in hf _
  have hfl : InT w (value f g.l) := value_in hf _
  obtain ⟨k, hk⟩ : ∃ k : Fn, k = if value f g.r < value f g.l then ⟨f.a * g.a, f.a * g.b + f.b, value f g.r, value f g.l⟩ else
    ⟨f.a * g.a, f.a * g.b + f.b, value f g.l, value f g.r⟩ := ⟨_, rfl⟩
  have hc : compose w f g = .ok k := by
    unfold compose affine
    rw [ar_in h1, ok_bind, ar_in h2, ok_bind, ar_in h3, ok_bind, apply_eq hw hf hg.l, ok_bind, apply_eq hw hf hg.r, ok_bind, hk]
    rfl
  have hv : Valid w k := by
    rw [hk]
    split
    · exact ⟨h1, h3, hfr, hfl, by dsimp only; omega⟩
    · exact ⟨h1, h3, hfl, hfr, by dsimp only; omega⟩
  rw [hc]
  refine Tot.pure ⟨hv, fun x hx => ?_⟩
  rw [apply_eq hw hv hx, apply_eq hw hg hx, ok_bind, apply_eq hw hf (value_in hg x), value_comp f g hg.le hf.le]
  congr 1
  rw [hk]
  unfold value
  split <;> dsimp only <;> omega

/-- The hypotheses are met by functions with slopes of both signs, and the composition of these is checked. -/
example : Valid 32 ⟨-2, 3, -10, 10⟩ ∧ Valid 32 ⟨5, 1, 0, 100⟩ ∧ InT 32 (-2 * 5) ∧ InT 32 (-2 * 1) ∧ InT 32 (-2 * 1 + 3) ∧
    compose 32 ⟨-2, 3, -10, 10⟩ ⟨5, 1, 0, 100⟩ = .ok ⟨-10, 1, -10, 3⟩ := by
  refine ⟨⟨?_, ?_, ?_, ?_, ?_⟩, ⟨?_, ?_, ?_, ?_, ?_⟩, ?_, ?_, ?_, by decide +kernel⟩ <;> (try unfold InT) <;> decide

/-- C211: `id()` is neutral: compositions with it are defined and act as `f`. -/
theorem id_correct {w : Nat} (hw0 : 2 ≤ w) (hw : w ≤ 64) {f : Fn} (hf : Valid w f) :
    (∀ x, InT w x → apply (idFn w) x = .ok x) ∧
    (Tot (compose w f (idFn w)) fun h => Valid w h ∧ ∀ x, InT w x → apply h x = apply f x) ∧
    Tot (compose w (idFn w) f) fun h => Valid w h ∧ ∀ x, InT w x → apply h x = apply f x := by
  have hpos : (2 : Int) ≤ 2 ^ (w - 1) := by
    have : 2 ^ 1 ≤ 2 ^ (w - 1) := Nat.pow_le_pow_right (by omega) (by omega)
    exact_mod_cast this
  have hi : Valid w (idFn w) := by
    refine ⟨?_, ?_, ?_, ?_, ?_⟩ <;> (try unfold InT) <;> dsimp only [idFn] <;> omega
  have hid : ∀ x, InT w x → apply (idFn w) x = .ok x := fun x hx => by
    rw [apply_eq hw hi hx]
    obtain ⟨x1, x2⟩ := hx
    unfold value
    dsimp only [idFn]
    congr 1
    omega
  have hb := hf.b
  have ha := hf.a
  have h0 : InT w 0 := by unfold InT; omega
  refine ⟨hid, ?_, ?_⟩
  · refine (compose_partial hw hf hi ?_ ?_ ?_).mono fun h ⟨hv, hh⟩ => ⟨hv, fun x hx => ?_⟩
    · dsimp only [idFn]; rw [Int.mul_one]; exact ha
    · dsimp only [idFn]; rw [Int.mul_zero]; exact h0
    · dsimp only [idFn]; rw [Int.mul_zero, Int.zero_add]; exact hb
    · rw [hh x hx, hid x hx, ok_bind]
  · refine (compose_partial hw hi hf ?_ ?_ ?_).mono fun h ⟨hv, hh⟩ => ⟨hv, fun x hx => ?_⟩
    · dsimp only [idFn]; rw [Int.one_mul]; exact ha
    · dsimp only [idFn]; rw [Int.one_mul]; exact hb
    · dsimp only [idFn]; rw [Int.one_mul, Int.add_zero]; exact hb
    · rw [hh x hx, apply_eq hw hf hx, ok_bind, hid _ (value_in hf x)]

/-- C211, violated: the clamping does not keep the coefficients of a composition small.  The function `x ↦ min (max (2 ^ 32 x) 0) 1` cannot be
composed with itself in 64 bits, although the composition is the same function. -/
theorem compose_counterexample : Valid 64 ⟨2 ^ 32, 0, 0, 1⟩ ∧ compose 64 ⟨2 ^ 32, 0, 0, 1⟩ ⟨2 ^ 32, 0, 0, 1⟩ = .error .ub ∧
    ∀ x, InT 64 x → (apply ⟨2 ^ 32, 0, 0, 1⟩ x >>= apply ⟨2 ^ 32, 0, 0, 1⟩) = apply ⟨2 ^ 32, 0, 0, 1⟩ x := by
  have hv : Valid 64 ⟨2 ^ 32, 0, 0, 1⟩ := by
    refine ⟨?_, ?_, ?_, ?_, ?_⟩ <;> (try unfold InT) <;> decide
  refine ⟨hv, by decide +kernel, fun x hx => ?_⟩
  rw [apply_eq (Nat.le_refl 64) hv hx, ok_bind, apply_eq (Nat.le_refl 64) hv (value_in hv x)]
  congr 1
  unfold value
  dsimp only
  omega

end AffineClamp
