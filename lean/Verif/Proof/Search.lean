import Verif.Model.Util
import Mathlib.Algebra.Order.Group.Defs
import Mathlib.Algebra.Order.Group.Unbundled.Basic
import Mathlib.Tactic.Ring
import Mathlib.Tactic.Common

/-! # Lemmas on the searches -/

namespace Search
open Cxx

/-- The interval still to be searched. -/
def Bis (f : Int → Bool) (l0 r0 : Int) (s : Int × Int) : Prop :=
  l0 ≤ s.1 ∧ s.1 < s.2 ∧ s.2 ≤ r0 ∧ f s.1 = false ∧ f s.2 = true

theorem bisect_tot (f : Int → Bool) (l0 r0 : Int) (hl : -2 ^ 63 ≤ l0) (hr : r0 < 2 ^ 63) (hd : r0 - l0 < 2 ^ 63)
    (s : Int × Int) (h : Bis f l0 r0 s) :
    Tot (loop (bisectStep f) 64 s) fun s => Bis f l0 r0 s ∧ s.2 = s.1 + 1 := by
  refine Tot.loopG (P := fun k (s : Int × Int) => Bis f l0 r0 s ∧ s.2 - s.1 ≤ 2 ^ k) (k := 63) ?_ ⟨h, ?_⟩ (by omega)
  · rintro k ⟨l, r⟩ ⟨⟨h1, h2, h3, h4, h5⟩, hk⟩
    dsimp only at h1 h2 h3 h4 h5 hk
    rw [bisectStep]
    dsimp only
    rw [i64_ok (x := r - l) ⟨by omega, by omega⟩, ok_bind]
    split
    · rename_i hgt
      rw [ok_bind, i64_ok (x := l + (r - l) / 2) ⟨by omega, by omega⟩, ok_bind]
      have hk' : ∃ j, k = j + 1 := by
        rcases k with _ | j
        · simp at hk; omega
        · exact ⟨j, rfl⟩
      obtain ⟨j, rfl⟩ := hk'
      rw [pow_succ] at hk
      split
      · rename_i hf
        exact Tot.pure ⟨j, by omega, ⟨h1, by first | omega | (dsimp only; omega), by first | omega | (dsimp only; omega), h4, hf⟩, by first | omega | (dsimp only; omega)⟩
      · rename_i hf
        exact Tot.pure ⟨j, by omega, ⟨by first | omega | (dsimp only; omega), by first | omega | (dsimp only; omega), h3, by simpa using hf, h5⟩, by first | omega | (dsimp only; omega)⟩
    · rename_i hgt
      exact Tot.pure ⟨⟨h1, h2, h3, h4, h5⟩, by first | omega | (dsimp only; omega)⟩
  · obtain ⟨h1, h2, h3, h4, h5⟩ := h
    omega

theorem exp_tot (f : Int → Bool) (l t : Int) (hl : -2 ^ 63 ≤ l) (hlt : l < t) (ht : f t = true) (hmono : ∀ x y, l ≤ x → x ≤ y → f x = true → f y = true)
    (h1 : 2 * (t - l) ≤ 2 ^ 63) (h2 : l + 2 * (t - l) ≤ 2 ^ 63) :
    Tot (loop (expStep f l) 64 1) fun w => 1 ≤ w ∧ w < 2 * (t - l) ∧ f (l + w) = true := by
  refine Tot.loopG (P := fun k (w : Int) => w * 2 ^ k = 2 ^ 63 ∧ 1 ≤ w ∧ w < 2 * (t - l)) (k := 63) ?_ ⟨by omega, by omega, by omega⟩ (by omega)
  rintro k w ⟨hk, hw1, hw⟩
  rw [expStep, i64_ok (x := l + w) ⟨by omega, by omega⟩, ok_bind]
  split
  · rename_i hf
    exact Tot.pure ⟨hw1, hw, hf⟩
  · rename_i hf
    have hlt : l + w < t := by
      rcases Int.lt_or_le (l + w) t with h | h
      · exact h
      · exact absurd (hmono t (l + w) (by omega) h ht) hf
    rw [i64_ok (x := w * 2) ⟨by omega, by omega⟩, ok_bind]
    have hk' : ∃ j, k = j + 1 := by
      rcases k with _ | j
      · simp at hk; omega
      · exact ⟨j, rfl⟩
    obtain ⟨j, rfl⟩ := hk'
    refine Tot.pure ⟨j, by omega, ?_, by omega, by omega⟩
    rw [← hk, pow_succ]
    ring

section Ternary
variable {β : Type} [AddCommGroup β] [LinearOrder β] [IsOrderedAddMonoid β]

/-- Discrete convexity on `[l0, r0]`. -/
def Convex (f : Int → β) (l0 r0 : Int) : Prop := ∀ x, l0 ≤ x → x + 2 ≤ r0 → f (x + 1) - f x ≤ f (x + 2) - f (x + 1)

theorem slope_mono {f : Int → β} {l0 r0 : Int} (hc : Convex f l0 r0) (x : Int) (hx : l0 ≤ x) (y : Int) (hxy : x ≤ y) :
    y + 1 ≤ r0 → f (x + 1) - f x ≤ f (y + 1) - f y := by
  induction y, hxy using Int.le_induction with
  | base => intro _; exact le_refl _
  | succ y hy ih =>
    intro h
    refine le_trans (ih (by omega)) ?_
    have := hc y (by omega) (by omega)
    rwa [show y + 2 = y + 1 + 1 by ring] at this

theorem incr {f : Int → β} {l0 r0 : Int} (hc : Convex f l0 r0) (x : Int) (hx : l0 ≤ x) (hs : f x ≤ f (x + 1)) (a : Int) (ha : x ≤ a)
    (b : Int) (hab : a ≤ b) : b ≤ r0 → f a ≤ f b := by
  induction b, hab using Int.le_induction with
  | base => intro _; exact le_refl _
  | succ b hb ih =>
    intro h
    refine le_trans (ih (by omega)) ?_
    have := slope_mono hc x hx b (by omega) h
    exact sub_nonneg.1 (le_trans (sub_nonneg.2 hs) this)

theorem decr {f : Int → β} {l0 r0 : Int} (hc : Convex f l0 r0) (x : Int) (hx : x + 1 ≤ r0) (hs : f (x + 1) ≤ f x) (a : Int) (ha : l0 ≤ a)
    (b : Int) (hab : a ≤ b) : b ≤ x + 1 → f b ≤ f a := by
  induction b, hab using Int.le_induction with
  | base => intro _; exact le_refl _
  | succ b hb ih =>
    intro h
    refine le_trans ?_ (ih (by omega))
    have := slope_mono hc b (by omega) x (by omega) hx
    exact sub_nonpos.1 (le_trans this (sub_nonpos.2 hs))

/-- Width that `k` rounds suffice for. -/
def width : Nat → Nat
  | 0 => 2
  | k + 1 => 3 * width k / 2

theorem width_112 : 2 ^ 63 ≤ width 112 := by decide +kernel

/-- `[s.1, s.2]` still contains a minimiser over `[l0, r0]`. -/
def Tern (f : Int → β) (l0 r0 : Int) (s : Int × Int) : Prop :=
  l0 ≤ s.1 ∧ s.1 ≤ s.2 ∧ s.2 ≤ r0 ∧ ∀ x, l0 ≤ x → x ≤ r0 → ∃ y, s.1 ≤ y ∧ y ≤ s.2 ∧ f y ≤ f x

theorem ternary_tot (f : Int → β) (l0 r0 : Int) (hc : Convex f l0 r0) (hl : -2 ^ 63 ≤ l0) (hr : r0 < 2 ^ 63) (hd : r0 - l0 < 2 ^ 63)
    (hlr : l0 ≤ r0) :
    Tot (loop (ternaryStep fun x y => decide (f x > f y)) 112 (l0, r0)) fun s => Tern f l0 r0 s ∧ s.2 ≤ s.1 + 2 := by
  refine Tot.loopG (P := fun k (s : Int × Int) => Tern f l0 r0 s ∧ s.2 - s.1 ≤ width k) (k := 112) ?_
    ⟨⟨le_refl _, hlr, le_refl _, fun x h1 h2 => ⟨x, h1, h2, le_refl _⟩⟩, ?_⟩ (le_refl _)
  · rintro k ⟨l, r⟩ ⟨⟨h1, h2, h3, h4⟩, hk⟩
    dsimp only at h1 h2 h3 h4 hk
    rw [ternaryStep]
    dsimp only
    rw [i64_ok (x := r - l) ⟨by omega, by omega⟩, ok_bind]
    split
    · rename_i hge
      rw [i64_ok (x := l + (r - l) / 3) ⟨by omega, by omega⟩, ok_bind, i64_ok (x := r - (r - l) / 3) ⟨by omega, by omega⟩, ok_bind]
      obtain ⟨ml, hml⟩ : ∃ ml, ml = l + (r - l) / 3 := ⟨_, rfl⟩
      obtain ⟨mr, hmr⟩ : ∃ mr, mr = r - (r - l) / 3 := ⟨_, rfl⟩
      rw [← hml, ← hmr]
      have hk' : ∃ j, k = j + 1 := by
        rcases k with _ | j
        · simp [width] at hk; omega
        · exact ⟨j, rfl⟩
      obtain ⟨j, rfl⟩ := hk'
      rw [width] at hk
      split
      · rename_i hf
        have hf : f mr < f ml := by simpa using hf
        have hs : f (ml + 1) ≤ f ml := by
          rcases le_total (f (ml + 1)) (f ml) with h | h
          · exact h
          · exact absurd (incr hc ml (by omega) h ml (le_refl _) mr (by omega) (by omega)) (not_le.2 hf)
        refine Tot.pure ⟨j, by omega, ⟨by first | omega | (dsimp only; omega), by first | omega | (dsimp only; omega), h3, ?_⟩, by first | omega | (dsimp only; omega)⟩
        intro x hx1 hx2
        obtain ⟨y, hy1, hy2, hy⟩ := h4 x hx1 hx2
        rcases Int.lt_or_le y ml with h | h
        · exact ⟨ml, le_refl _, by first | omega | (dsimp only; omega), le_trans (decr hc ml (by omega) hs y (by omega) ml (by omega) (by omega)) hy⟩
        · exact ⟨y, h, hy2, hy⟩
      · rename_i hf
        have hf : f ml ≤ f mr := by simpa using hf
        have hs : f (mr - 1) ≤ f (mr - 1 + 1) := by
          rcases le_or_gt (f (mr - 1)) (f (mr - 1 + 1)) with h | h
          · exact h
          · exfalso
            have := decr hc (mr - 1) (by omega) (le_of_lt h) ml (by omega) (mr - 1) (by omega) (by omega)
            rw [show mr - 1 + 1 = mr by ring] at h
            exact absurd (lt_of_lt_of_le h this) (not_lt.2 hf)
        refine Tot.pure ⟨j, by omega, ⟨h1, by first | omega | (dsimp only; omega), by first | omega | (dsimp only; omega), ?_⟩, by first | omega | (dsimp only; omega)⟩
        intro x hx1 hx2
        obtain ⟨y, hy1, hy2, hy⟩ := h4 x hx1 hx2
        rcases Int.lt_or_le mr y with h | h
        · exact ⟨mr, by first | omega | (dsimp only; omega), le_refl _, le_trans (incr hc (mr - 1) (by omega) hs mr (by omega) y (by omega) (by omega)) hy⟩
        · exact ⟨y, hy1, h, hy⟩
    · rename_i hge
      exact Tot.pure ⟨⟨h1, h2, h3, h4⟩, by first | omega | (dsimp only; omega)⟩
  · have := width_112
    dsimp only
    omega

theorem scan_tot (f : Int → β) (l r : Int) (hl : -2 ^ 63 ≤ l) (hlr : l ≤ r) (hr : r < 2 ^ 63 - 1) (hw : r ≤ l + 2) :
    Tot (loop (scanStep (fun x y => decide (f x > f y)) r) 4 (l + 1, l)) fun s =>
      l ≤ s.2 ∧ s.2 ≤ r ∧ ∀ z, l ≤ z → z ≤ r → f s.2 ≤ f z := by
  refine Tot.loop (P := fun (s : Int × Int) => l + 1 ≤ s.1 ∧ s.1 ≤ r + 1 ∧ l ≤ s.2 ∧ s.2 < s.1 ∧ ∀ z, l ≤ z → z < s.1 → f s.2 ≤ f z)
    (μ := fun s => (r + 1 - s.1).toNat) ?_ ⟨le_refl _, by first | omega | (dsimp only; omega), le_refl _, by first | omega | (dsimp only; omega), ?_⟩ (by first | omega | (dsimp only; omega))
  · rintro ⟨y, x⟩ ⟨h1, h2, h3, h4, h5⟩
    dsimp only at h1 h2 h3 h4 h5
    rw [scanStep]
    dsimp only
    split
    · rename_i hy
      rw [i64_ok (x := y + 1) ⟨by omega, by omega⟩, ok_bind]
      split
      · rename_i hf
        have hf : f y < f x := by simpa using hf
        refine Tot.pure ⟨⟨by first | omega | (dsimp only; omega), by first | omega | (dsimp only; omega), by first | omega | (dsimp only; omega), by first | omega | (dsimp only; omega), ?_⟩, by first | omega | (dsimp only; omega)⟩
        intro z hz1 hz2
        dsimp only at hz2 ⊢
        rcases Int.lt_or_le z y with h | h
        · exact le_trans (le_of_lt hf) (h5 z hz1 h)
        · rw [show z = y by omega]
      · rename_i hf
        have hf : f x ≤ f y := by simpa using hf
        refine Tot.pure ⟨⟨by first | omega | (dsimp only; omega), by first | omega | (dsimp only; omega), by first | omega | (dsimp only; omega), by first | omega | (dsimp only; omega), ?_⟩, by first | omega | (dsimp only; omega)⟩
        intro z hz1 hz2
        dsimp only at hz2 ⊢
        rcases Int.lt_or_le z y with h | h
        · exact h5 z hz1 h
        · rwa [show z = y by omega]
    · rename_i hy
      exact Tot.pure ⟨h3, by first | omega | (dsimp only; omega), fun z hz1 hz2 => h5 z hz1 (by omega)⟩
  · intro z h1 h2
    dsimp only at h2
    rw [show z = l by omega]

theorem key_tot (f : Int → β) (l r : Int) (hc : Convex f l r) (hl : -2 ^ 63 ≤ l) (hlr : l ≤ r) (hr : r < 2 ^ 63 - 1)
    (hd : r - l < 2 ^ 63) :
    Tot (ternaryKey (fun x y => decide (f x > f y)) l r) fun x => l ≤ x ∧ x ≤ r ∧ ∀ z, l ≤ z → z ≤ r → f x ≤ f z := by
  rw [ternaryKey, decide_eq_true hlr, check_true, ok_bind]
  refine Tot.bind (ternary_tot f l r hc hl (by omega) hd hlr) ?_
  rintro ⟨l', r'⟩ ⟨⟨h1, h2, h3, h4⟩, hw⟩
  dsimp only at h1 h2 h3 h4 hw
  dsimp only
  rw [i64_ok (x := l' + 1) ⟨by omega, by omega⟩, ok_bind]
  refine Tot.bind (scan_tot f l' r' (by omega) h2 (by omega) hw) ?_
  rintro ⟨y, x⟩ ⟨g1, g2, g3⟩
  dsimp only at g1 g2 g3
  refine Tot.pure ⟨by first | omega | (dsimp only; omega), by first | omega | (dsimp only; omega), ?_⟩
  intro z hz1 hz2
  obtain ⟨y, hy1, hy2, hy⟩ := h4 z hz1 hz2
  exact le_trans (g3 y hy1 hy2) hy

end Ternary

end Search
