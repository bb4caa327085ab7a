import Verif.Proof.ChromaticNumber

/-!
Property C132: the chromatic number. The full claim is that the result is the chromatic number for every graph with at most 30 vertices. What is
missing: the count of covers is known only modulo two primes, and nothing excludes that it is a multiple of both.
-/

namespace Chromatic.Props
open Cxx Coloring

/-- For every graph with at most 30 vertices the function returns a number `r` of colours for which a proper colouring exists (between the
chromatic number and `n`), and `r` is the chromatic number unless the number of covers of the vertices by that many independent sets is
divisible by both moduli. -/
theorem result_partial (n : Nat) (hn : n ≤ 30) (edges : List (Nat × Nat)) (he : ∀ e ∈ edges, e.1 < n ∧ e.2 < n) (k : Nat) (hk : IsChromatic n edges k) :
    Tot (chromaticNumber n edges) fun r => k ≤ r ∧ r ≤ n ∧ (¬ (998244353 ∣ covers n edges k ∧ 1000000007 ∣ covers n edges k) → r = k) :=
  (chromaticNumber_tot hn he).mono fun _ h => ⟨(h.2 k hk).1, h.1, (h.2 k hk).2⟩

/-- If `(2 ^ k - 1) ^ n` is less than the product of the moduli, where `k` is the chromatic number, then the result is exact. -/
theorem exact (n : Nat) (hn : n ≤ 30) (edges : List (Nat × Nat)) (he : ∀ e ∈ edges, e.1 < n ∧ e.2 < n) (k : Nat) (hk : IsChromatic n edges k)
    (hs : (2 ^ k - 1) ^ n < 998244353 * 1000000007) : chromaticNumber n edges = .ok k := by
  obtain ⟨r, e, -, h⟩ := chromaticNumber_tot hn he
  rw [e, (h k hk).2 (small_covers ((covers_pos he k).mpr hk.1) hs)]

/-- In particular the result is exact for bipartite graphs. -/
theorem exact_bipartite (n : Nat) (hn : n ≤ 30) (edges : List (Nat × Nat)) (he : ∀ e ∈ edges, e.1 < n ∧ e.2 < n) (k : Nat) (hk : IsChromatic n edges k)
    (hk2 : k ≤ 2) : chromaticNumber n edges = .ok k := by
  refine exact n hn edges he k hk ?_
  have h1 : 2 ^ k - 1 ≤ 3 := by
    have : 2 ^ k ≤ 2 ^ 2 := Nat.pow_le_pow_right (by omega) hk2
    omega
  calc (2 ^ k - 1) ^ n ≤ 3 ^ n := Nat.pow_le_pow_left h1 n
    _ ≤ 3 ^ 30 := Nat.pow_le_pow_right (by omega) hn
    _ < _ := by norm_num

/-- The result is also exact for all graphs with at most 7 vertices. -/
theorem exact_small (n : Nat) (hn : n ≤ 7) (edges : List (Nat × Nat)) (he : ∀ e ∈ edges, e.1 < n ∧ e.2 < n) (k : Nat) (hk : IsChromatic n edges k) :
    chromaticNumber n edges = .ok k := by
  refine exact n (by omega) edges he k hk ?_
  have hkn : k ≤ 7 := (hk.2 n (colorable_n n)).trans hn
  have h1 : 2 ^ k - 1 ≤ 127 := by
    have : 2 ^ k ≤ 2 ^ 7 := Nat.pow_le_pow_right (by omega) hkn
    omega
  calc (2 ^ k - 1) ^ n ≤ 127 ^ n := Nat.pow_le_pow_left h1 n
    _ ≤ 127 ^ 7 := Nat.pow_le_pow_right (by omega) hn
    _ < _ := by norm_num

/-- A triangle with a pendant vertex has chromatic number 3. -/
theorem triangle : IsChromatic 4 [(0, 1), (1, 2), (2, 0), (2, 3)] 3 := by
  refine ⟨⟨fun v => v % 3, fun v _ => Nat.mod_lt v (by decide), by decide⟩, ?_⟩
  rintro j ⟨c, h1, h2⟩
  have a := h1 0 (by omega)
  have b := h1 1 (by omega)
  have d := h1 2 (by omega)
  have p := h2 (0, 1) (by simp) (by simp)
  have q := h2 (1, 2) (by simp) (by simp)
  have r := h2 (2, 0) (by simp) (by simp)
  dsimp only at p q r
  omega

example : 4 ≤ 30 ∧ (∀ e ∈ [(0, 1), (1, 2), (2, 0), (2, 3)], e.1 < 4 ∧ e.2 < 4) ∧ (2 ^ 3 - 1) ^ 4 < 998244353 * 1000000007 ∧
    IsChromatic 4 [(0, 1), (1, 2), (2, 0), (2, 3)] 3 := ⟨by decide, by decide, by decide, triangle⟩

end Chromatic.Props
