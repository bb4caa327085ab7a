import Verif.Model.ChromaticNumber
import Verif.Proof.Coloring
import Mathlib.Data.ZMod.Basic

namespace Chromatic
open Cxx Coloring SubsetConvolution

theorem n32_ok {x : Nat} (h : x < 2 ^ 31) : n32 x = .ok x := by unfold n32; rw [if_pos h]; rfl
theorem n64_ok {x : Nat} (h : x < 2 ^ 63) : n64 x = .ok x := by unfold n64; rw [if_pos h]; rfl
theorem bit_ok {k : Nat} (h : k < 31) : bit k = .ok (2 ^ k) := by unfold bit; rw [if_pos h]; rfl

theorem ctz_tot {s : Nat} (h0 : s ≠ 0) (hs : s < 2 ^ 31) : Tot (ctz s) fun v => s.testBit v = true ∧ v < 31 := by
  unfold ctz
  cases e : (List.range 32).find? fun i => s.testBit i with
  | some v =>
    have h1 := List.find?_some e
    exact Tot.pure ⟨h1, bit_lt hs h1⟩
  | none =>
    exfalso
    rw [List.find?_eq_none] at e
    apply h0
    refine Nat.eq_of_testBit_eq fun i => ?_
    rw [Nat.zero_testBit, Bool.eq_false_iff]
    intro c
    have := bit_lt hs c
    exact e i (by simp; omega) c

/-- The adjacency masks. -/
theorem edges_tot {n : Nat} (hn : n ≤ 30) {edges : List (Nat × Nat)} (he : ∀ e ∈ edges, e.1 < n ∧ e.2 < n) :
    Tot (forEach edges (Array.replicate n 0) edgeStep) fun g => g.size = n ∧
      ∀ v, v < n → ∀ u, (at' 0 g v).testBit u = true ↔ ((v, u) ∈ edges ∨ (u, v) ∈ edges) := by
  refine Tot.forEach (s := Array.replicate n 0) (P := fun pre (g : Array Nat) => g.size = n ∧ ∀ v, v < n → ∀ u, (at' 0 g v).testBit u = true ↔ ((v, u) ∈ pre ∨ (u, v) ∈ pre)) ⟨by simp, ?_⟩ ?_
  · intro v hv u
    simp [at', hv]
  · rintro pre e suf g hpre ⟨h1, h2⟩
    obtain ⟨a, b⟩ := e
    obtain ⟨ha, hb⟩ := he (a, b) (by rw [hpre]; simp)
    dsimp only at ha hb
    unfold edgeStep
    dsimp only
    have sa : a < g.size := by omega
    rw [bit_ok (by omega), ok_bind, rd_at 0 sa, ok_bind, wr_eq sa, ok_bind, bit_ok (by omega), ok_bind]
    have sb : b < (g.setIfInBounds a (at' 0 g a ||| 2 ^ b)).size := by rw [Array.size_setIfInBounds]; omega
    rw [rd_at 0 sb, ok_bind, wr_eq sb]
    refine tot_ok.mpr ⟨by simpa using h1, ?_⟩
    intro v hv u
    rw [at_set 0 sb, at_set 0 sa, at_set 0 sa]
    have k1 := h2 v hv u
    have k2 := h2 a ha u
    have k3 := h2 b hb u
    simp only [List.mem_append, List.mem_singleton, Prod.mk.injEq]
    by_cases e1 : b = v <;> by_cases e2 : a = v
    · subst e1; subst e2
      simp only [if_true, Nat.testBit_or, Nat.testBit_two_pow, Bool.or_eq_true, decide_eq_true_eq, k1]
      tauto
    · subst e1
      rw [if_pos rfl, if_neg e2]
      simp only [Nat.testBit_or, Nat.testBit_two_pow, Bool.or_eq_true, decide_eq_true_eq, k1]
      constructor
      · rintro ((h | h) | h)
        · exact .inl (.inl h)
        · exact .inr (.inl h)
        · exact .inr (.inr ⟨h.symm, trivial⟩)
      · rintro ((h | h) | (h | h))
        · exact .inl (.inl h)
        · exact absurd h.1.symm e2
        · exact .inl (.inr h)
        · exact .inr h.1.symm
    · subst e2
      rw [if_neg e1, if_pos rfl]
      simp only [Nat.testBit_or, Nat.testBit_two_pow, Bool.or_eq_true, decide_eq_true_eq, k1]
      constructor
      · rintro ((h | h) | h)
        · exact .inl (.inl h)
        · exact .inr (.inl h)
        · exact .inl (.inr ⟨trivial, h.symm⟩)
      · rintro ((h | h) | (h | h))
        · exact .inl (.inl h)
        · exact .inr h.2.symm
        · exact .inl (.inr h)
        · exact absurd h.2.symm e1
    · rw [if_neg e1, if_neg e2, k1]
      constructor
      · rintro (h | h)
        · exact .inl (.inl h)
        · exact .inr (.inl h)
      · rintro ((h | h) | (h | h))
        · exact .inl h
        · exact absurd h.1.symm e2
        · exact .inr h
        · exact absurd h.2.symm e1

/-- The numbers of independent sets. -/
theorem ind_tot {n : Nat} (hn : n ≤ 30) {edges : List (Nat × Nat)} (he : ∀ e ∈ edges, e.1 < n ∧ e.2 < n) {g : Array Nat} (hg : g.size = n)
    (hg' : ∀ v, v < n → ∀ u, (at' 0 g v).testBit u = true ↔ ((v, u) ∈ edges ∨ (u, v) ∈ edges)) {I : Array Nat} (hI : I.size = 2 ^ n) (hI0 : at' 0 I 0 = 1) :
    Tot (forUp 1 (2 ^ n) I (indStep g)) fun I => I.size = 2 ^ n ∧ ∀ s, s < 2 ^ n → at' 0 I s = cnt n edges s := by
  have hp := Nat.two_pow_pos n
  have hle : 2 ^ n ≤ 2 ^ 30 := Nat.pow_le_pow_right (by omega) hn
  refine Tot.forUp (lo := 1) (hi := 2 ^ n) (P := fun k (I : Array Nat) => I.size = 2 ^ n ∧ ∀ s, s < k → at' 0 I s = cnt n edges s) (by omega) ⟨hI, ?_⟩ ?_
  · intro s hs
    obtain rfl : s = 0 := by omega
    rw [hI0, cnt_zero]
  · rintro s I hs hs' ⟨h1, h2⟩
    unfold indStep
    refine Tot.bind (ctz_tot (by omega) (by omega)) ?_
    rintro v ⟨hv, hv'⟩
    have hvn := bit_lt hs' hv
    rw [bit_ok hv', ok_bind]
    dsimp only
    rw [rd_at 0 (by omega), ok_bind]
    have lt1 : s ^^^ 2 ^ v < s := by
      refine Nat.lt_of_testBit v (by rw [bit_xor, hv]; simp) hv ?_
      intro j hj
      rw [bit_xor]
      simp [show v ≠ j by omega]
    have le2 : (s ^^^ 2 ^ v) ^^^ ((s ^^^ 2 ^ v) &&& at' 0 g v) ≤ s ^^^ 2 ^ v := by
      refine Nat.le_of_testBit fun i hi => ?_
      rw [Nat.testBit_xor, Nat.testBit_and] at hi
      revert hi
      cases (s ^^^ 2 ^ v).testBit i <;> simp
    have hrec := cnt_rec he hs' hv (hg' v hvn)
    rw [rd_at 0 (by omega), ok_bind, rd_at 0 (by omega), ok_bind, h2 _ lt1, h2 _ (by omega), ← hrec]
    have := cnt_le n edges s
    have ss : s < I.size := by omega
    rw [n32_ok (by omega), ok_bind, wr_eq ss]
    refine tot_ok.mpr ⟨by simpa using h1, ?_⟩
    intro t ht
    rw [at_set 0 ss]
    by_cases e : s = t
    · rw [if_pos e, e]
    · rw [if_neg e]
      exact h2 t (by omega)

section
variable {P n : Nat} {edges : List (Nat × Nat)} {I : Array Nat}

theorem sign_cast (hP : 2 ≤ P) (s : Nat) : ((signOf P n s : Nat) : ZMod P) = ((sgn n s : ℤ) : ZMod P) := by
  unfold signOf sgn
  rcases Nat.mod_two_eq_zero_or_one (n - popcount s) with h | h
  · rw [if_neg (by omega), Even.neg_one_pow (Nat.even_iff.mpr h)]
    simp
  · rw [if_pos h, Odd.neg_one_pow (Nat.odd_iff.mpr h), Nat.cast_sub (by omega)]
    simp

/-- The state of `f` after `k` rounds. -/
def FInv (P n : Nat) (edges : List (Nat × Nat)) (k : Nat) (f : Array Nat) : Prop :=
  f.size = 2 ^ n ∧ ∀ s, s < 2 ^ n → at' 0 f s < P ∧ ((at' 0 f s : Nat) : ZMod P) = ((sgn n s : ℤ) : ZMod P) * ((cnt n edges s : Nat) : ZMod P) ^ k

theorem round_tot (hP : 2 ≤ P) (hP' : P ≤ 2 ^ 30) (hn : n ≤ 30) (hI : I.size = 2 ^ n) (hI' : ∀ s, s < 2 ^ n → at' 0 I s = cnt n edges s) {k : Nat} {f : Array Nat}
    (hf : FInv P n edges k f) : Tot (forUp 0 (2 ^ n) (f, 0) (roundStep P I)) fun st => FInv P n edges (k + 1) st.1 ∧ (st.2 % P = 0 ↔ P ∣ covers n edges (k + 1)) := by
  have hle : 2 ^ n ≤ 2 ^ 30 := Nat.pow_le_pow_right (by omega) hn
  obtain ⟨hfs, hf⟩ := hf
  have key : Tot (forUp 0 (2 ^ n) (f, 0) (roundStep P I)) fun st => st.1.size = 2 ^ n ∧
      (∀ t, t < 2 ^ n → at' 0 st.1 t < P ∧ ((at' 0 st.1 t : Nat) : ZMod P) = ((sgn n t : ℤ) : ZMod P) * ((cnt n edges t : Nat) : ZMod P) ^ (if t < 2 ^ n then k + 1 else k)) ∧
      st.2 ≤ 2 ^ n * P ∧ ((st.2 : Nat) : ZMod P) = ∑ t ∈ Finset.range (2 ^ n), ((sgn n t : ℤ) : ZMod P) * ((cnt n edges t : Nat) : ZMod P) ^ (k + 1) := by
    refine Tot.forUp (lo := 0) (hi := 2 ^ n) (P := fun s (st : Array Nat × Nat) => st.1.size = 2 ^ n ∧
      (∀ t, t < 2 ^ n → at' 0 st.1 t < P ∧ ((at' 0 st.1 t : Nat) : ZMod P) = ((sgn n t : ℤ) : ZMod P) * ((cnt n edges t : Nat) : ZMod P) ^ (if t < s then k + 1 else k)) ∧
      st.2 ≤ s * P ∧ ((st.2 : Nat) : ZMod P) = ∑ t ∈ Finset.range s, ((sgn n t : ℤ) : ZMod P) * ((cnt n edges t : Nat) : ZMod P) ^ (k + 1)) (by omega) ⟨hfs, ?_, by simp, by simp⟩ ?_
    · intro t ht
      rw [if_neg (by omega)]
      exact hf t ht
    · rintro s ⟨f, sum⟩ - hs ⟨h1, h2, h3, h4⟩
      dsimp only at h1 h2 h3 h4
      have ss : s < f.size := by omega
      unfold roundStep
      dsimp only
      rw [rd_at 0 ss, ok_bind, rd_at 0 (by omega), ok_bind, hI' s hs]
      obtain ⟨k1, k2⟩ := h2 s hs
      rw [if_neg (by omega)] at k2
      have hc := cnt_le n edges s
      have hprod : at' 0 f s * cnt n edges s ≤ 2 ^ 30 * 2 ^ 30 := Nat.mul_le_mul (by omega) (by omega)
      rw [n64_ok (by omega), ok_bind, wr_eq ss, ok_bind]
      have hm : at' 0 f s * cnt n edges s % P < P := Nat.mod_lt _ (by omega)
      have hsum : s * P ≤ 2 ^ 30 * 2 ^ 30 := Nat.mul_le_mul (by omega) (by omega)
      rw [n64_ok (by omega), ok_bind]
      have hcast : ((at' 0 f s * cnt n edges s % P : Nat) : ZMod P) = ((sgn n s : ℤ) : ZMod P) * ((cnt n edges s : Nat) : ZMod P) ^ (k + 1) := by
        rw [ZMod.natCast_mod, Nat.cast_mul, k2, pow_succ, mul_assoc]
      refine Tot.pure ⟨by simpa using h1, ?_, ?_, ?_⟩
      · intro t ht
        dsimp only
        rw [at_set 0 ss]
        by_cases e : s = t
        · subst e
          rw [if_pos rfl, if_pos (by omega)]
          exact ⟨hm, hcast⟩
        · rw [if_neg e]
          have := h2 t ht
          by_cases e2 : t < s
          · rw [if_pos e2] at this
            rw [if_pos (by omega)]
            exact this
          · rw [if_neg e2] at this
            rw [if_neg (by omega)]
            exact this
      · dsimp only
        rw [Nat.succ_mul]
        omega
      · dsimp only
        rw [Nat.cast_add, h4, hcast, Finset.sum_range_succ]
  refine key.mono ?_
  rintro ⟨f', sum⟩ ⟨h1, h2, -, h4⟩
  dsimp only at h1 h2 h4 ⊢
  refine ⟨⟨h1, ?_⟩, ?_⟩
  · intro s hs
    have := h2 s hs
    rw [if_pos hs] at this
    exact this
  · have hsum : ((sum : Nat) : ZMod P) = ((covers n edges (k + 1) : Nat) : ZMod P) := by
      have h5 := congrArg (fun x : ℤ => (x : ZMod P)) (sum_covers n edges (k + 1))
      rw [h4]
      simpa using h5
    rw [← Nat.dvd_iff_mod_eq_zero, ← ZMod.natCast_eq_zero_iff, hsum, ZMod.natCast_eq_zero_iff]

theorem rounds_tot (hP : 2 ≤ P) (hP' : P ≤ 2 ^ 30) (hn : n ≤ 30) (hI : I.size = 2 ^ n) (hI' : ∀ s, s < 2 ^ n → at' 0 I s = cnt n edges s) : ∀ (r k : Nat) (f : Array Nat),
    FInv P n edges k f → k + 1 + r = n → Tot (rounds P n (2 ^ n) I r (k + 1) f) fun m => m ≤ n ∧ k < m ∧ (m < n → ¬ P ∣ covers n edges m) ∧ ∀ j, k < j → j < m → P ∣ covers n edges j := by
  intro r
  induction r with
  | zero =>
    intro k f _ h
    unfold rounds
    exact Tot.pure ⟨by omega, by omega, by omega, by omega⟩
  | succ r ih =>
    intro k f hf h
    unfold rounds
    refine Tot.bind (round_tot hP hP' hn hI hI' hf) ?_
    rintro st ⟨h1, h2⟩
    split_ifs with hc
    · refine Tot.pure ⟨by omega, by omega, ?_, ?_⟩
      · intro _ h3
        exact hc (h2.mpr h3)
      · intro j h3 h4
        omega
    · refine (ih (k + 1) st.1 h1 (by omega)).mono ?_
      rintro m ⟨g1, g2, g3, g4⟩
      refine ⟨g1, by omega, g3, ?_⟩
      intro j hj hj'
      by_cases e : j = k + 1
      · rw [e]
        exact h2.mp (by simpa using hc)
      · exact g4 j (by omega) hj'

theorem detail_tot (hP : 2 ≤ P) (hP' : P ≤ 2 ^ 30) (h0 : 0 < n) (hn : n ≤ 30) (hI : I.size = 2 ^ n) (hI' : ∀ s, s < 2 ^ n → at' 0 I s = cnt n edges s) :
    Tot (detail P n I) fun m => m ≤ n ∧ 0 < m ∧ (m < n → ¬ P ∣ covers n edges m) ∧ ∀ j, 0 < j → j < m → P ∣ covers n edges j := by
  unfold detail
  rw [bit_ok (by omega), ok_bind]
  refine Tot.bind (Tot.forUp (lo := 0) (hi := 2 ^ n) (P := fun k (f : Array Nat) => f.size = 2 ^ n ∧ ∀ s, s < k → at' 0 f s = signOf P n s) (by omega) ⟨by simp, by omega⟩ ?_) ?_
  · rintro s f - hs ⟨h1, h2⟩
    have ss : s < f.size := by omega
    unfold initStep
    rw [wr_eq ss]
    refine tot_ok.mpr ⟨by simpa using h1, ?_⟩
    intro t ht
    rw [at_set 0 ss]
    by_cases e : s = t
    · rw [if_pos e, e]
    · rw [if_neg e]
      exact h2 t (by omega)
  · rintro f ⟨h1, h2⟩
    refine rounds_tot hP hP' hn hI hI' (n - 1) 0 f ⟨h1, ?_⟩ (by omega)
    intro s hs
    rw [h2 s hs, pow_zero, mul_one]
    refine ⟨?_, sign_cast hP s⟩
    unfold signOf
    split_ifs <;> omega

end

theorem chromaticNumber_tot {n : Nat} (hn : n ≤ 30) {edges : List (Nat × Nat)} (he : ∀ e ∈ edges, e.1 < n ∧ e.2 < n) :
    Tot (chromaticNumber n edges) fun r => r ≤ n ∧ ∀ k, IsChromatic n edges k → k ≤ r ∧ (¬ (998244353 ∣ covers n edges k ∧ 1000000007 ∣ covers n edges k) → r = k) := by
  unfold chromaticNumber
  split_ifs with h0
  · refine Tot.pure ⟨by omega, ?_⟩
    intro k hk
    have : k ≤ n := hk.2 n (colorable_n n)
    exact ⟨by omega, fun _ => by omega⟩
  · refine Tot.bind (edges_tot hn he) ?_
    rintro g ⟨hg, hg'⟩
    have hp := Nat.two_pow_pos n
    have s0 : 0 < (Array.replicate (2 ^ n) 0 : Array Nat).size := by simp
    rw [bit_ok (by omega), ok_bind, wr_eq s0, ok_bind]
    refine Tot.bind (ind_tot hn he hg hg' (by simp) (by rw [at_set 0 s0, if_pos rfl])) ?_
    rintro I ⟨hI, hI'⟩
    refine Tot.bind (detail_tot (P := 998244353) (by norm_num) (by norm_num) (by omega) hn hI hI') ?_
    rintro a ⟨a1, a2, a3, a4⟩
    refine Tot.bind (detail_tot (P := 1000000007) (by norm_num) (by norm_num) (by omega) hn hI hI') ?_
    rintro b ⟨b1, b2, b3, b4⟩
    refine Tot.pure ⟨by omega, ?_⟩
    intro k hk
    have hkn : k ≤ n := hk.2 n (colorable_n n)
    have hk0 : 0 < k := by
      rcases Nat.eq_zero_or_pos k with e | e
      · subst e
        obtain ⟨⟨c, hc, -⟩, -⟩ := hk
        have := hc 0 (by omega)
        omega
      · exact e
    -- fewer colours: no covers
    have hlow : ∀ m, m < k → covers n edges m = 0 := by
      intro m hm
      by_contra c
      have := hk.2 m ((covers_pos he m).mp (Nat.pos_of_ne_zero c))
      omega
    have ha : k ≤ a := by
      by_contra c
      have h1 := a3 (by omega)
      rw [hlow a (by omega)] at h1
      exact h1 (dvd_zero _)
    have hb : k ≤ b := by
      by_contra c
      have h1 := b3 (by omega)
      rw [hlow b (by omega)] at h1
      exact h1 (dvd_zero _)
    refine ⟨by omega, ?_⟩
    intro hnd
    rw [not_and_or] at hnd
    rcases hnd with h | h
    · have : ¬ k < a := fun hlt => h (a4 k hk0 hlt)
      omega
    · have : ¬ k < b := fun hlt => h (b4 k hk0 hlt)
      omega

theorem small_covers {n k : Nat} {edges : List (Nat × Nat)} (hpos : 0 < covers n edges k) (h : (2 ^ k - 1) ^ n < 998244353 * 1000000007) :
    ¬ (998244353 ∣ covers n edges k ∧ 1000000007 ∣ covers n edges k) := by
  rintro ⟨h1, h2⟩
  have hc : Nat.Coprime 998244353 1000000007 := by decide
  have := Nat.le_of_dvd hpos (hc.mul_dvd_of_dvd_of_dvd h1 h2)
  have := covers_le n edges k
  omega

end Chromatic
