import Verif.Model.BerlekampMassey
import Mathlib.Algebra.BigOperators.Intervals
import Mathlib.Algebra.BigOperators.Ring.Finset
import Mathlib.Tactic.Ring

namespace BerlekampMassey
open Cxx Finset

variable {F : Type} [Field F] [DecidableEq F]

/-- What a recurrence with coefficients `c` and length `L` leaves at position `n`. -/
def disc (u c : Nat → F) (L n : Nat) : F := ∑ i ∈ range (L + 1), c i * u (n - i)

omit [DecidableEq F] in
theorem disc_extend {u c : Nat → F} {L K : Nat} (h : ∀ i, L < i → c i = 0) (hk : L ≤ K) (n : Nat) : ∑ i ∈ range (K + 1), c i * u (n - i) = disc u c L n := by
  unfold disc
  symm
  refine sum_subset (range_subset_range.mpr (by omega)) ?_
  intro i h1 h2
  rw [mem_range] at h1 h2
  rw [h i (by omega), zero_mul]

omit [DecidableEq F] in
/-- Massey's lemma: a recurrence that fails at `N` forces any recurrence that does not fail there to be long. -/
theorem massey {u c c' : Nat → F} {L L' N : Nat} (h1 : ∀ n, L ≤ n → n < N → disc u c L n = 0) (h2 : disc u c L N ≠ 0) (h0 : c' 0 = 1)
    (h3 : ∀ n, L' ≤ n → n < N + 1 → disc u c' L' n = 0) : N + 1 ≤ L + L' := by
  by_contra hc
  apply h2
  have e1 : ∑ i ∈ range (L + 1), ∑ j ∈ range (L' + 1), c i * c' j * u (N - i - j) = 0 := by
    refine sum_eq_zero fun i hi => ?_
    rw [mem_range] at hi
    have := h3 (N - i) (by omega) (by omega)
    unfold disc at this
    simp_rw [mul_assoc]
    rw [← mul_sum, this, mul_zero]
  rw [sum_comm, sum_range_succ'] at e1
  have e2 : ∑ j ∈ range L', ∑ i ∈ range (L + 1), c i * c' (j + 1) * u (N - i - (j + 1)) = 0 := by
    refine sum_eq_zero fun j hj => ?_
    rw [mem_range] at hj
    have := h1 (N - (j + 1)) (by omega) (by omega)
    unfold disc at this
    have e3 : ∀ i, c i * c' (j + 1) * u (N - i - (j + 1)) = c' (j + 1) * (c i * u (N - (j + 1) - i)) := by
      intro i
      rw [show N - i - (j + 1) = N - (j + 1) - i by omega]
      ring
    simp_rw [e3]
    rw [← mul_sum, this, mul_zero]
  rw [e2, zero_add] at e1
  unfold disc
  simpa [h0] using e1

/-- The values of the array as a function. -/
def val (a : Array F) : Nat → F := fun i => at' 0 a i

omit [DecidableEq F] in
theorem disc_sub {u C B : Nat → F} {L LB L' x : Nat} (k : F) (hC : ∀ i, L < i → C i = 0) (hB : ∀ i, LB < i → B i = 0) (h1 : L ≤ L') (h2 : x + LB ≤ L') (n : Nat) :
    disc u (fun i => C i - if x ≤ i then k * B (i - x) else 0) L' n = disc u C L n - k * disc u B LB (n - x) := by
  unfold disc
  simp_rw [sub_mul]
  rw [sum_sub_distrib, disc_extend hC h1 n]
  unfold disc
  congr 1
  have e : ∑ i ∈ range (L' + 1), (if x ≤ i then k * B (i - x) else 0) * u (n - i) = ∑ i ∈ Ico x (L' + 1), k * B (i - x) * u (n - i) := by
    symm
    refine sum_subset_zero_on_sdiff (fun i hi => by rw [mem_Ico] at hi; exact mem_range.mpr hi.2) ?_ ?_
    · intro i hi
      rw [mem_sdiff, mem_range, mem_Ico] at hi
      rw [if_neg (by omega), zero_mul]
    · intro i hi
      rw [mem_Ico] at hi
      rw [if_pos hi.1]
  rw [e, sum_Ico_eq_sum_range, mul_sum]
  symm
  have hle : LB + 1 ≤ L' + 1 - x := by omega
  refine (sum_subset (range_subset_range.mpr hle) ?_).trans (sum_congr rfl ?_)
  · intro i hi hni
    rw [mem_range] at hni
    rw [hB i (by omega)]
    ring
  · intro i _
    rw [Nat.add_sub_cancel_left, Nat.sub_sub]
    ring

theorem discr_tot {s C : Array F} {L N : Nat} (hN : N < s.size) (hL : L ≤ N) (hC : L < C.size) (h0 : val C 0 = 1) : discr s C L N = .ok (disc (val s) (val C) L N) := by
  have : Tot (discr s C L N) (fun d => d = disc (val s) (val C) L N) := by
    unfold discr
    rw [rd_at 0 hN, ok_bind]
    refine (Tot.forUp (lo := 1) (hi := L + 1) (P := fun i d => d = ∑ j ∈ range i, val C j * val s (N - j)) (by omega) ?_ ?_)
    · rw [sum_range_one, h0, one_mul]
      rfl
    · intro i d i1 i2 hd
      rw [rd_at 0 (show i < C.size by omega), ok_bind, if_pos (by omega), rd_at 0 (show N - i < s.size by omega), ok_bind, pure_eq]
      refine tot_ok.mpr ?_
      rw [sum_range_succ, hd]
      rfl
  obtain ⟨d, h1, h2⟩ := this
  rw [h1, h2]

theorem resize_size (C : Array F) (n : Nat) : (resize C n).size = n := by
  unfold resize
  split_ifs
  · simp
    omega
  · simp
    omega

theorem resize_val (C : Array F) (n i : Nat) : val (resize C n) i = if i < n then val C i else 0 := by
  unfold resize val at'
  split_ifs with h1 h2 h2
  · rw [Array.getElem?_extract]
    by_cases h : i < C.size
    · simp [h, h2]
    · simp [h]
  · rw [Array.getElem?_extract]
    simp [h2]
  · by_cases hi : i < C.size
    · rw [Array.getElem?_append_left hi]
    · rw [Array.getElem?_append_right (by omega)]
      simp [hi]
      rw [Array.getElem?_replicate]
      split_ifs <;> rfl
  · rw [Array.getElem?_append_right (by omega)]
    rw [Array.getElem?_replicate, if_neg (by omega)]
    rfl

theorem grow_val (C : Array F) (n : Nat) : val (grow C n) = val C := by
  unfold grow
  split_ifs with h
  · funext i
    rw [resize_val]
    split_ifs with h1
    · rfl
    · symm
      exact at_ge 0 (by omega)
  · rfl

theorem grow_size (C : Array F) (n : Nat) : (grow C n).size = max C.size n := by
  unfold grow
  split_ifs with h
  · rw [resize_size]
    omega
  · omega

theorem subtract_tot {c : F} {x : Nat} {B C : Array F} (h : x + B.size ≤ C.size) :
    Tot (subtract c x B C) (fun C' => C'.size = C.size ∧ ∀ i, val C' i = val C i - if x ≤ i then c * val B (i - x) else 0) := by
  unfold subtract
  refine (Tot.forUp (lo := 0) (hi := B.size) (P := fun k (C' : Array F) => C'.size = C.size ∧ ∀ i, val C' i = val C i - if x ≤ i ∧ i < x + k then c * val B (i - x) else 0) (by omega) ?_ ?_).mono ?_
  · refine ⟨rfl, fun i => ?_⟩
    rw [if_neg (by omega), sub_zero]
  · intro k C' k1 k2 ⟨h1, h2⟩
    rw [rd_at 0 k2, ok_bind, rd_at 0 (show x + k < C'.size by omega), ok_bind, wr_eq (show x + k < C'.size by omega)]
    refine tot_ok.mpr ⟨by simp [h1], fun i => ?_⟩
    have := at_set 0 (show x + k < C'.size by omega) (at' 0 C' (x + k) - c * at' 0 B k) i
    show at' 0 _ i = _
    rw [this]
    split_ifs with a1 a2 a2
    · subst a1
      have := h2 (x + k)
      rw [if_neg (by omega), sub_zero] at this
      rw [show at' 0 C' (x + k) = val C' (x + k) from rfl, this, Nat.add_sub_cancel_left]
      rfl
    · omega
    · have := h2 i
      rw [if_pos (by omega)] at this
      exact this
    · have := h2 i
      rw [if_neg (by omega)] at this
      exact this
  · rintro C' ⟨h1, h2⟩
    refine ⟨h1, fun i => ?_⟩
    rw [h2 i]
    by_cases hx : x ≤ i
    · by_cases hb : i < x + B.size
      · rw [if_pos ⟨hx, hb⟩, if_pos hx]
      · rw [if_neg (by omega), if_pos hx, show val B (i - x) = 0 from at_ge 0 (by omega), mul_zero]
    · rw [if_neg (by omega), if_neg hx]

/-- The state after `N` elements. -/
structure Inv (u : Nat → F) (N : Nat) (t : St F) : Prop where
  c0 : val t.C 0 = 1
  csup : ∀ i, t.L < i → val t.C i = 0
  csz : t.L < t.C.size
  le : t.L ≤ N
  gen : ∀ n, t.L ≤ n → n < N → disc u (val t.C) t.L n = 0
  min : ∀ L' c', c' 0 = 1 → (∀ n, L' ≤ n → n < N → disc u c' L' n = 0) → t.L ≤ L'
  b : t.b ≠ 0
  x : 0 < t.x
  B : ∃ LB, (∀ i, LB < i → val t.B i = 0) ∧ LB < t.B.size ∧ t.x + LB + t.L = N + 1 ∧
    (t.L = 0 ∨ ((∀ n, LB ≤ n → n + t.x < N → disc u (val t.B) LB n = 0) ∧ disc u (val t.B) LB (N - t.x) = t.b))

theorem step_tot {s : Array F} {N : Nat} {t : St F} (hN : N < s.size) (h : Inv (val s) N t) : Tot (step s N t) (Inv (val s) (N + 1)) := by
  obtain ⟨LB, b1, b2, b3, b4⟩ := h.B
  unfold step
  rw [discr_tot hN h.le h.csz h.c0, ok_bind]
  obtain ⟨d, hd⟩ : ∃ d, d = disc (val s) (val t.C) t.L N := ⟨_, rfl⟩
  rw [← hd]
  by_cases hz : d = 0
  · rw [if_pos hz]
    refine tot_ok.mpr ⟨h.c0, h.csup, h.csz, Nat.le_succ_of_le h.le, ?_, ?_, h.b, by dsimp only; omega, LB, b1, b2, by dsimp only; omega, ?_⟩
    · intro n n1 n2
      by_cases hn : n = N
      · rw [hn]
        exact hd.symm.trans hz
      · exact h.gen n n1 (by omega)
    · intro L' c' h0 hg
      exact h.min L' c' h0 fun n n1 n2 => hg n n1 (by omega)
    · rcases b4 with b4 | ⟨b4, b5⟩
      · exact Or.inl b4
      · refine Or.inr ⟨fun n n1 n2 => b4 n n1 (by dsimp only at n2; omega), ?_⟩
        dsimp only
        rw [show N + 1 - (t.x + 1) = N - t.x by omega]
        exact b5
  · rw [if_neg hz]
    have hbne := h.b
    unfold quot
    rw [decide_eq_true hbne, check_true, ok_bind, pure_eq, ok_bind]
    have hgs := grow_size t.C (t.B.size + t.x)
    have hgv := grow_val t.C (t.B.size + t.x)
    obtain ⟨G, hG⟩ : ∃ G, G = grow t.C (t.B.size + t.x) := ⟨_, rfl⟩
    rw [← hG] at hgs hgv ⊢
    dsimp only
    refine (subtract_tot (c := d / t.b) (x := t.x) (B := t.B) (C := G) (by omega)).bind ?_
    rintro C' ⟨s1, s2⟩
    have s3 : val C' = fun i => val t.C i - if t.x ≤ i then d / t.b * val t.B (i - t.x) else 0 := by
      funext i
      rw [s2, hgv]
    have hx := h.x
    have c0' : val C' 0 = 1 := by
      rw [s2, if_neg (by omega), sub_zero, hgv]
      exact h.c0
    have csup' : ∀ L', t.L ≤ L' → t.x + LB ≤ L' → ∀ i, L' < i → val C' i = 0 := by
      intro L' l1 l2 i hi
      rw [s2, hgv, h.csup i (by omega), b1 (i - t.x) (by omega)]
      simp
    have mass : ∀ L' c', c' 0 = 1 → (∀ n, L' ≤ n → n < N + 1 → disc (val s) c' L' n = 0) → t.L ≤ L' ∧ N + 1 ≤ t.L + L' := by
      intro L' c' h0 hg
      exact ⟨h.min L' c' h0 fun n n1 n2 => hg n n1 (by omega), massey h.gen (by rw [← hd]; exact hz) h0 hg⟩
    have gen' : ∀ L', t.L ≤ L' → t.x + LB ≤ L' → (t.L = 0 → L' = N + 1) → ∀ n, L' ≤ n → n < N + 1 → disc (val s) (val C') L' n = 0 := by
      intro L' l1 l2 l3 n n1 n2
      rcases b4 with b4 | ⟨b4, b5⟩
      · have := l3 b4
        omega
      · rw [s3, disc_sub (d / t.b) h.csup b1 l1 l2 n]
        by_cases hn : n = N
        · rw [hn, ← hd, b5]
          rw [div_mul_cancel₀ _ hbne, sub_self]
        · rw [h.gen n (by omega) (by omega), b4 (n - t.x) (by omega) (by omega)]
          simp
    split_ifs with hL
    · refine tot_ok.mpr ⟨c0', csup' t.L (Nat.le_refl _) (by omega), by dsimp only; have := h.csz; omega, Nat.le_succ_of_le h.le,
        gen' t.L (Nat.le_refl _) (by omega) (by omega), fun L' c' h0 hg => (mass L' c' h0 hg).1, hbne, by dsimp only; omega, LB, b1, b2, by dsimp only; omega, ?_⟩
      rcases b4 with b4 | ⟨b4, b5⟩
      · exact Or.inl b4
      · refine Or.inr ⟨fun n n1 n2 => b4 n n1 (by dsimp only at n2; omega), ?_⟩
        dsimp only
        rw [show N + 1 - (t.x + 1) = N - t.x by omega]
        exact b5
    · refine tot_ok.mpr ⟨c0', csup' (N + 1 - t.L) (by omega) (by omega), by dsimp only; omega, by dsimp only; omega, gen' (N + 1 - t.L) (by omega) (by omega) (by omega), ?_, hz, by dsimp only; omega, t.L, ?_, ?_, ?_, ?_⟩
      · intro L' c' h0 hg
        have := (mass L' c' h0 hg).2
        dsimp only
        omega
      · dsimp only
        rw [hgv]
        exact h.csup
      · dsimp only
        have := h.csz
        omega
      · dsimp only
        have := h.le
        omega
      · dsimp only
        rw [hgv]
        refine Or.inr ⟨fun n n1 n2 => h.gen n n1 (by omega), ?_⟩
        rw [Nat.add_sub_cancel]
        exact hd.symm

theorem negate_tot {L : Nat} {C : Array F} (h : C.size = L + 1) :
    Tot (negate L C) (fun r => r.size = L + 1 ∧ val r 0 = val C 0 ∧ ∀ i, 1 ≤ i → i ≤ L → val r i = - val C i) := by
  unfold negate
  refine (Tot.forUp (lo := 1) (hi := L + 1) (P := fun k (r : Array F) => r.size = L + 1 ∧ (∀ i, 1 ≤ i → i < k → val r i = - val C i) ∧ ∀ i, i = 0 ∨ k ≤ i → val r i = val C i) (by omega) ?_ ?_).mono ?_
  · exact ⟨h, fun i i1 i2 => by omega, fun i _ => rfl⟩
  · intro k r k1 k2 ⟨h1, h2, h3⟩
    have hk : k < r.size := by omega
    rw [rd_at 0 hk, ok_bind, wr_eq hk]
    refine tot_ok.mpr ⟨by simp [h1], fun i i1 i2 => ?_, fun i hi => ?_⟩
    · show at' 0 _ i = _
      rw [at_set 0 hk]
      split_ifs with e
      · subst e
        rw [show at' 0 r k = val r k from rfl, h3 k (Or.inr (Nat.le_refl _))]
      · exact h2 i i1 (by omega)
    · show at' 0 _ i = _
      rw [at_set 0 hk, if_neg (by omega)]
      exact h3 i (by omega)
  · rintro r ⟨h1, h2, h3⟩
    exact ⟨h1, h3 0 (Or.inl rfl), fun i i1 i2 => h2 i i1 (by omega)⟩

theorem find_tot (s : Array F) : Tot (find s) (fun r => ∃ L c, r.size = L + 1 ∧ val r 0 = 1 ∧ c 0 = (1 : F) ∧ (∀ i, 1 ≤ i → i ≤ L → val r i = - c i) ∧
    (∀ n, L ≤ n → n < s.size → disc (val s) c L n = 0) ∧
    ∀ L' c', c' 0 = 1 → (∀ n, L' ≤ n → n < s.size → disc (val s) c' L' n = 0) → L ≤ L') := by
  unfold find
  refine (Tot.forUp (lo := 0) (hi := s.size) (P := fun N (t : St F) => Inv (val s) N t) (by omega) ?_ ?_).bind ?_
  · refine ⟨rfl, ?_, by simp, Nat.le_refl _, fun n n1 n2 => by omega, fun L' c' _ _ => Nat.zero_le _, one_ne_zero, Nat.one_pos, 0, ?_, by simp, rfl, Or.inl rfl⟩
    · intro i hi
      exact at_ge 0 (by simp at hi ⊢; omega)
    · intro i hi
      exact at_ge 0 (by simp at hi ⊢; omega)
  · intro N t _ hN h
    exact step_tot hN h
  · intro t h
    refine (negate_tot (resize_size _ _)).mono ?_
    rintro r ⟨h1, h2, h3⟩
    refine ⟨t.L, val t.C, h1, ?_, h.c0, ?_, h.gen, h.min⟩
    · rw [h2, resize_val, if_pos (by omega)]
      exact h.c0
    · intro i i1 i2
      rw [h3 i i1 i2, resize_val, if_pos (by omega)]

end BerlekampMassey
