import Verif.Model.BitVector
import Verif.Proof.Gauss
import Mathlib.Tactic.Linarith
import Mathlib.Data.Nat.Bitwise

/-! # Proofs for `BitVector` -/

namespace BitVector
open Cxx

/-- Number of `true` values before position `i`. -/
def ones (g : Nat → Bool) (i : Nat) : Nat := ((List.range i).map g).count true

theorem ones_zero (g : Nat → Bool) : ones g 0 = 0 := rfl

theorem ones_succ (g : Nat → Bool) (i : Nat) : ones g (i + 1) = ones g i + (g i).toNat := by
  rw [ones, ones, List.range_succ, List.map_append, List.count_append]
  cases h : g i <;> simp [h]

theorem ones_add (g : Nat → Bool) (a r : Nat) : ones g (a + r) = ones g a + ones (fun j => g (a + j)) r := by
  induction r with
  | zero => rfl
  | succ r ih => rw [← Nat.add_assoc, ones_succ, ones_succ, ih, Nat.add_assoc]

theorem ones_le (g : Nat → Bool) (r : Nat) : ones g r ≤ r := by
  induction r with
  | zero => exact Nat.le_refl 0
  | succ r ih =>
    rw [ones_succ]
    have := Bool.toNat_le (g r)
    omega

theorem ones_congr {g h : Nat → Bool} {r : Nat} (e : ∀ j, j < r → g j = h j) : ones g r = ones h r := by
  induction r with
  | zero => rfl
  | succ r ih => rw [ones_succ, ones_succ, ih (fun j hj => e j (by omega)), e r (by omega)]

theorem ones_mono (g : Nat → Bool) {a b : Nat} (h : a ≤ b) : ones g a ≤ ones g b := by
  obtain ⟨r, rfl⟩ := Nat.exists_eq_add_of_le h
  rw [ones_add]
  omega

theorem popcount8_spec : ∀ z : Fin 256, ∀ r : Fin 8, popcount8 (z.1 &&& (2 ^ r.1 - 1)) = ones (fun j => z.1.testBit j) r.1 := by decide +kernel

/-- The bits of the positions below `m` are stored. -/
def BInv (g : Nat → Bool) (ns m : Nat) (bits : Array Nat) : Prop :=
  bits.size = ns ∧ ∀ t, t < ns → ∀ j, (at' 0 bits t).testBit j = (decide (j < 8 ∧ 8 * t + j < m) && g (8 * t + j))

theorem setBit_tot {g : Nat → Bool} {ns m : Nat} {bits : Array Nat} (h : BInv g ns m bits) (hm : m / 8 < ns) :
    Tot (setBit bits (m / 8) m (g m)) (BInv g ns (m + 1)) := by
  obtain ⟨h1, h2⟩ := h
  rw [setBit, rd_at 0 (by omega), ok_bind, wr_eq (by omega)]
  refine Tot.pure ⟨by rw [Array.size_setIfInBounds]; exact h1, fun t ht j => ?_⟩
  rw [Graph.at_set' 0 (by omega)]
  by_cases hk : t = m / 8
  · subst hk
    rw [if_pos rfl, show (256 : Nat) = 2 ^ 8 from rfl, Nat.testBit_mod_two_pow, Nat.testBit_or, h2 _ ht, Nat.testBit_shiftLeft]
    by_cases hj : j < 8
    · by_cases hj2 : j = m % 8
      · have e : 8 * (m / 8) + j = m := by omega
        rw [e, hj2]
        have e2 : 8 * (m / 8) + m % 8 = m := by omega
        cases g m <;> simp [e2] <;> omega
      · have hb : ((g m).toNat.testBit (j - m % 8) && decide (j ≥ m % 8)) = false := by
          by_cases hge : j ≥ m % 8
          · obtain ⟨d, hd⟩ : ∃ d, j - m % 8 = d + 1 := ⟨j - m % 8 - 1, by omega⟩
            rw [hd]
            cases g m <;> simp [Nat.testBit_succ]
          · simp; omega
        rw [Bool.and_comm] at hb
        rw [hb, Bool.or_false]
        have : (j < 8 ∧ 8 * (m / 8) + j < m) ↔ (j < 8 ∧ 8 * (m / 8) + j < m + 1) := by omega
        simp only [this]
        simp [hj]
    · simp [hj]
  · rw [if_neg hk, h2 t ht]
    by_cases hj : j < 8
    · have : (j < 8 ∧ 8 * t + j < m) ↔ (j < 8 ∧ 8 * t + j < m + 1) := by omega
      simp only [this]
    · simp [hj]

/-- State after the blocks before `k`. -/
structure Inv (g : Nat → Bool) (n k : Nat) (v : BV) : Prop where
  hn : v.n = n
  nl : v.nl = n / 256 + 1
  ns : v.ns = n / 8 + 1
  sl : v.cumL.size = n / 256 + 1
  ss : v.cumS.size = n / 8 + 1
  bits : BInv g (n / 8 + 1) (8 * (k - 1)) v.bits
  cs : ∀ t, t < k → at' 0 v.cumS t + ones g (256 * (t / 32)) = ones g (8 * t)
  c0 : ∀ t, k ≤ t → at' 0 v.cumS t = 0
  cl : ∀ u, 32 * u < k → at' 0 v.cumL u = ones g (256 * u)

theorem blockStep_tot {g : Nat → Bool} {gen : Nat → M Bool} {n k : Nat} {v : BV} (hg : ∀ i, i < n → gen i = .ok (g i)) (h : Inv g n k v) (hk : 1 ≤ k) (hk2 : k < n / 8 + 1) :
    Tot (blockStep gen k v) (Inv g n (k + 1)) := by
  have hss := h.ss
  have hsl := h.sl
  rw [blockStep, rd_at 0 (by omega), ok_bind]
  refine Tot.bind (P := fun (s : Nat × Array Nat) => s.1 + ones g (256 * ((k - 1) / 32)) = ones g (8 * k) ∧ BInv g (n / 8 + 1) (8 * k) s.2) ?_ ?_
  · refine Tot.forUp (P := fun i (s : Nat × Array Nat) => s.1 + ones g (256 * ((k - 1) / 32)) = ones g i ∧ BInv g (n / 8 + 1) i s.2) (by omega) ⟨h.cs (k - 1) (by omega), h.bits⟩ ?_
    rintro i ⟨c, bits⟩ hi1 hi2 ⟨h1, h2⟩
    dsimp only at h1 h2
    rw [bitStep, hg i (by omega), ok_bind]
    have : i / 8 = k - 1 := by omega
    rw [← this]
    refine Tot.bind (setBit_tot h2 (by omega)) ?_
    intro bits' hb
    refine Tot.pure ⟨?_, hb⟩
    rw [ones_succ]
    dsimp only
    rw [this]
    omega
  · rintro ⟨c, bits⟩ ⟨h1, h2⟩
    dsimp only at h1 h2
    rw [store]
    by_cases h32 : k % 32 ≠ 0
    · rw [if_pos h32]
      have e : (k - 1) / 32 = k / 32 := by omega
      rw [e] at h1
      have hc : c < 256 := by
        obtain ⟨r, hr⟩ : ∃ r, 8 * k = 256 * (k / 32) + r := ⟨8 * k - 256 * (k / 32), by omega⟩
        have := ones_le (fun j => g (256 * (k / 32) + j)) r
        rw [hr, ones_add] at h1
        omega
      dsimp only
      rw [wr_eq (by omega), ok_bind, Nat.mod_eq_of_lt hc]
      refine Tot.pure ⟨h.hn, h.nl, h.ns, hsl, by rw [Array.size_setIfInBounds]; exact hss, h2, fun t ht => ?_, fun t ht => ?_, fun u hu => ?_⟩
      · dsimp only
        rw [Graph.at_set' 0 (by omega)]
        by_cases htk : t = k
        · subst htk
          rw [if_pos rfl]
          exact h1
        · rw [if_neg htk]
          exact h.cs t (by omega)
      · dsimp only
        rw [Graph.at_set' 0 (by omega), if_neg (by omega)]
        exact h.c0 t (by omega)
      · exact h.cl u (by omega)
    · rw [if_neg h32]
      dsimp only
      have e1 : 8 * k / 256 = k / 32 := by omega
      have e2 : (k - 1) / 32 = k / 32 - 1 := by omega
      rw [e1, rd_at 0 (by omega), ok_bind, wr_eq (by omega), ok_bind]
      have hl := h.cl (k / 32 - 1) (by omega)
      rw [e2] at h1
      refine Tot.pure ⟨h.hn, h.nl, h.ns, by rw [Array.size_setIfInBounds]; exact hsl, hss, h2, fun t ht => ?_, fun t ht => h.c0 t (by omega), fun u hu => ?_⟩
      · by_cases htk : t = k
        · subst htk
          rw [h.c0 t (by omega), show 256 * (t / 32) = 8 * t by omega, Nat.zero_add]
        · exact h.cs t (by omega)
      · dsimp only
        rw [Graph.at_set' 0 (by omega)]
        by_cases hu2 : u = k / 32
        · rw [if_pos hu2, hl, Nat.add_comm, h1]
          congr 1
          omega
        · rw [if_neg hu2]
          exact h.cl u (by omega)

/-- The finished bit vector. -/
structure Built (g : Nat → Bool) (n : Nat) (v : BV) : Prop where
  hn : v.n = n
  sl : v.cumL.size = n / 256 + 1
  ss : v.cumS.size = n / 8 + 1
  bits : BInv g (n / 8 + 1) n v.bits
  cs : ∀ t, t < n / 8 + 1 → at' 0 v.cumS t + ones g (256 * (t / 32)) = ones g (8 * t)
  cl : ∀ u, u < n / 256 + 1 → at' 0 v.cumL u = ones g (256 * u)

theorem at_replicate (n t : Nat) : at' 0 (Array.replicate n (0 : Nat)) t = 0 := by
  rw [at', Array.getElem?_replicate]
  split <;> rfl

theorem make_tot {g : Nat → Bool} {gen : Nat → M Bool} {n : Nat} (hg : ∀ i, i < n → gen i = .ok (g i)) : Tot (make n gen) (Built g n) := by
  rw [make, build]
  refine Tot.bind (P := Inv g n (n / 8 + 1)) ?_ ?_
  · refine Tot.forUp (P := Inv g n) (by show 1 ≤ n / 8 + 1; omega) ?_ (fun k v h1 h2 h => blockStep_tot hg h h1 h2)
    refine ⟨rfl, rfl, rfl, Array.size_replicate, Array.size_replicate, ⟨Array.size_replicate, fun t ht j => ?_⟩, fun t ht => ?_, fun t ht => at_replicate _ _, fun u hu => ?_⟩
    · show (at' 0 (Array.replicate _ 0) t).testBit j = _
      rw [at_replicate, Nat.zero_testBit]
      simp
    · have : t = 0 := by omega
      subst this
      show at' 0 (Array.replicate _ 0) 0 + _ = _
      rw [at_replicate, Nat.zero_add]
    · have : u = 0 := by omega
      subst this
      show at' 0 (Array.replicate _ 0) 0 = _
      rw [at_replicate]
      rfl
  · intro v h
    have hns := h.ns
    rw [hns, h.hn]
    refine Tot.bind (P := BInv g (n / 8 + 1) n) ?_ ?_
    · refine Tot.forUp (P := fun i bits => BInv g (n / 8 + 1) i bits) (by omega) h.bits ?_
      intro i bits h1 h2 hb
      rw [lastStep, hg i h2, ok_bind, show n / 8 + 1 - 1 = i / 8 by omega]
      exact setBit_tot hb (by omega)
    · intro bits hb
      exact Tot.pure ⟨rfl, h.sl, h.ss, hb, h.cs, fun u hu => h.cl u (by omega)⟩

theorem get_eq {g : Nat → Bool} {n : Nat} {v : BV} (h : Built g n v) {i : Nat} (hi : i < n) : get v i = .ok (g i) := by
  obtain ⟨h1, h2⟩ := h.bits
  rw [get, rd_at 0 (by omega), ok_bind, pure_eq]
  have := h2 (i / 8) (by omega) (i % 8)
  rw [Nat.testBit_eq_decide_div_mod_eq] at this
  rw [Nat.shiftRight_eq_div_pow]
  have e : 8 * (i / 8) + i % 8 = i := by omega
  rw [e, show decide (i % 8 < 8 ∧ i < n) = true by simp; omega, Bool.true_and] at this
  rw [← this]
  rfl

theorem rank_eq {g : Nat → Bool} {n : Nat} {v : BV} (h : Built g n v) {i : Nat} (hi : i ≤ n) (val : Bool) :
    rank v val i = .ok (if val then (ones g i : Int) else (i : Int) - ones g i) := by
  obtain ⟨h1, h2⟩ := h.bits
  have hsl := h.sl
  have hss := h.ss
  rw [rank, rd_at 0 (by omega), ok_bind, rd_at 0 (by omega), ok_bind, rd_at 0 (by omega), ok_bind, pure_eq]
  have hz : at' 0 v.bits (i / 8) < 256 := by
    refine Nat.lt_pow_two_of_testBit (n := 8) _ fun j hj => ?_
    rw [h2 _ (by omega)]
    simp
    omega
  have hp := popcount8_spec ⟨_, hz⟩ ⟨i % 8, by omega⟩
  dsimp only at hp
  have hc := h.cs (i / 8) (by omega)
  have hl := h.cl (i / 256) (by omega)
  have e : ones (fun j => (at' 0 v.bits (i / 8)).testBit j) (i % 8) = ones (fun j => g (8 * (i / 8) + j)) (i % 8) := by
    refine ones_congr fun j hj => ?_
    rw [h2 _ (by omega), show decide (j < 8 ∧ 8 * (i / 8) + j < n) = true by simp; omega, Bool.true_and]
  have ha := ones_add g (8 * (i / 8)) (i % 8)
  rw [show 8 * (i / 8) + i % 8 = i by omega] at ha
  rw [show i / 8 / 32 = i / 256 by omega] at hc
  have : at' 0 v.cumL (i / 256) + at' 0 v.cumS (i / 8) + popcount8 (at' 0 v.bits (i / 8) &&& (2 ^ (i % 8) - 1)) = ones g i := by
    rw [hp, e, hl]
    omega
  rw [this]

/-- Number of positions before `i` with value `val`. -/
def cnt (g : Nat → Bool) (val : Bool) (i : Nat) : Nat := ((List.range i).map g).count val

theorem cnt_false (g : Nat → Bool) (i : Nat) : cnt g false i + ones g i = i := by
  induction i with
  | zero => rfl
  | succ i ih =>
    rw [ones_succ]
    have : cnt g false (i + 1) = cnt g false i + (!g i).toNat := by
      rw [cnt, cnt, List.range_succ, List.map_append, List.count_append]
      cases h : g i <;> simp [h]
    rw [this]
    cases g i <;> simp <;> omega

theorem rank_cnt {g : Nat → Bool} {n : Nat} {v : BV} (h : Built g n v) {i : Nat} (hi : i ≤ n) (val : Bool) : rank v val i = .ok (cnt g val i : Int) := by
  rw [rank_eq h hi]
  cases val
  · have := cnt_false g i
    rw [if_neg (by decide)]
    congr 1
    omega
  · rfl

theorem cnt_mono (g : Nat → Bool) (val : Bool) {a b : Nat} (h : a ≤ b) : cnt g val a ≤ cnt g val b := by
  obtain ⟨r, rfl⟩ := Nat.exists_eq_add_of_le h
  rw [cnt, cnt, List.range_add, List.map_append, List.count_append]
  omega

theorem rankRange_cnt {g : Nat → Bool} {n : Nat} {v : BV} (h : Built g n v) {l r : Nat} (hl : l ≤ n) (hr : r ≤ n) (val : Bool) :
    rankRange v val l r = .ok ((cnt g val r : Int) - cnt g val l) := by
  rw [rankRange, rank_cnt h hr, ok_bind, rank_cnt h hl, ok_bind]
  rfl

theorem select_tot {g : Nat → Bool} {n : Nat} {v : BV} (h : Built g n v) (val : Bool) (num dflt : Int) :
    Tot (select v val num dflt) fun r => if num ≤ cnt g val n then ∃ i : Nat, r = i ∧ i ≤ n ∧ num ≤ cnt g val i ∧ ∀ j, j < i → (cnt g val j : Int) < num else r = dflt := by
  rw [select, h.hn]
  refine Tot.bind (P := fun (s : Int × Int) => -1 ≤ s.1 ∧ s.2 = s.1 + 1 ∧ s.2 ≤ n + 1 ∧ (0 ≤ s.1 → (cnt g val s.1.toNat : Int) < num) ∧ (s.2 ≤ n → num ≤ cnt g val s.2.toNat)) ?_ ?_
  · refine Tot.loop (P := fun (s : Int × Int) => -1 ≤ s.1 ∧ s.1 < s.2 ∧ s.2 ≤ n + 1 ∧ (0 ≤ s.1 → (cnt g val s.1.toNat : Int) < num) ∧ (s.2 ≤ n → num ≤ cnt g val s.2.toNat)) (fun s => (s.2 - s.1 - 1).toNat) ?_ ?_ ?_
    · rintro ⟨l, r⟩ ⟨h1, h2, h3, h4, h5⟩
      dsimp only at h1 h2 h3 h4 h5
      rw [selectStep]
      dsimp only
      by_cases hd : r - l > 1
      · rw [if_pos hd]
        have hm : l < (l + r) / 2 ∧ (l + r) / 2 < r := by omega
        generalize (l + r) / 2 = m at hm
        rw [if_neg (by omega), rank_cnt h (by omega), ok_bind]
        by_cases hc : (cnt g val m.toNat : Int) ≥ num
        · rw [if_pos hc]
          exact Tot.pure ⟨⟨h1, hm.1, by dsimp only; omega, h4, fun _ => hc⟩, by dsimp only; omega⟩
        · rw [if_neg hc]
          exact Tot.pure ⟨⟨by dsimp only; omega, hm.2, h3, fun _ => by dsimp only; omega, h5⟩, by dsimp only; omega⟩
      · rw [if_neg hd]
        exact Tot.pure ⟨h1, by omega, h3, h4, h5⟩
    · exact ⟨by omega, by dsimp only; omega, by dsimp only; omega, fun h => by dsimp only at h; omega, fun h => by dsimp only at h; omega⟩
    · dsimp only
      omega
  · rintro ⟨l, r⟩ ⟨h1, h2, h3, h4, h5⟩
    dsimp only at h1 h2 h3 h4 h5
    dsimp only
    by_cases hr : r = n + 1
    · rw [if_pos hr]
      have := h4 (by omega)
      have e : l.toNat = n := by omega
      rw [e] at this
      refine Tot.pure ?_
      rw [if_neg (by omega)]
    · rw [if_neg hr]
      have h6 := h5 (by omega)
      have := cnt_mono g val (show r.toNat ≤ n by omega)
      refine Tot.pure ?_
      rw [if_pos (by omega)]
      refine ⟨r.toNat, by omega, by omega, h6, fun j hj => ?_⟩
      have h7 := h4 (by omega)
      have := cnt_mono g val (show j ≤ l.toNat by omega)
      omega

end BitVector
