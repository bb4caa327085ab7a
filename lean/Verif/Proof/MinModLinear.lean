import Verif.Model.MinModLinear
import Mathlib.Tactic.Ring
import Mathlib.Tactic.Linarith

/-! # Proofs about `min_of_mod_of_linear` -/

namespace MinModLinear
open Cxx

/-- Some value of the sequence is at most `k`. -/
def Low (n : Nat) (m a b k : Int) : Prop := ∃ i : Nat, i < n ∧ (a * i + b) % m ≤ k

theorem term {m y k : Int} (hm : 0 < m) (hk0 : 0 ≤ k) (hk : k < m) :
    (y + (m - 1 - k)) / m = y / m + if y % m ≤ k then 0 else 1 := by
  have e := Int.emod_add_mul_ediv y m
  have h0 := Int.emod_nonneg y (by omega : m ≠ 0)
  have h1 := Int.emod_lt_of_pos y hm
  split_ifs with h
  · rw [Int.add_zero, Int.ediv_eq_iff_of_pos hm]
    have : y / m * m = m * (y / m) := by ring
    constructor <;> nlinarith
  · rw [Int.ediv_eq_iff_of_pos hm]
    have : (y / m + 1) * m = m * (y / m) + m := by ring
    constructor <;> nlinarith

theorem fsum_le {m a b k : Int} (hm : 0 < m) (hk0 : 0 ≤ k) (hk : k < m) (n : Nat) :
    fsum m a (b + (m - 1 - k)) n ≤ fsum m a b n + n := by
  induction n with
  | zero => simp [fsum]
  | succ n ih =>
    unfold fsum
    have := term (y := a * n + b) hm hk0 hk
    rw [show a * (n : Int) + (b + (m - 1 - k)) = a * n + b + (m - 1 - k) by ring, this]
    push_cast
    split_ifs <;> omega

theorem fsum_lt {m a b k : Int} (hm : 0 < m) (hk0 : 0 ≤ k) (hk : k < m) (n : Nat) :
    fsum m a (b + (m - 1 - k)) n < fsum m a b n + n ↔ Low n m a b k := by
  induction n with
  | zero =>
    simp only [fsum]
    constructor
    · intro h; simp at h
    · rintro ⟨i, hi, -⟩; omega
  | succ n ih =>
    have hl := fsum_le (a := a) (b := b) hm hk0 hk n
    unfold fsum
    have := term (y := a * n + b) hm hk0 hk
    rw [show a * (n : Int) + (b + (m - 1 - k)) = a * n + b + (m - 1 - k) by ring, this]
    have e : Low (n + 1) m a b k ↔ Low n m a b k ∨ (a * n + b) % m ≤ k := by
      constructor
      · rintro ⟨i, hi, h⟩
        rcases Nat.lt_succ_iff_lt_or_eq.mp hi with hi | rfl
        · exact .inl ⟨i, hi, h⟩
        · exact .inr h
      · rintro (⟨i, hi, h⟩ | h)
        · exact ⟨i, by omega, h⟩
        · exact ⟨n, by omega, h⟩
    rw [e, ← ih]
    push_cast
    split_ifs with h
    · exact ⟨fun _ => .inr h, fun _ => by omega⟩
    · simp only [h, or_false]
      omega

theorem fsum_bound {m a b B : Int} (hm : 0 < m) (ha : -m ≤ a ∧ a ≤ m) (hb : -B ≤ b ∧ b ≤ B) (n : Nat) :
    -(n * (n + B)) ≤ fsum m a b n ∧ fsum m a b n ≤ n * (n + B) := by
  induction n with
  | zero => simp [fsum]
  | succ n ih =>
    unfold fsum
    have hB : 0 ≤ B := by omega
    have h1 : (a * n + b) / m ≤ n + B := by
      have : a * n + b ≤ m * (n + B) := by
        have h1 : a * n ≤ m * n := mul_le_mul_of_nonneg_right ha.2 (by omega)
        have h2 : B ≤ m * B := le_mul_of_one_le_left hB (by omega)
        rw [mul_add]; omega
      calc (a * n + b) / m ≤ (m * (n + B)) / m := Int.ediv_le_ediv hm this
        _ = n + B := Int.mul_ediv_cancel_left _ (by omega)
    have h2 : -(n + B) ≤ (a * n + b) / m := by
      have : m * (-(n + B)) ≤ a * n + b := by
        have h1 : (-m) * n ≤ a * n := mul_le_mul_of_nonneg_right ha.1 (by omega)
        have h2 : B ≤ m * B := le_mul_of_one_le_left hB (by omega)
        have e : m * (-((n : Int) + B)) = (-m) * n - m * B := by ring
        rw [e]; omega
      calc -(n + B) = (m * (-(n + B))) / m := (Int.mul_ediv_cancel_left _ (by omega)).symm
        _ ≤ _ := Int.ediv_le_ediv hm this
    push_cast
    constructor <;> nlinarith

theorem floorSum_eq {n m a b : Int} (hn : 0 ≤ n ∧ n < 2 ^ 31) (hm : 1 ≤ m ∧ m < 2 ^ 31) (ha : -m ≤ a ∧ a ≤ m) (hb : -2 ^ 31 ≤ b ∧ b ≤ 2 ^ 31) :
    floorSum n m a b = .ok (fsum m a b n.toNat) ∧ -2 ^ 63 + 2 ^ 32 ≤ fsum m a b n.toNat ∧ fsum m a b n.toNat ≤ 2 ^ 63 - 2 ^ 32 := by
  have h := fsum_bound (by omega : 0 < m) ha hb n.toNat
  have e : ((n.toNat : Nat) : Int) = n := by omega
  rw [e] at h
  have hq : n * (n + 2 ^ 31) ≤ (2 ^ 31 - 1) * (2 ^ 31 - 1 + 2 ^ 31) := by
    apply mul_le_mul <;> omega
  have hlo : -2 ^ 63 + 2 ^ 32 ≤ fsum m a b n.toNat := by omega
  have hhi : fsum m a b n.toNat ≤ 2 ^ 63 - 2 ^ 32 := by omega
  refine ⟨?_, hlo, hhi⟩
  unfold floorSum
  rw [if_pos (by omega)]
  unfold wrap64
  congr 1
  omega

theorem step_tot {n m a b : Int} (hn : 0 ≤ n ∧ n < 2 ^ 31) (hm : 1 ≤ m ∧ m < 2 ^ 31) (ha : -m ≤ a ∧ a ≤ m) (hb : 0 ≤ b ∧ b + m ≤ 2 ^ 31)
    {s : Int × Int} (h0 : -1 ≤ s.1) (h1 : s.1 < s.2) (h2 : s.2 ≤ m - 1) (hl : ¬ (0 ≤ s.1 ∧ Low n.toNat m a b s.1)) (hr : Low n.toNat m a b s.2) :
    Tot (step n m a b (fsum m a b n.toNat + n) s) fun o => match o with
      | none => s.2 = s.1 + 1
      | some s' => -1 ≤ s'.1 ∧ s'.1 < s'.2 ∧ s'.2 ≤ m - 1 ∧ ¬ (0 ≤ s'.1 ∧ Low n.toNat m a b s'.1) ∧ Low n.toNat m a b s'.2 ∧ s'.2 - s'.1 < s.2 - s.1 := by
  have hlb : s.1 ≤ b := by
    by_contra hc
    refine hl ⟨by omega, 0, ?_, ?_⟩
    · obtain ⟨i, hi, -⟩ := hr
      omega
    · rw [show a * ((0 : Nat) : Int) + b = b by simp]
      have h3 := Int.emod_add_mul_ediv b m
      have h4 := Int.ediv_nonneg hb.1 (by omega : 0 ≤ m)
      have h5 : 0 ≤ m * (b / m) := mul_nonneg (by omega) h4
      omega
  unfold step
  rw [i32_ok ⟨by omega, by omega⟩, ok_bind]
  by_cases hd : s.2 - s.1 > 1
  · rw [if_pos hd, i32_ok ⟨by omega, by omega⟩, ok_bind]
    obtain ⟨k, hk⟩ : ∃ k, k = (s.1 + s.2) / 2 := ⟨_, rfl⟩
    dsimp only
    rw [← hk, i32_ok ⟨by omega, by omega⟩, ok_bind, i32_ok ⟨by omega, by omega⟩, ok_bind,
      (floorSum_eq hn hm ha ⟨by omega, by omega⟩).1, ok_bind]
    have hlt := fsum_lt (a := a) (b := b) (by omega : 0 < m) (by omega : 0 ≤ k) (by omega : k < m) n.toNat
    rw [show ((n.toNat : Nat) : Int) = n by omega] at hlt
    by_cases hw : fsum m a (b + (m - 1 - k)) n.toNat < fsum m a b n.toNat + n
    · rw [if_pos hw]
      refine Tot.pure ⟨h0, ?_, ?_, hl, hlt.mp hw, ?_⟩ <;> dsimp only <;> omega
    · rw [if_neg hw]
      refine Tot.pure ⟨?_, ?_, h2, ?_, hr, ?_⟩
      · dsimp only; omega
      · dsimp only; omega
      · rintro ⟨-, hc⟩
        exact hw (hlt.mpr hc)
      · dsimp only; omega
  · rw [if_neg hd]
    refine Tot.pure ?_
    show s.2 = s.1 + 1
    omega

theorem minMod_tot {n m a b : Int} (hn : 1 ≤ n ∧ n < 2 ^ 31) (hm : 1 ≤ m ∧ m < 2 ^ 31) (ha : -m ≤ a ∧ a ≤ m) (hb : 0 ≤ b ∧ b + m ≤ 2 ^ 31) :
    Tot (minMod n m a b) fun r => 0 ≤ r ∧ r < m ∧ Low n.toNat m a b r ∧ ¬ (0 ≤ r - 1 ∧ Low n.toNat m a b (r - 1)) := by
  unfold minMod
  have hf := floorSum_eq (b := b) (n := n) ⟨by omega, hn.2⟩ hm ha ⟨by omega, by omega⟩
  rw [hf.1, ok_bind, i64_ok ⟨by omega, by omega⟩, ok_bind, i32_ok ⟨by omega, by omega⟩, ok_bind]
  refine Tot.bind (Tot.loop (P := fun s : Int × Int => -1 ≤ s.1 ∧ s.1 < s.2 ∧ s.2 ≤ m - 1 ∧ ¬ (0 ≤ s.1 ∧ Low n.toNat m a b s.1) ∧ Low n.toNat m a b s.2)
    (Q := fun s : Int × Int => (-1 ≤ s.1 ∧ s.1 < s.2 ∧ s.2 ≤ m - 1 ∧ ¬ (0 ≤ s.1 ∧ Low n.toNat m a b s.1) ∧ Low n.toNat m a b s.2) ∧ s.2 = s.1 + 1)
    (fun s => (s.2 - s.1).toNat) ?_ ?_ ?_) fun s hs => ?_
  · intro s hs
    refine (step_tot ⟨by omega, hn.2⟩ hm ha hb hs.1 hs.2.1 hs.2.2.1 hs.2.2.2.1 hs.2.2.2.2).mono fun o ho => ?_
    cases o with
    | none => exact ⟨hs, ho⟩
    | some s' =>
      have ho : _ ∧ _ := ho
      exact ⟨⟨ho.1, ho.2.1, ho.2.2.1, ho.2.2.2.1, ho.2.2.2.2.1⟩, by have := ho.2.1; have := ho.2.2.2.2.2; omega⟩
  · refine ⟨le_refl (-1 : Int), by show (-1 : Int) < m - 1; omega, le_refl _, by rintro ⟨h, -⟩; exact absurd h (by show ¬ (0 : Int) ≤ -1; decide), 0, by omega, ?_⟩
    have := Int.emod_lt_of_pos (a * (0 : Nat) + b) (by omega : 0 < m)
    show _ ≤ m - 1
    omega
  · show (m - 1 - -1).toNat ≤ _
    omega
  · obtain ⟨⟨h0, h1, h2, h3, h4⟩, h5⟩ := hs
    refine Tot.pure ⟨by omega, by omega, h4, ?_⟩
    rw [show s.2 - 1 = s.1 by omega]
    exact h3

end MinModLinear
