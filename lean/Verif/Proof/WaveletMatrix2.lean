import Verif.Proof.WaveletMatrix
import Mathlib.Data.List.Sort

/-! # Order statistics from counts, and the queries built from `kth` and `freq` -/

namespace WaveletMatrix
open Cxx BitVector

theorem sorted_kth (M : List Nat) {y k : Nat} (h1 : M.countP (fun u => decide (u < y)) ≤ k) (h2 : k < M.countP (fun u => decide (u ≤ y))) :
    (M.mergeSort (· ≤ ·))[k]? = some y := by
  obtain ⟨S, hS⟩ : ∃ S, S = M.mergeSort (· ≤ ·) := ⟨_, rfl⟩
  have hperm : S.Perm M := hS ▸ List.mergeSort_perm M _
  have hsort : S.Pairwise (· ≤ ·) := by
    have := List.pairwise_mergeSort (le := fun (a b : Nat) => decide (a ≤ b)) (fun a b c h1 h2 => by simp at *; omega) (fun a b => by simp; omega) M
    rw [← hS] at this
    simpa using this
  rw [← hS]
  rw [← hperm.countP_eq] at h1 h2
  have hk : k < S.length := Nat.lt_of_lt_of_le h2 List.countP_le_length
  rw [List.getElem?_eq_getElem hk]
  congr 1
  have hmono : ∀ i j (hi : i < S.length) (hj : j < S.length), i ≤ j → S[i] ≤ S[j] := by
    intro i j hi hj hij
    rcases Nat.lt_or_eq_of_le hij with hlt | rfl
    · exact List.pairwise_iff_getElem.1 hsort i j hi hj hlt
    · exact Nat.le_refl _
  rcases Nat.lt_trichotomy S[k] y with hlt | heq | hgt
  · exfalso
    have e := congrArg (List.countP fun u => decide (u < y)) (List.take_append_drop (k + 1) S)
    rw [List.countP_append] at e
    have : (S.take (k + 1)).countP (fun u => decide (u < y)) = (S.take (k + 1)).length := by
      rw [List.countP_eq_length]
      intro u hu
      obtain ⟨i, hi, rfl⟩ := List.mem_iff_getElem.1 hu
      rw [List.length_take] at hi
      rw [List.getElem_take, decide_eq_true_eq]
      have := hmono i k (by omega) hk (by omega)
      omega
    rw [List.length_take] at this
    omega
  · exact heq
  · exfalso
    have e := congrArg (List.countP fun u => decide (u ≤ y)) (List.take_append_drop k S)
    rw [List.countP_append] at e
    have h3 : (S.drop k).countP (fun u => decide (u ≤ y)) = 0 := by
      rw [List.countP_eq_zero]
      intro u hu
      obtain ⟨i, hi, rfl⟩ := List.mem_iff_getElem.1 hu
      rw [List.length_drop] at hi
      rw [List.getElem_drop, decide_eq_true_eq]
      have := hmono k (k + i) hk (by omega) (by omega)
      omega
    have h4 := List.countP_le_length (p := fun u => decide (u ≤ y)) (l := S.take k)
    rw [List.length_take] at h4
    omega

theorem countP_lt {L : List Nat} {p q : Nat → Bool} (hpq : ∀ u, p u = true → q u = true) {v : Nat} (hv : v ∈ L) (h1 : q v = true) (h2 : ¬ p v = true) : L.countP p < L.countP q := by
  induction L with
  | nil => simp at hv
  | cons u L ih =>
    rw [List.countP_cons, List.countP_cons]
    have hle : L.countP p ≤ L.countP q := List.countP_mono_left fun x _ => hpq x
    rcases List.mem_cons.1 hv with rfl | hv
    · rw [if_neg h2, if_pos h1]
      omega
    · have := ih hv
      by_cases hp : p u = true
      · rw [if_pos hp, if_pos (hpq u hp)]
        omega
      · rw [if_neg hp]
        omega

section
variable {w : Nat} {a : List Nat} {s : WM} (h : WBuilt w a s)
include h

theorem minGeq_tot {D l r x lower dflt : Nat} (hD : w < max D 32) (hx : x < 2 ^ w) (ha : ∀ v ∈ a, v < 2 ^ w) (hr : r ≤ a.length) :
    Tot (minGeq D w s l r x lower dflt) fun v => if ∃ u ∈ seg a l r, lower ≤ u ^^^ x then v ∈ seg a l r ∧ lower ≤ v ^^^ x ∧ ∀ u ∈ seg a l r, lower ≤ u ^^^ x → v ^^^ x ≤ u ^^^ x else v = dflt := by
  have hlen := seg_length (l := l) hr
  rw [minGeq, freq_tot h hD hx ha hr, ok_bind]
  by_cases hc : ((seg a l r).countP (fun v => decide (v ^^^ x < lower)) : Int) ≥ (r : Int) - l
  · rw [if_pos hc]
    refine Tot.pure ?_
    rw [if_neg]
    rintro ⟨u, hu, hu2⟩
    have h1 := countP_lt (p := fun v => decide (v ^^^ x < lower)) (q := fun _ => true) (fun _ _ => rfl) hu rfl (by simpa using hu2)
    have h2 := List.countP_le_length (p := fun _ => true) (l := seg a l r)
    omega
  · rw [if_neg hc]
    refine (kth_tot h hD hx ha hr (by omega) (by omega)).mono ?_
    rintro v ⟨h1, h2, h3⟩
    have hge : lower ≤ v ^^^ x := by
      by_contra hlt
      have : (seg a l r).countP (fun u => decide (u ^^^ x ≤ v ^^^ x)) ≤ (seg a l r).countP (fun u => decide (u ^^^ x < lower)) := by
        refine List.countP_mono_left fun u _ => ?_
        simp only [decide_eq_true_eq]
        omega
      omega
    rw [if_pos ⟨v, h1, hge⟩]
    refine ⟨h1, hge, fun u hu hu2 => ?_⟩
    by_contra hlt
    have := countP_lt (p := fun u => decide (u ^^^ x < lower)) (q := fun u => decide (u ^^^ x < v ^^^ x)) (fun z hz => by simp only [decide_eq_true_eq] at *; omega) hu (by simp only [decide_eq_true_eq]; omega) (by simp only [decide_eq_true_eq]; omega)
    omega

theorem maxLt_tot {D l r x upper dflt : Nat} (hD : w < max D 32) (hx : x < 2 ^ w) (ha : ∀ v ∈ a, v < 2 ^ w) (hr : r ≤ a.length) :
    Tot (maxLt D w s l r x upper dflt) fun v => if ∃ u ∈ seg a l r, u ^^^ x < upper then v ∈ seg a l r ∧ v ^^^ x < upper ∧ ∀ u ∈ seg a l r, u ^^^ x < upper → u ^^^ x ≤ v ^^^ x else v = dflt := by
  have hlen := seg_length (l := l) hr
  have hcl := List.countP_le_length (p := fun v => decide (v ^^^ x < upper)) (l := seg a l r)
  rw [maxLt, freq_tot h hD hx ha hr, ok_bind]
  by_cases hc : ((seg a l r).countP (fun v => decide (v ^^^ x < upper)) : Int) = 0
  · rw [if_pos hc]
    refine Tot.pure ?_
    rw [if_neg]
    rintro ⟨u, hu, hu2⟩
    have h1 := countP_lt (p := fun _ => false) (q := fun v => decide (v ^^^ x < upper)) (fun _ h => by simp at h) hu (by simpa using hu2) (by decide)
    omega
  · rw [if_neg hc]
    refine (kth_tot h hD hx ha hr (by omega) (by omega)).mono ?_
    rintro v ⟨h1, h2, h3⟩
    have hge : v ^^^ x < upper := by
      by_contra hlt
      have : (seg a l r).countP (fun u => decide (u ^^^ x < upper)) ≤ (seg a l r).countP (fun u => decide (u ^^^ x < v ^^^ x)) := by
        refine List.countP_mono_left fun u _ => ?_
        simp only [decide_eq_true_eq]
        omega
      omega
    rw [if_pos ⟨v, h1, hge⟩]
    refine ⟨h1, hge, fun u hu hu2 => ?_⟩
    by_contra hlt
    have := countP_lt (p := fun u => decide (u ^^^ x ≤ v ^^^ x)) (q := fun u => decide (u ^^^ x < upper)) (fun z hz => by simp only [decide_eq_true_eq] at *; omega) hu (by simp only [decide_eq_true_eq]; omega) (by simp only [decide_eq_true_eq]; omega)
    omega

theorem kth_sorted {D l r x dflt : Nat} {k : Nat} (hD : w < max D 32) (hx : x < 2 ^ w) (ha : ∀ v ∈ a, v < 2 ^ w) (hr : r ≤ a.length) (hk2 : k < r - l) :
    Tot (kth D w s l r k x dflt) fun v => v ∈ seg a l r ∧ (((seg a l r).map (· ^^^ x)).mergeSort (· ≤ ·))[k]? = some (v ^^^ x) := by
  refine (kth_tot h hD hx ha hr (by omega) (by omega)).mono ?_
  rintro v ⟨h1, h2, h3⟩
  refine ⟨h1, sorted_kth _ ?_ ?_⟩
  · rw [List.countP_map]
    show (seg a l r).countP (fun u => decide (u ^^^ x < v ^^^ x)) ≤ k
    omega
  · rw [List.countP_map]
    show k < (seg a l r).countP (fun u => decide (u ^^^ x ≤ v ^^^ x))
    omega

end

theorem kth_default {D w : Nat} {s : WM} {l r x dflt : Nat} {k : Int} (hk : k < 0 ∨ (r : Int) - l ≤ k) : kth D w s l r k x dflt = .ok dflt := by
  rw [kth, if_pos (by omega)]
  rfl

end WaveletMatrix
