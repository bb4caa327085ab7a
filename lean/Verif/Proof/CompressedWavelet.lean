import Verif.Model.CompressedWavelet
import Verif.Proof.WaveletMatrix2
import Verif.Proof.Compressor

/-! # Proofs for `CompressedWaveletMatrix` -/

namespace CompressedWavelet
open Cxx WaveletMatrix

theorem sorted_kth {α : Type} [LinearOrder α] (M : List α) {y : α} {k : Nat} (h1 : M.countP (fun u => decide (u < y)) ≤ k) (h2 : k < M.countP (fun u => decide (u ≤ y))) :
    (M.mergeSort fun a b => decide (a ≤ b))[k]? = some y := by
  obtain ⟨S, hS⟩ : ∃ S, S = M.mergeSort fun a b => decide (a ≤ b) := ⟨_, rfl⟩
  have hperm : S.Perm M := hS ▸ List.mergeSort_perm M _
  have hsort : S.Pairwise (· ≤ ·) := by
    have := List.pairwise_mergeSort (le := fun (a b : α) => decide (a ≤ b)) (fun a b c h1 h2 => by
      simp only [decide_eq_true_eq] at *
      exact le_trans h1 h2) (fun a b => by
      simp only [Bool.or_eq_true, decide_eq_true_eq]
      exact le_total a b) M
    rw [← hS] at this
    simpa using this
  rw [← hS]
  rw [← hperm.countP_eq] at h1 h2
  have hk : k < S.length := Nat.lt_of_lt_of_le h2 List.countP_le_length
  rw [List.getElem?_eq_getElem hk]
  congr 1
  have hmono : ∀ i j (hi : i < S.length) (hj : j < S.length), i ≤ j → S[i] ≤ S[j] := by
    intro i j hi hj hij
    rcases Nat.lt_or_eq_of_le hij with hlt | rfl
    · exact List.pairwise_iff_getElem.1 hsort i j hi hj hlt
    · exact le_refl _
  rcases lt_trichotomy S[k] y with hlt | heq | hgt
  · exfalso
    have e := congrArg (List.countP fun u => decide (u < y)) (List.take_append_drop (k + 1) S)
    rw [List.countP_append] at e
    have : (S.take (k + 1)).countP (fun u => decide (u < y)) = (S.take (k + 1)).length := by
      rw [List.countP_eq_length]
      intro u hu
      obtain ⟨i, hi, rfl⟩ := List.mem_iff_getElem.1 hu
      rw [List.length_take] at hi
      rw [List.getElem_take, decide_eq_true_eq]
      exact lt_of_le_of_lt (hmono i k (by omega) hk (by omega)) hlt
    rw [List.length_take] at this
    omega
  · exact heq
  · exfalso
    have e := congrArg (List.countP fun u => decide (u ≤ y)) (List.take_append_drop k S)
    rw [List.countP_append] at e
    have h3 : (S.drop k).countP (fun u => decide (u ≤ y)) = 0 := by
      rw [List.countP_eq_zero]
      intro u hu
      obtain ⟨i, hi, rfl⟩ := List.mem_iff_getElem.1 hu
      rw [List.length_drop] at hi
      rw [List.getElem_drop, decide_eq_true_eq, not_le]
      exact lt_of_lt_of_le hgt (hmono k (k + i) hk (by omega) (by omega))
    have h4 := List.countP_le_length (p := fun u => decide (u ≤ y)) (l := S.take k)
    rw [List.length_take] at h4
    omega

/-- The code of a value: the number of smaller different values. -/
def code (a : List Int) (v : Int) : Nat := (a.toFinset.filter (· < v)).card

theorem code_lt_iff {a : List Int} {u v : Int} (hu : u ∈ a) : code a u < code a v ↔ u < v := by
  constructor
  · intro h
    by_contra hc
    have hsub : a.toFinset.filter (· < v) ⊆ a.toFinset.filter (· < u) := by
      intro x hx
      rw [Finset.mem_filter] at *
      exact ⟨hx.1, by omega⟩
    have := Finset.card_le_card hsub
    unfold code at h
    omega
  · intro h
    refine Finset.card_lt_card ⟨?_, ?_⟩
    · intro x hx
      rw [Finset.mem_filter] at *
      exact ⟨hx.1, by omega⟩
    · intro hc
      have := hc (Finset.mem_filter.2 ⟨List.mem_toFinset.2 hu, h⟩)
      rw [Finset.mem_filter] at this
      omega

theorem code_lt_card {a : List Int} {u : Int} (hu : u ∈ a) : code a u < a.toFinset.card := by
  refine Finset.card_lt_card ⟨Finset.filter_subset _ _, ?_⟩
  intro hc
  have := hc (List.mem_toFinset.2 hu)
  rw [Finset.mem_filter] at this
  omega

/-- The finished object. -/
structure CBuilt (w : Nat) (a : List Int) (s : CW) : Prop where
  sort : s.comp.toList.Pairwise (· < ·)
  mem : ∀ v, v ∈ s.comp.toList ↔ v ∈ a
  wm : WBuilt w (a.map (code a)) s.wm

section
variable {a : List Int} {ys : Array Int} (hs : ys.toList.Pairwise (· < ·)) (hm : ∀ v, v ∈ ys.toList ↔ v ∈ a)
include hs hm

theorem decomp_code {v : Int} (hv : v ∈ a) : Compressor.decomp ys (code a v) = .ok v := by
  have h := Compressor.comp_of_mem hs ((hm v).2 hv)
  rw [Compressor.lower_eq hs hm] at h
  exact rd_some h

theorem minGeqIndex_eq (e : Int) : Compressor.minGeqIndex ys e = (code a e : Int) := by
  rw [Compressor.minGeqIndex, Compressor.lower_eq hs hm]
  rfl

theorem comp_mem {v : Int} (hv : v ∈ a) : Compressor.comp ys v (-1) = .ok (code a v : Int) := by
  have h := Compressor.comp_of_mem hs ((hm v).2 hv)
  rw [Compressor.lower_eq hs hm] at h
  change ys[code a v]? = some v at h
  have hlt : code a v < ys.size := by
    have := code_lt_card hv
    rw [← Compressor.size_card hs hm] at this
    simpa using this
  rw [Compressor.comp, minGeqIndex_eq hs hm]
  rw [if_pos (by rw [Compressor.size]; omega), Int.toNat_natCast, rd_some h, ok_bind, if_pos rfl]
  rfl

theorem comp_absent {v : Int} (hv : v ∉ a) : Compressor.comp ys v (-1) = .ok (-1) := by
  rw [Compressor.comp, minGeqIndex_eq hs hm]
  have hle : code a v ≤ ys.size := by
    have h1 : code a v ≤ a.toFinset.card := Finset.card_filter_le _ _
    rw [← Compressor.size_card hs hm] at h1
    simpa using h1
  by_cases he : (code a v : Int) ≠ Compressor.size ys
  · rw [if_pos he, Int.toNat_natCast]
    have hlt : code a v < ys.size := by
      rw [Compressor.size] at he
      omega
    rw [rd_eq hlt, ok_bind, if_neg]
    · rfl
    · intro e
      have : ys[code a v] ∈ ys.toList := by simp
      rw [e, hm] at this
      exact hv this
  · rw [if_neg he]
    rfl

theorem codes_tot (L : List Int) (hL : ∀ v ∈ L, v ∈ a) : Tot (codes ys L) fun cs => cs.toList = L.map (code a) := by
  have key : ∀ (L : List Int) (cs : Array Nat), (∀ v ∈ L, v ∈ a) → Tot (forEach L cs fun cs v => do
      let c ← Compressor.comp ys v (-1)
      let c ← idx c
      return cs.push c) fun cs' => cs'.toList = cs.toList ++ L.map (code a) := by
    intro L
    induction L with
    | nil =>
      intro cs _
      exact Tot.pure (by simp)
    | cons v L ih =>
      intro cs h
      rw [forEach, comp_mem hs hm (h v List.mem_cons_self), ok_bind, idx, if_neg (by omega), Int.toNat_natCast, ok_bind, pure_eq, ok_bind]
      refine (ih (cs.push (code a v)) (fun u hu => h u (List.mem_cons_of_mem _ hu))).mono ?_
      intro cs' hcs
      rw [hcs]
      simp
  have := key L #[] hL
  rw [codes]
  simpa using this

end

theorem make_tot (w : Nat) (a : List Int) : Tot (make w a) (CBuilt w a) := by
  obtain ⟨ys, e, hs, hm⟩ := Compressor.build_spec a
  rw [make, e, ok_bind]
  refine Tot.bind (codes_tot hs hm a (fun _ h => h)) ?_
  intro cs hcs
  refine Tot.bind (WaveletMatrix.make_tot w cs.size (fun i => at' 0 cs i)) ?_
  intro wm hwm
  have : (List.range cs.size).map (fun i => at' 0 cs i) = a.map (code a) := by
    rw [← hcs]
    have h2 := range_map_getD cs.toList (i := cs.size) (by simp)
    rw [List.take_of_length_le (by simp)] at h2
    rw [← h2]
    refine List.map_congr_left fun i _ => ?_
    rw [at', List.getD_eq_getElem?_getD, Array.getElem?_toList]
  rw [this] at hwm
  exact Tot.pure ⟨hs, hm, hwm⟩

section
variable {w : Nat} {a : List Int} {s : CW} (h : CBuilt w a s)

/-- The range. -/
abbrev rng (a : List Int) (l r : Nat) : List Int := (a.drop l).take (r - l)

theorem seg_map (f : Int → Nat) (a : List Int) (l r : Nat) : seg (a.map f) l r = (rng a l r).map f := by
  rw [seg, rng, ← List.map_drop, ← List.map_take]

theorem rng_sub {v : Int} {l r : Nat} (hv : v ∈ rng a l r) : v ∈ a := List.mem_of_mem_drop (List.mem_of_mem_take hv)

theorem code_bound (hc : a.toFinset.card ≤ 2 ^ w) : ∀ v ∈ a.map (code a), v < 2 ^ w := by
  intro v hv
  obtain ⟨u, hu, rfl⟩ := List.mem_map.1 hv
  have := code_lt_card hu
  omega

theorem count_lt_code {L : List Int} (hL : ∀ u ∈ L, u ∈ a) (v : Int) : (L.map (code a)).countP (fun u => decide (u < code a v)) = L.countP (fun u => decide (u < v)) := by
  rw [List.countP_map]
  refine List.countP_congr fun u hu => ?_
  simp only [Function.comp, decide_eq_true_eq]
  exact code_lt_iff (hL u hu)

theorem count_le_code {L : List Int} (hL : ∀ u ∈ L, u ∈ a) {v : Int} (hv : v ∈ a) : (L.map (code a)).countP (fun u => decide (u ≤ code a v)) = L.countP (fun u => decide (u ≤ v)) := by
  rw [List.countP_map]
  refine List.countP_congr fun u hu => ?_
  simp only [Function.comp, decide_eq_true_eq]
  rw [← not_lt, code_lt_iff hv, not_lt]

include h

theorem restore_code {v dflt : Int} (hw : w ≤ 31) (hc : a.toFinset.card ≤ 2 ^ w) (hv : v ∈ a) : restore s (code a v) dflt = .ok v := by
  have h1 := code_lt_card hv
  have h2 : (2 : Nat) ^ w ≤ 2 ^ 31 := Nat.pow_le_pow_right (by decide) hw
  rw [restore, if_neg (by rw [absent]; omega), decomp_code h.sort h.mem hv]

theorem get_tot {i : Nat} (hc : a.toFinset.card ≤ 2 ^ w) (hi : i < a.length) : get w s i = .ok a[i] := by
  have hb := code_bound hc
  rw [get, WaveletMatrix.get_tot h.wm (i := i) (by simpa using hi) (hb _ (List.getElem_mem _)), ok_bind]
  rw [List.getElem_map, decomp_code h.sort h.mem (List.getElem_mem hi)]

theorem rank_tot {val : Int} {i : Nat} (hw : w ≤ 31) (hc : a.toFinset.card ≤ 2 ^ w) (hi : i ≤ a.length) : rank w s val i = .ok ((a.take i).count val : Int) := by
  rw [rank]
  by_cases hv : val ∈ a
  · rw [comp_mem h.sort h.mem hv, ok_bind, if_neg (by omega), Int.toNat_natCast, rankVal_tot h.wm (by omega) (by have := code_lt_card hv; omega) (by simpa using hi) (code_bound hc)]
    congr 2
    rw [← List.map_take, List.count, List.countP_map, List.count]
    refine List.countP_congr fun u hu => ?_
    have hu := List.mem_of_mem_take hu
    simp only [Function.comp, beq_iff_eq]
    constructor
    · intro e
      have h1 := code_lt_iff (v := val) hu
      have h2 := code_lt_iff (v := u) hv
      omega
    · intro e
      rw [e]
  · rw [comp_absent h.sort h.mem hv, ok_bind, if_pos rfl, List.count_eq_zero_of_not_mem (fun hc => hv (List.mem_of_mem_take hc))]
    rfl

theorem kth_tot {l r : Nat} {k : Int} (hw : w ≤ 31) (hc : a.toFinset.card ≤ 2 ^ w) (hr : r ≤ a.length) (hk : 0 ≤ k) (hk2 : k < (r : Int) - l) (d : Nat) :
    ∃ v, kth 32 w s.wm l r k 0 d = .ok (code a v) ∧ v ∈ rng a l r ∧ ((rng a l r).countP (fun u => decide (u < v)) : Int) ≤ k ∧ k < ((rng a l r).countP (fun u => decide (u ≤ v)) : Int) := by
  obtain ⟨x, e, h1, h2, h3⟩ := WaveletMatrix.kth_tot h.wm (dflt := d) (l := l) (x := 0) (k := k) (by omega) (Nat.two_pow_pos w) (code_bound hc) (by simpa using hr) hk hk2
  rw [seg_map] at h1 h2 h3
  obtain ⟨v, hv, rfl⟩ := List.mem_map.1 h1
  simp only [Nat.xor_zero] at h2 h3
  rw [count_lt_code (fun u hu => rng_sub hu)] at h2
  rw [count_le_code (fun u hu => rng_sub hu) (rng_sub hv)] at h3
  exact ⟨v, e, hv, h2, h3⟩

theorem rangeFreq_tot {l r : Nat} {upper : Int} (hw : w ≤ 31) (hc : a.toFinset.card ≤ 2 ^ w) (hr : r ≤ a.length) : rangeFreq w s l r upper = .ok ((rng a l r).countP (fun v => decide (v < upper)) : Int) := by
  rw [rangeFreq, minGeqIndex_eq h.sort h.mem, Int.toNat_natCast, freq_tot h.wm (by omega) (Nat.two_pow_pos w) (code_bound hc) (by simpa using hr), seg_map]
  simp only [Nat.xor_zero]
  rw [count_lt_code (fun u hu => rng_sub hu)]

theorem rangeMinGeq_tot {l r : Nat} {lower dflt : Int} (hw : w ≤ 31) (hc : a.toFinset.card ≤ 2 ^ w) (hr : r ≤ a.length) :
    Tot (rangeMinGeq w s l r lower dflt) fun v => if ∃ u ∈ rng a l r, lower ≤ u then v ∈ rng a l r ∧ lower ≤ v ∧ ∀ u ∈ rng a l r, lower ≤ u → v ≤ u else v = dflt := by
  rw [rangeMinGeq, minGeqIndex_eq h.sort h.mem, Int.toNat_natCast]
  refine Tot.bind (minGeq_tot h.wm (by omega) (Nat.two_pow_pos w) (code_bound hc) (by simpa using hr)) ?_
  intro x hx
  simp only [seg_map, Nat.xor_zero] at hx
  have hcode : ∀ u ∈ rng a l r, code a lower ≤ code a u ↔ lower ≤ u := by
    intro u hu
    rw [← not_lt, code_lt_iff (rng_sub hu), not_lt]
  by_cases he : ∃ u ∈ rng a l r, lower ≤ u
  · obtain ⟨u, hu, hu2⟩ := he
    rw [if_pos ⟨code a u, List.mem_map_of_mem hu, (hcode u hu).2 hu2⟩] at hx
    obtain ⟨h1, h2, h3⟩ := hx
    obtain ⟨v, hv, rfl⟩ := List.mem_map.1 h1
    rw [restore_code h hw hc (rng_sub hv)]
    refine Tot.pure ?_
    rw [if_pos ⟨u, hu, hu2⟩]
    refine ⟨hv, (hcode v hv).1 h2, fun z hz hz2 => ?_⟩
    have := h3 (code a z) (List.mem_map_of_mem hz) ((hcode z hz).2 hz2)
    have h4 := code_lt_iff (v := v) (rng_sub hz)
    omega
  · rw [if_neg] at hx
    · subst hx
      rw [restore, if_pos rfl]
      refine Tot.pure ?_
      rw [if_neg he]
    · rintro ⟨y, hy, hy2⟩
      obtain ⟨u, hu, rfl⟩ := List.mem_map.1 hy
      exact he ⟨u, hu, (hcode u hu).1 hy2⟩

theorem rangeMaxLt_tot {l r : Nat} {upper dflt : Int} (hw : w ≤ 31) (hc : a.toFinset.card ≤ 2 ^ w) (hr : r ≤ a.length) :
    Tot (rangeMaxLt w s l r upper dflt) fun v => if ∃ u ∈ rng a l r, u < upper then v ∈ rng a l r ∧ v < upper ∧ ∀ u ∈ rng a l r, u < upper → u ≤ v else v = dflt := by
  rw [rangeMaxLt, minGeqIndex_eq h.sort h.mem, Int.toNat_natCast]
  refine Tot.bind (maxLt_tot h.wm (by omega) (Nat.two_pow_pos w) (code_bound hc) (by simpa using hr)) ?_
  intro x hx
  simp only [seg_map, Nat.xor_zero] at hx
  have hcode : ∀ u ∈ rng a l r, code a u < code a upper ↔ u < upper := fun u hu => code_lt_iff (rng_sub hu)
  by_cases he : ∃ u ∈ rng a l r, u < upper
  · obtain ⟨u, hu, hu2⟩ := he
    rw [if_pos ⟨code a u, List.mem_map_of_mem hu, (hcode u hu).2 hu2⟩] at hx
    obtain ⟨h1, h2, h3⟩ := hx
    obtain ⟨v, hv, rfl⟩ := List.mem_map.1 h1
    rw [restore_code h hw hc (rng_sub hv)]
    refine Tot.pure ?_
    rw [if_pos ⟨u, hu, hu2⟩]
    refine ⟨hv, (hcode v hv).1 h2, fun z hz hz2 => ?_⟩
    have := h3 (code a z) (List.mem_map_of_mem hz) ((hcode z hz).2 hz2)
    have h4 := code_lt_iff (v := z) (rng_sub hv)
    omega
  · rw [if_neg] at hx
    · subst hx
      rw [restore, if_pos rfl]
      refine Tot.pure ?_
      rw [if_neg he]
    · rintro ⟨y, hy, hy2⟩
      obtain ⟨u, hu, rfl⟩ := List.mem_map.1 hy
      exact he ⟨u, hu, (hcode u hu).1 hy2⟩

end

end CompressedWavelet
