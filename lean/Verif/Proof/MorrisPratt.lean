import Verif.Model.StringAlgo
import Mathlib.Data.List.Basic
import Mathlib.Algebra.Order.Group.Int

/-! # Proofs about `library/string/morris_pratt.hpp` -/

namespace MorrisPratt
open Cxx
variable {α : Type} [DecidableEq α]

/-- The prefix of `s` of length `k` is a suffix of `t[0, i)`. -/
def Suf (s t : Array α) (i k : Nat) : Prop := k ≤ i ∧ ∀ q < k, s[q]? = t[i - k + q]?

omit [DecidableEq α] in
theorem suf_down {s t : Array α} {i k : Nat} (h : Suf s t (i + 1) (k + 1)) : Suf s t i k ∧ s[k]? = t[i]? := by
  obtain ⟨h1, h2⟩ := h
  refine ⟨⟨by omega, fun q hq => ?_⟩, ?_⟩
  · rw [h2 q (by omega)]; congr 1; omega
  · rw [h2 k (by omega)]; congr 1; omega

omit [DecidableEq α] in
theorem suf_up {s t : Array α} {i k : Nat} (h : Suf s t i k) (he : s[k]? = t[i]?) : Suf s t (i + 1) (k + 1) := by
  obtain ⟨h1, h2⟩ := h
  refine ⟨by omega, fun q hq => ?_⟩
  rcases Nat.lt_or_ge q k with h | h
  · rw [h2 q h]; congr 1; omega
  · have : q = k := by omega
    subst this
    rw [he]; congr 1; omega

omit [DecidableEq α] in
theorem suf_suf {s t : Array α} {i j k : Nat} (hj : Suf s t i j) (hk : Suf s t i k) (h : k ≤ j) : Suf s s j k := by
  refine ⟨h, fun q hq => ?_⟩
  rw [hk.2 q hq, hj.2 (j - k + q) (by omega)]
  congr 1
  have := hj.1
  omega

omit [DecidableEq α] in
theorem suf_trans {s t : Array α} {i j k : Nat} (hj : Suf s t i j) (hk : Suf s s j k) : Suf s t i k := by
  have := hj.1
  have := hk.1
  refine ⟨by omega, fun q hq => ?_⟩
  rw [hk.2 q hq, hj.2 (j - k + q) (by omega)]
  congr 1
  omega

omit [DecidableEq α] in
theorem suf_zero (s t : Array α) (i : Nat) : Suf s t i 0 := ⟨by omega, fun q hq => by omega⟩

/-- The table is right up to index `m`. -/
def TableOk (s : Array α) (mp : Array Int) (m : Nat) : Prop :=
  mp[0]? = some (-1) ∧ ∀ j, 1 ≤ j → j ≤ m → ∃ k : Nat, mp[j]? = some (k : Int) ∧ k < j ∧ Suf s s j k ∧ ∀ k' < j, Suf s s j k' → k' ≤ k

theorem fall_tot (s t : Array α) (mp : Array Int) (m : Nat) (hmp : TableOk s mp m) (get : Nat → M α) (c : α) (i : Nat) (hc : t[i]? = some c)
    (K : Nat → Prop) (fuel : Nat) (j0 : Int) (hj : -1 ≤ j0) (hjm : j0 ≤ m) (hf : j0 < fuel)
    (hget : ∀ j : Nat, (j : Int) ≤ j0 → ∃ y, get j = .ok y ∧ (y = c ↔ s[j]? = some c))
    (hs : 0 ≤ j0 → Suf s t i j0.toNat) (hb : ∀ k, K k → Suf s t (i + 1) (k + 1) → (k : Int) ≤ j0) :
    Tot (loop (fallStep get c mp) fuel j0) fun j => -1 ≤ j ∧ j ≤ j0 ∧ (0 ≤ j → Suf s t (i + 1) (j.toNat + 1)) ∧
      ∀ k, K k → Suf s t (i + 1) (k + 1) → (k : Int) ≤ j := by
  refine Tot.loop (P := fun j => -1 ≤ j ∧ j ≤ j0 ∧ (0 ≤ j → Suf s t i j.toNat) ∧ ∀ k, K k → Suf s t (i + 1) (k + 1) → (k : Int) ≤ j)
    (fun j => (j + 1).toNat) ?_ ⟨hj, le_refl _, hs, hb⟩ (by omega)
  rintro j ⟨h1, h2, h3, h4⟩
  rw [fallStep]
  by_cases hj0 : j ≥ 0
  · rw [if_pos hj0]
    obtain ⟨y, hy, hyc⟩ := hget j.toNat (by omega)
    rw [hy, ok_bind]
    by_cases hne : y = c
    · rw [if_neg (by simpa using hne)]
      refine Tot.pure ⟨h1, h2, fun _ => suf_up (h3 hj0) (by rw [hyc.1 hne, hc]), h4⟩
    · rw [if_pos hne]
      have key : ∀ k, K k → Suf s t (i + 1) (k + 1) → (k : Int) < j ∧ Suf s s j.toNat k := by
        intro k hk hsuf
        have hle := h4 k hk hsuf
        obtain ⟨g1, g2⟩ := suf_down hsuf
        have : k ≠ j.toNat := by
          rintro rfl
          exact hne (hyc.2 (by rw [g2, hc]))
        exact ⟨by omega, suf_suf (h3 hj0) g1 (by omega)⟩
      rcases Nat.eq_zero_or_pos j.toNat with hz | hp
      · rw [hz, rd_some hmp.1, ok_bind]
        refine Tot.pure ⟨⟨le_refl _, by omega, by intro h; omega, fun k hk hsuf => ?_⟩, by omega⟩
        have := (key k hk hsuf).1
        omega
      · obtain ⟨k, e1, e2, e3, e4⟩ := hmp.2 j.toNat hp (by omega)
        rw [rd_some e1, ok_bind]
        refine Tot.pure ⟨⟨by omega, by omega, fun _ => ?_, fun k' hk' hsuf => ?_⟩, by omega⟩
        · rw [Int.toNat_natCast]
          exact suf_trans (h3 hj0) e3
        · have g := key k' hk' hsuf
          have := e4 k' (by omega) g.2
          omega
  · rw [if_neg hj0]
    refine Tot.pure ⟨h1, h2, fun h => absurd h hj0, h4⟩

theorem table_tot (s : Array α) : Tot (table s) fun mp => mp.size = s.size + 1 ∧ TableOk s mp s.size := by
  rw [table, wr_eq (by simp), ok_bind]
  refine Tot.bind (P := fun (q : Int × Array Int) => q.2.size = s.size + 1 ∧ TableOk s q.2 s.size) ?_ fun q hq =>
    Tot.pure (Q := fun (mp : Array Int) => mp.size = s.size + 1 ∧ TableOk s mp s.size) hq
  refine (Tot.forUp (P := fun i (q : Int × Array Int) => q.2.size = s.size + 1 ∧ TableOk s q.2 i ∧ q.2[i]? = some q.1) (Nat.zero_le _)
    ⟨by simp, ⟨by simp, fun j h1 h2 => by omega⟩, by simp⟩ ?_).mono fun q hq => ⟨hq.1, hq.2.1⟩
  rintro i ⟨j0, mp⟩ - hi ⟨h1, h2, h3⟩
  dsimp only at h1 h2 h3
  obtain ⟨c, hc⟩ : ∃ c, s[i]? = some c := ⟨s[i], Array.getElem?_eq_getElem hi⟩
  rw [tableStep, rd_some hc, ok_bind]
  dsimp only
  -- facts about the start value
  have hj0 : -1 ≤ j0 ∧ j0 < i ∧ (0 ≤ j0 → Suf s s i j0.toNat) ∧ ∀ k, k < i → Suf s s i k → (k : Int) ≤ j0 := by
    rcases Nat.eq_zero_or_pos i with rfl | hp
    · have : j0 = -1 := by
        have := h2.1
        rw [h3] at this
        exact Option.some.inj this
      exact ⟨by omega, by omega, fun h => by omega, fun k hk => by omega⟩
    · obtain ⟨k, e1, e2, e3, e4⟩ := h2.2 i hp (le_refl _)
      rw [h3] at e1
      have : j0 = k := Option.some.inj e1
      subst this
      exact ⟨by omega, by omega, fun _ => by rw [Int.toNat_natCast]; exact e3, fun k' hk hs => by have := e4 k' hk hs; omega⟩
  obtain ⟨g1, g2, g3, g4⟩ := hj0
  refine Tot.bind (fall_tot s s mp i h2 (rd s) c i hc (fun k => k < i) s.size j0 g1 (by omega) (by omega) ?_ g3 ?_) ?_
  · intro j hj
    have hjs : j < s.size := by omega
    exact ⟨s[j], rd_eq hjs, by rw [Array.getElem?_eq_getElem hjs]; simp⟩
  · intro k hk hs
    exact g4 k hk (suf_down hs).1
  · rintro j ⟨f1, f2, f3, f4⟩
    rw [wr_eq (by omega), ok_bind]
    refine Tot.pure ⟨by simp [h1], ⟨?_, ?_⟩, ?_⟩
    · dsimp only
      rw [Array.getElem?_setIfInBounds]
      simp [h2.1]
    · intro j' hj1 hj2
      dsimp only
      rw [Array.getElem?_setIfInBounds]
      by_cases he : i + 1 = j'
      · subst he
        refine ⟨(j + 1).toNat, by rw [if_pos rfl, if_pos (by omega)]; congr 1; omega, by omega, ?_, ?_⟩
        · rcases Int.lt_or_le j 0 with hneg | hpos
          · have : (j + 1).toNat = 0 := by omega
            rw [this]
            exact suf_zero _ _ _
          · have : (j + 1).toNat = j.toNat + 1 := by omega
            rw [this]
            exact f3 hpos
        · intro k' hk' hs
          rcases k' with _ | k'
          · omega
          · have := f4 k' (by omega) hs
            omega
      · rw [if_neg he]
        exact h2.2 j' hj1 (by omega)
    · dsimp only
      rw [Array.getElem?_setIfInBounds, if_pos rfl, if_pos (by omega)]

/-- `p` is a period of `s`. -/
def Period (s : Array α) (p : Nat) : Prop := 1 ≤ p ∧ p ≤ s.size ∧ ∀ i, i + p < s.size → s[i]? = s[i + p]?

omit [DecidableEq α] in
theorem period_iff (s : Array α) (k : Nat) (hk : k < s.size) : Period s (s.size - k) ↔ Suf s s s.size k := by
  constructor
  · rintro ⟨h1, h2, h3⟩
    refine ⟨by omega, fun q hq => ?_⟩
    rw [h3 q (by omega)]
    congr 1; omega
  · rintro ⟨h1, h2⟩
    refine ⟨by omega, by omega, fun i hi => ?_⟩
    rw [h2 i (by omega)]
    congr 1; omega

theorem addPeriod_eq (acc : Bool) (n p : Nat) (hp : 1 ≤ p) (res : Array Int) :
    addPeriod acc n p res = .ok (if acc = true ∨ n % p = 0 then res.push p else res) := by
  rw [addPeriod]
  cases acc
  · rw [if_neg (by simp), if_neg (by omega), show (n : Int).tmod p = ((n % p : Nat) : Int) from rfl]
    by_cases h : n % p = 0
    · rw [if_pos (by exact_mod_cast h), if_pos (Or.inr h)]; rfl
    · rw [if_neg (by exact_mod_cast h), if_neg (by simpa using h)]; rfl
  · simp

theorem allPeriods_tot (s : Array α) (acc : Bool) :
    Tot (allPeriods s acc) fun res => ∃ l : List Nat, res.toList = l.map (fun (p : Nat) => (p : Int)) ∧ l.Pairwise (· < ·) ∧
      ∀ p, p ∈ l ↔ Period s p ∧ (acc = true ∨ s.size % p = 0) := by
  rw [allPeriods]
  refine Tot.bind (table_tot s) fun mp ⟨hsz, hmp⟩ => ?_
  rw [hsz]
  refine Tot.bind (P := fun (q : Int × Array Int) => ∃ l : List Nat, q.2.toList = l.map (fun (p : Nat) => (p : Int)) ∧ l.Pairwise (· < ·) ∧
      ∀ p, p ∈ l ↔ Period s p ∧ (acc = true ∨ s.size % p = 0)) ?_ fun q hq => Tot.pure (Q := fun (res : Array Int) => ∃ l : List Nat,
        res.toList = l.map (fun (p : Nat) => (p : Int)) ∧ l.Pairwise (· < ·) ∧ ∀ p, p ∈ l ↔ Period s p ∧ (acc = true ∨ s.size % p = 0)) hq
  refine Tot.loop (P := fun (q : Int × Array Int) => ∃ r : Nat, q.1 = r ∧ r ≤ s.size ∧ Suf s s s.size r ∧ ∃ l : List Nat,
    q.2.toList = l.map (fun (p : Nat) => (p : Int)) ∧ l.Pairwise (· < ·) ∧
      ∀ p, p ∈ l ↔ p ≤ s.size - r ∧ Period s p ∧ (acc = true ∨ s.size % p = 0)) (fun q => q.1.toNat) ?_ ?_ ?_
  · rintro ⟨r', res⟩ ⟨r, hr', hr, hsuf, l, hl1, hl2, hl3⟩
    dsimp only at hr' hl1
    subst hr'
    rw [periodStep]
    dsimp only
    by_cases hz : (r : Int) = 0
    · rw [if_pos hz]
      have hr0 : r = 0 := by omega
      subst hr0
      refine Tot.pure ⟨l, hl1, hl2, fun p => ?_⟩
      rw [hl3]
      constructor
      · rintro ⟨-, h⟩; exact h
      · rintro h; exact ⟨by have := h.1.2.1; omega, h⟩
    · rw [if_neg hz, if_neg (by omega), Int.toNat_natCast]
      obtain ⟨k, e1, e2, e3, e4⟩ := hmp.2 r (by omega) hr
      rw [rd_some e1, ok_bind]
      have hcast : ((s.size + 1 - 1 : Nat) : Int) - (k : Int) = ((s.size - k : Nat) : Int) := by omega
      rw [hcast]
      have hn1 : s.size + 1 - 1 = s.size := by omega
      rw [hn1, addPeriod_eq _ _ _ (by omega), ok_bind]
      have hsk := suf_trans hsuf e3
      have hper : Period s (s.size - k) := (period_iff s k (by omega)).2 hsk
      have hmid : ∀ p, Period s p → s.size - r < p → p ≤ s.size - k → p = s.size - k := by
        intro p hp h1 h2
        obtain ⟨b, hb⟩ : ∃ b, b = s.size - p := ⟨_, rfl⟩
        have hpb : p = s.size - b := by have := hp.2.1; omega
        rw [hpb] at hp
        have g1 := (period_iff s b (by have := hp.1; omega)).1 hp
        have g2 := e4 b (by omega) (suf_suf hsuf g1 (by omega))
        omega
      refine Tot.pure ⟨⟨k, rfl, by omega, hsk, ?_⟩, by om⟩
      by_cases hacc : acc = true ∨ s.size % (s.size - k) = 0
      · rw [if_pos hacc]
        refine ⟨l ++ [s.size - k], by simp [hl1], ?_, fun p => ?_⟩
        · rw [List.pairwise_append]
          refine ⟨hl2, by simp, fun a ha b hb => ?_⟩
          have := ((hl3 a).1 ha).1
          simp only [List.mem_singleton] at hb
          omega
        · rw [List.mem_append, hl3, List.mem_singleton]
          constructor
          · rintro (⟨h1, h2⟩ | rfl)
            · exact ⟨by omega, h2⟩
            · exact ⟨le_refl _, hper, hacc⟩
          · rintro ⟨h1, h2, h3⟩
            rcases Nat.lt_or_ge (s.size - r) p with h | h
            · exact Or.inr (hmid p h2 h h1)
            · exact Or.inl ⟨h, h2, h3⟩
      · rw [if_neg hacc]
        refine ⟨l, hl1, hl2, fun p => ?_⟩
        rw [hl3]
        constructor
        · rintro ⟨h1, h2⟩
          exact ⟨by omega, h2⟩
        · rintro ⟨h1, h2, h3⟩
          refine ⟨?_, h2, h3⟩
          by_contra h
          rw [hmid p h2 (by omega) h1] at h3
          exact hacc h3
  · refine ⟨s.size, by simp, le_refl _, ⟨le_refl _, fun q hq => by congr 1; omega⟩, [], by simp, List.Pairwise.nil, fun p => ?_⟩
    simp only [List.not_mem_nil, false_iff, not_and]
    intro h1 h2
    have := h2.1
    omega
  · dsimp only; omega

/-- `s` occurs in `t` at position `p`. -/
def occ (s t : Array α) (p : Nat) : Prop := p + s.size ≤ t.size ∧ ∀ q < s.size, t[p + q]? = s[q]?

instance (s t : Array α) (p : Nat) : Decidable (occ s t p) := by unfold occ; infer_instance

omit [DecidableEq α] in
theorem occ_iff (s t : Array α) {i : Nat} (hi : i ≤ t.size) (hn : s.size ≤ i) : occ s t (i - s.size) ↔ Suf s t i s.size :=
  ⟨fun h => ⟨hn, fun q hq => (h.2 q hq).symm⟩, fun h => ⟨by omega, fun q hq => (h.2 q hq).symm⟩⟩

theorem match_tot (term : Option α) (s t : Array α) (hn : 1 ≤ s.size)
    (hterm : ∀ i < t.size, occ s t (i - s.size) → s.size ≤ i → ∃ z, term = some z ∧ t[i]? ≠ some z) :
    Tot (matchAll term s t) fun res => res.toList = ((List.range (t.size + 1 - s.size)).filter fun p => decide (occ s t p)).map fun (p : Nat) => (p : Int) := by
  rw [matchAll]
  refine Tot.bind (table_tot s) fun mp ⟨hsz, hmp⟩ => ?_
  refine Tot.bind (P := fun (q : Int × Array Int) => q.2.toList = ((List.range (t.size + 1 - s.size)).filter fun p => decide (occ s t p)).map
    fun (p : Nat) => (p : Int)) ?_ fun q hq => Tot.pure (Q := fun (res : Array Int) => res.toList = ((List.range (t.size + 1 - s.size)).filter fun p =>
      decide (occ s t p)).map fun (p : Nat) => (p : Int)) hq
  refine (Tot.forUp (P := fun i (q : Int × Array Int) => i ≤ t.size ∧ 0 ≤ q.1 ∧ q.1 ≤ s.size ∧ Suf s t i q.1.toNat ∧
    (∀ k ≤ s.size, Suf s t i k → (k : Int) ≤ q.1) ∧
    q.2.toList = ((List.range (i + 1 - s.size)).filter fun p => decide (occ s t p)).map fun (p : Nat) => (p : Int)) (Nat.zero_le _) ?_ ?_).mono ?_
  · refine ⟨Nat.zero_le _, le_refl _, by omega, suf_zero _ _ _, fun k hk hs => ?_, ?_⟩
    · have := hs.1
      omega
    · have : 0 + 1 - s.size = 0 := by omega
      simp [this]
  · rintro i ⟨j0, res⟩ - hi ⟨-, h1, h2, h3, h4, h5⟩
    dsimp only at h1 h2 h3 h4 h5
    obtain ⟨c, hc⟩ : ∃ c, t[i]? = some c := ⟨t[i], Array.getElem?_eq_getElem hi⟩
    rw [matchStep, rd_some hc, ok_bind]
    dsimp only
    refine Tot.bind (fall_tot s t mp s.size hmp (patAt term s) c i hc (fun k => k < s.size) (s.size + 1) j0 (by omega) h2 (by omega) ?_
      (fun _ => h3) (fun k hk hs => h4 k (by omega) (suf_down hs).1)) ?_
    · intro j hj
      rw [patAt.eq_def]
      by_cases he : j = s.size
      · have : j0 = s.size := by omega
        rw [this, Int.toNat_natCast] at h3
        obtain ⟨z, hz1, hz2⟩ := hterm i hi ((occ_iff s t (by omega) h3.1).2 h3) h3.1
        rw [if_pos he, hz1]
        refine ⟨z, rfl, ?_⟩
        rw [he, Array.getElem?_eq_none (le_refl _)]
        simp only [reduceCtorEq, iff_false]
        rintro rfl
        exact hz2 hc
      · rw [if_neg he]
        have hjs : j < s.size := by omega
        exact ⟨s[j], rd_eq hjs, by rw [Array.getElem?_eq_getElem hjs]; simp⟩
    · rintro j ⟨f1, f2, f3, f4⟩
      -- j < s.size
      have hjn : j < s.size := by
        by_contra hge
        have he : j = s.size := by omega
        have h0 := f3 (by omega)
        rw [he, Int.toNat_natCast] at h0
        have := (suf_down h0).2
        rw [Array.getElem?_eq_none (le_refl _), hc] at this
        cases this
      have hsuf : Suf s t (i + 1) (j + 1).toNat := by
        rcases Int.lt_or_le j 0 with hneg | hpos
        · have : (j + 1).toNat = 0 := by omega
          rw [this]
          exact suf_zero _ _ _
        · have : (j + 1).toNat = j.toNat + 1 := by omega
          rw [this]
          exact f3 hpos
      refine Tot.pure ⟨by omega, by om, by om, hsuf, ?_, ?_⟩
      · intro k hk hs
        rcases k with _ | k
        · om
        · have := f4 k (by omega) hs
          om
      · dsimp only [report]
        by_cases hle : s.size ≤ i + 1
        · have e1 : i + 1 + 1 - s.size = (i + 1 - s.size) + 1 := by omega
          rw [e1, List.range_succ, List.filter_append, List.map_append, ← h5]
          by_cases hj : j + 1 = s.size
          · rw [if_pos hj]
            have ho : occ s t (i + 1 - s.size) := by
              rw [occ_iff s t (by omega) hle]
              have : (j + 1).toNat = s.size := by omega
              rwa [this] at hsuf
            simp [ho]
            omega
          · rw [if_neg hj]
            have ho : ¬ occ s t (i + 1 - s.size) := by
              rw [occ_iff s t (by omega) hle]
              intro h
              obtain ⟨n', hn'⟩ : ∃ n', s.size = n' + 1 := ⟨s.size - 1, by omega⟩
              rw [hn'] at h
              have := f4 n' (by omega) h
              omega
            simp [ho]
        · rw [if_neg (by have := hsuf.1; omega)]
          have e1 : i + 1 + 1 - s.size = i + 1 - s.size := by omega
          rw [e1, h5]
  · rintro q ⟨-, -, -, -, -, h⟩
    exact h

end MorrisPratt
