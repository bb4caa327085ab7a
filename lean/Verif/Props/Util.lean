import Verif.Proof.Compressor
import Verif.Proof.RunLength
import Verif.Proof.CumulativeSum
import Verif.Proof.Search
import Verif.Proof.Permutation
import Verif.Proof.SubsetIter
import Mathlib.Algebra.Order.Group.Int

/-!
# C36–C41, C68, C69: coordinate compression, run-length encoding, permutations, searches, cumulative sums, subset iterators
-/

namespace UtilProps
open Cxx

/-! ## C36 -/

section Compressor
variable {α : Type} [LinearOrder α]

/-- Number of distinct values of `xs` less than `e`. -/
def rank (xs : List α) (e : α) : Nat := (xs.toFinset.filter (· < e)).card

/-- Number of distinct values of `xs` at most `e`. -/
def rankLe (xs : List α) (e : α) : Nat := (xs.toFinset.filter (· ≤ e)).card

/-- C36: after pushing `xs` and building, `size` is the number of distinct values, `comp` maps a pushed value to its rank and anything else to
the default, `has_key` is exact, and `decomp` undoes `comp`. -/
theorem compressor_comp (xs : List α) :
    ∃ c, Compressor.build xs = .ok c ∧ Compressor.size c = xs.toFinset.card ∧
      (∀ e d, Compressor.comp c e d = .ok (if e ∈ xs then (rank xs e : Int) else d)) ∧
      (∀ e, Compressor.hasKey c e = .ok (decide (e ∈ xs))) ∧
      (∀ e ∈ xs, Compressor.decomp c (rank xs e) = .ok e) ∧
      (∀ i < xs.toFinset.card, ∃ e ∈ xs, Compressor.decomp c i = .ok e ∧ rank xs e = i) := by
  obtain ⟨c, h1, h2, h3⟩ := Compressor.build_spec xs
  have hsz : c.size = xs.toFinset.card := Compressor.size_card h2 h3
  have hlow : ∀ e, Compressor.lowerBound c.toList e = rank xs e := Compressor.lower_eq h2 h3
  have hmem : ∀ e ∈ xs, c[rank xs e]? = some e := fun e he => by
    rw [← hlow]; exact Compressor.comp_of_mem h2 ((h3 e).2 he)
  have hout : ∀ e, e ∉ xs → ∀ v, c[rank xs e]? = some v → e < v := fun e he v hv => by
    rw [← hlow] at hv
    rcases Compressor.find_spec _ (fun x => !decide (x < e)) _ h2 with ⟨h4, _⟩ | ⟨v', h4, h5, h6, _⟩
    · rw [Compressor.lowerBound, h4, Array.length_toList, Array.getElem?_eq_none (Nat.le_refl _)] at hv
      cases hv
    · rw [Compressor.lowerBound, ← Array.getElem?_toList, h4] at hv
      cases hv
      have h7 : e ≤ v := by simpa using h6
      exact lt_of_le_of_ne h7 fun h => he (h ▸ (h3 v).1 h5)
  have hle : ∀ e, rank xs e ≤ c.size := fun e => by
    rw [hsz]; exact Finset.card_filter_le _ _
  refine ⟨c, h1, by rw [Compressor.size, hsz], ?_, ?_, ?_, ?_⟩
  · intro e d
    rw [Compressor.comp, Compressor.minGeqIndex, Compressor.size, hlow]
    by_cases he : e ∈ xs
    · have hb := (Array.getElem?_eq_some_iff.1 (hmem e he)).1
      rw [if_pos he, if_pos (by omega), Int.toNat_natCast, rd_some (hmem e he), ok_bind, if_pos rfl]
      rfl
    · rw [if_neg he]
      split
      · rename_i hne
        have hb : rank xs e < c.size := by have := hle e; omega
        rw [Int.toNat_natCast, rd_eq hb, ok_bind, if_neg]
        · rfl
        · have := hout e he _ (Array.getElem?_eq_getElem hb)
          exact ne_of_gt this
      · rfl
  · intro e
    rw [Compressor.hasKey, hlow]
    by_cases he : e ∈ xs
    · have hb := (Array.getElem?_eq_some_iff.1 (hmem e he)).1
      rw [if_neg (by omega), rd_some (hmem e he), ok_bind]
      simp [he]
    · split
      · simp [he]
      · rename_i hne
        have hb : rank xs e < c.size := by have := hle e; omega
        rw [rd_eq hb, ok_bind]
        have := hout e he _ (Array.getElem?_eq_getElem hb)
        simp [he, this]
  · intro e he
    rw [Compressor.decomp, rd_some (hmem e he)]
  · intro i hi
    rw [← hsz] at hi
    refine ⟨c[i], (h3 _).1 (by simp), by rw [Compressor.decomp, rd_eq hi], ?_⟩
    have h4 := hmem c[i] ((h3 _).1 (by simp))
    obtain ⟨h5, h6⟩ := Array.getElem?_eq_some_iff.1 h4
    have hn : c.toList.Nodup := h2.imp fun h => ne_of_lt h
    have := (List.Nodup.getElem_inj_iff hn (i := rank xs c[i]) (j := i) (hi := by simpa using h5) (hj := by simpa using hi)).1
      (by simpa using h6)
    exact this

/-- The rank is strictly monotone on the pushed values, so `comp` is an order isomorphism onto `[0, size)`. -/
theorem rank_lt (xs : List α) {a b : α} (ha : a ∈ xs) (h : a < b) : rank xs a < rank xs b := by
  apply Finset.card_lt_card
  rw [Finset.ssubset_iff_of_subset]
  · exact ⟨a, by simp [ha, h], by simp⟩
  · intro x hx
    simp only [Finset.mem_filter] at *
    exact ⟨hx.1, lt_trans hx.2 h⟩

/-- C36: the index queries (`size()` or `-1` when there is no such value). -/
theorem compressor_index (xs : List α) :
    ∃ c, Compressor.build xs = .ok c ∧ ∀ e,
      Compressor.minGeqIndex c e = rank xs e ∧ Compressor.minGtIndex c e = rankLe xs e ∧
      Compressor.maxLtIndex c e = (rank xs e : Int) - 1 ∧ Compressor.maxLeqIndex c e = (rankLe xs e : Int) - 1 := by
  obtain ⟨c, h1, h2, h3⟩ := Compressor.build_spec xs
  refine ⟨c, h1, fun e => ⟨?_, ?_, ?_, ?_⟩⟩
  · rw [Compressor.minGeqIndex, Compressor.lower_eq h2 h3]; rfl
  · rw [Compressor.minGtIndex, Compressor.upper_eq h2 h3]; rfl
  · have := Compressor.upperRev_eq h2 h3 e
    rw [Array.length_toList] at this
    rw [Compressor.maxLtIndex, rank]
    omega
  · have := Compressor.lowerRev_eq h2 h3 e
    rw [Array.length_toList] at this
    rw [Compressor.maxLeqIndex, rankLe]
    omega

/-- C36: the value queries return the neighbour, or the default when there is none. -/
theorem compressor_neighbour (xs : List α) :
    ∃ c, Compressor.build xs = .ok c ∧ ∀ e d,
      (∃ v, Compressor.minGt c e d = .ok v ∧ (IsLeast {x | x ∈ xs ∧ e < x} v ∨ (∀ x ∈ xs, ¬ e < x) ∧ v = d)) ∧
      (∃ v, Compressor.minGeq c e d = .ok v ∧ (IsLeast {x | x ∈ xs ∧ e ≤ x} v ∨ (∀ x ∈ xs, ¬ e ≤ x) ∧ v = d)) ∧
      (∃ v, Compressor.maxLt c e d = .ok v ∧ (IsGreatest {x | x ∈ xs ∧ x < e} v ∨ (∀ x ∈ xs, ¬ x < e) ∧ v = d)) ∧
      (∃ v, Compressor.maxLeq c e d = .ok v ∧ (IsGreatest {x | x ∈ xs ∧ x ≤ e} v ∨ (∀ x ∈ xs, ¬ x ≤ e) ∧ v = d)) := by
  obtain ⟨c, h1, h2, h3⟩ := Compressor.build_spec xs
  have h2' : c.toList.reverse.Pairwise (· > ·) := by rw [List.pairwise_reverse]; exact h2
  refine ⟨c, h1, fun e d => ⟨?_, ?_, ?_, ?_⟩⟩
  · rw [Compressor.minGt, Compressor.upperBound]
    rcases Compressor.find_spec _ (fun x => decide (e < x)) _ h2 with ⟨h4, h5⟩ | ⟨v, h4, h5, h6, h7⟩
    · refine ⟨d, by rw [if_pos (by rw [h4, Array.length_toList])]; rfl, Or.inr ⟨fun x hx => ?_, rfl⟩⟩
      simpa using h5 x ((h3 x).2 hx)
    · rw [Array.getElem?_toList] at h4
      have hb := (Array.getElem?_eq_some_iff.1 h4).1
      refine ⟨v, by rw [if_neg (by omega), rd_some h4], Or.inl ⟨⟨(h3 v).1 h5, by simpa using h6⟩, ?_⟩⟩
      rintro x ⟨hx1, hx2⟩
      rcases h7 x ((h3 x).2 hx1) (by simpa using hx2) with rfl | h
      · exact le_refl _
      · exact le_of_lt h
  · rw [Compressor.minGeq, Compressor.lowerBound]
    rcases Compressor.find_spec _ (fun x => !decide (x < e)) _ h2 with ⟨h4, h5⟩ | ⟨v, h4, h5, h6, h7⟩
    · refine ⟨d, by rw [if_pos (by rw [h4, Array.length_toList])]; rfl, Or.inr ⟨fun x hx => ?_, rfl⟩⟩
      simpa using h5 x ((h3 x).2 hx)
    · rw [Array.getElem?_toList] at h4
      have hb := (Array.getElem?_eq_some_iff.1 h4).1
      refine ⟨v, by rw [if_neg (by omega), rd_some h4], Or.inl ⟨⟨(h3 v).1 h5, by simpa using h6⟩, ?_⟩⟩
      rintro x ⟨hx1, hx2⟩
      rcases h7 x ((h3 x).2 hx1) (by simpa using hx2) with rfl | h
      · exact le_refl _
      · exact le_of_lt h
  · rw [Compressor.maxLt, Compressor.upperBoundRev]
    rcases Compressor.find_spec _ (fun x => decide (e > x)) _ h2' with ⟨h4, h5⟩ | ⟨v, h4, h5, h6, h7⟩
    · refine ⟨d, by rw [if_pos (by rw [h4, List.length_reverse, Array.length_toList])]; rfl, Or.inr ⟨fun x hx => ?_, rfl⟩⟩
      simpa using h5 x (List.mem_reverse.2 ((h3 x).2 hx))
    · obtain ⟨hb, -⟩ := List.getElem?_eq_some_iff.1 h4
      rw [List.length_reverse, Array.length_toList] at hb
      rw [List.getElem?_reverse (by simpa using hb), Array.length_toList, Array.getElem?_toList] at h4
      refine ⟨v, by rw [if_neg (by omega), rd_some h4], Or.inl ⟨⟨(h3 v).1 (List.mem_reverse.1 h5), by simpa using h6⟩, ?_⟩⟩
      rintro x ⟨hx1, hx2⟩
      rcases h7 x (List.mem_reverse.2 ((h3 x).2 hx1)) (by simpa using hx2) with rfl | h
      · exact le_refl _
      · exact le_of_lt h
  · rw [Compressor.maxLeq, Compressor.lowerBoundRev]
    rcases Compressor.find_spec _ (fun x => !decide (x > e)) _ h2' with ⟨h4, h5⟩ | ⟨v, h4, h5, h6, h7⟩
    · refine ⟨d, by rw [if_pos (by rw [h4, List.length_reverse, Array.length_toList])]; rfl, Or.inr ⟨fun x hx => ?_, rfl⟩⟩
      simpa using h5 x (List.mem_reverse.2 ((h3 x).2 hx))
    · obtain ⟨hb, -⟩ := List.getElem?_eq_some_iff.1 h4
      rw [List.length_reverse, Array.length_toList] at hb
      rw [List.getElem?_reverse (by simpa using hb), Array.length_toList, Array.getElem?_toList] at h4
      refine ⟨v, by rw [if_neg (by omega), rd_some h4], Or.inl ⟨⟨(h3 v).1 (List.mem_reverse.1 h5), by simpa using h6⟩, ?_⟩⟩
      rintro x ⟨hx1, hx2⟩
      rcases h7 x (List.mem_reverse.2 ((h3 x).2 hx1)) (by simpa using hx2) with rfl | h
      · exact le_refl _
      · exact le_of_lt h

end Compressor

example : rank [30, 10, 30, 20] 20 = 1 ∧ rankLe [30, 10, 30, 20] 20 = 2 ∧ [30, 10, 30, 20].toFinset.card = 3 := by decide
example : ∃ c, Compressor.build [30, 10, 30, 20] = .ok c ∧ Compressor.comp c 20 (-1) = .ok 1 ∧ Compressor.comp c 25 (-1) = .ok (-1) := by
  obtain ⟨c, h1, -, h2, -⟩ := compressor_comp [30, 10, 30, 20]
  exact ⟨c, h1, h2 20 (-1), h2 25 (-1)⟩

/-! ## C37 -/

section RunLength
variable {α : Type} [DecidableEq α]

/-- The sequence a list of (value, length) pairs stands for. -/
def expand (l : List (α × Nat)) : List α := l.flatMap fun x => List.replicate x.2 x.1

/-- Maximal runs: positive lengths and neighbouring values differ. -/
def MaximalRuns (l : List (α × Nat)) : Prop := (∀ x ∈ l, 0 < x.2) ∧ l.IsChain fun a b => a.1 ≠ b.1

/-- Encoder built from a container, then `push_back` calls. -/
def encode (c : Array α) (ops : List (α × Nat)) : M (RunLength.State α) := do
  let s ← RunLength.ofContainer c
  forEach ops s fun s op => RunLength.pushBack s op.1 op.2

/-- C37: after encoding any sequence and any `push_back(v, num)` calls with `num ≥ 1`, iterating yields the maximal runs of the whole sequence
and `length()` is its length. -/
theorem run_length (c : Array α) (ops : List (α × Nat)) (hops : ∀ op ∈ ops, 1 ≤ op.2) :
    ∃ s, encode c ops = .ok s ∧ expand s.comp.toList = c.toList ++ expand ops ∧ MaximalRuns s.comp.toList ∧
      s.length = (c.toList ++ expand ops).length := by
  suffices H : Tot (encode c ops) fun s => RunLength.expand s.comp.toList = c.toList ++ RunLength.expand ops ∧ RunLength.Runs s.comp.toList ∧
      s.length = (c.toList ++ RunLength.expand ops).length from H
  rw [encode]
  refine Tot.bind (P := fun (s : RunLength.State α) => RunLength.expand s.comp.toList = c.toList ∧ RunLength.Runs s.comp.toList ∧
    s.length = c.toList.length) ?_ ?_
  · rw [RunLength.ofContainer]
    refine Tot.bind (RunLength.compress_tot c) fun r hr => ?_
    exact Tot.pure ⟨hr.1, hr.2, by simp⟩
  · rintro s ⟨h1, h2, h3⟩
    refine Tot.forEach (P := fun done (s : RunLength.State α) => RunLength.expand s.comp.toList = c.toList ++ RunLength.expand done ∧
      RunLength.Runs s.comp.toList ∧ s.length = (c.toList ++ RunLength.expand done).length) ⟨by rw [h1]; simp [RunLength.expand], h2,
      by simp [h3, RunLength.expand]⟩ ?_
    rintro pre ⟨v, num⟩ post s he ⟨g1, g2, g3⟩
    refine (RunLength.push_tot s _ g1 g2 g3 v num (hops (v, num) (by simp [he]))).mono fun t ht => ?_
    rw [RunLength.expand_append, RunLength.expand_single, ← List.append_assoc]
    exact ht

/-- The runs are determined by the sequence. -/
theorem runs_unique (l m : List (α × Nat)) (hl : MaximalRuns l) (hm : MaximalRuns m) (h : expand l = expand m) : l = m := by
  induction l generalizing m with
  | nil =>
    rcases m with _ | ⟨⟨v, n⟩, m⟩
    · rfl
    · have := hm.1 (v, n) (by simp)
      dsimp only at this
      have h2 := congrArg List.length h
      simp [expand] at h2
      omega
  | cons x l ih =>
    obtain ⟨v, n⟩ := x
    have hn : 0 < n := hl.1 (v, n) (by simp)
    rcases m with _ | ⟨⟨u, k⟩, m⟩
    · have h2 := congrArg List.length h
      simp [expand] at h2
      omega
    · have hk : 0 < k := hm.1 (u, k) (by simp)
      have hE : List.replicate n v ++ expand l = List.replicate k u ++ expand m := by simpa [expand] using h
      have huv : v = u := by
        have h0 := congrArg (fun l => l[0]?) hE
        simp only [List.getElem?_append, List.length_replicate, hn, hk, if_true, List.getElem?_replicate] at h0
        simpa using h0
      subst huv
      -- the run ends at the same place
      have tail : ∀ (l : List (α × Nat)) (n : Nat), MaximalRuns ((v, n) :: l) → (expand l)[0]? ≠ some v := by
        intro l n hl
        rcases l with _ | ⟨⟨y, j⟩, l⟩
        · simp [expand]
        · have hj : 0 < j := hl.1 (y, j) (by simp)
          have hne := (List.isChain_cons_cons.1 hl.2).1
          have : (expand ((y, j) :: l))[0]? = some y := by
            simp only [expand, List.flatMap_cons, List.getElem?_append, List.length_replicate, hj, if_true, List.getElem?_replicate]
          rw [this]
          intro h
          cases h
          exact hne rfl
      have hnk : n = k := by
        rcases Nat.lt_trichotomy n k with h' | h' | h'
        · exfalso
          have h0 := congrArg (fun l => l[n]?) hE
          simp only [List.getElem?_append, List.length_replicate, lt_irrefl, if_false, h', if_true, List.getElem?_replicate, Nat.sub_self] at h0
          exact tail l n hl h0
        · exact h'
        · exfalso
          have h0 := congrArg (fun l => l[k]?) hE
          simp only [List.getElem?_append, List.length_replicate, lt_irrefl, if_false, h', if_true, List.getElem?_replicate, Nat.sub_self] at h0
          exact tail m k hm h0.symm
      subst hnk
      have := List.append_cancel_left hE
      rw [ih m ⟨fun x hx => hl.1 x (by simp [hx]), hl.2.tail⟩ ⟨fun x hx => hm.1 x (by simp [hx]), hm.2.tail⟩ this]

/-- Finding: `clear()` leaves `length()` unchanged. -/
theorem clear_length_finding : (RunLength.clear (⟨3, #[('a', 3)]⟩ : RunLength.State Char)).length = 3 := rfl

/-- Finding: `swap` exchanges the runs but not the lengths. -/
theorem swap_length_finding :
    RunLength.swap (⟨3, #[('a', 3)]⟩ : RunLength.State Char) ⟨0, #[]⟩ = (⟨3, #[]⟩, ⟨0, #[('a', 3)]⟩) := rfl

end RunLength

example : (encode #[1, 1, 2] [(2, 3), (5, 1)]).map (fun s => (s.comp.toList, s.length)) = .ok ([(1, 2), (2, 4), (5, 1)], 7) := by decide

/-! ## C38 -/

/-- `p` contains every number below `n` exactly once. -/
def IsPermutation (p : Array Nat) (n : Nat) : Prop := p.size = n ∧ (∀ i < n, at' 0 p i < n) ∧ ∀ i < n, ∀ j < n, at' 0 p i = at' 0 p j → i = j

/-- C38: `permute` and `inv_permute`. -/
theorem permutation_permute {α : Type} (d : α) (p : Array Nat) (a : Array α) (hp : IsPermutation p a.size) :
    (∃ b, Permutation.permute d p a = .ok b ∧ b.size = a.size ∧ ∀ i < a.size, b[i]? = a[at' 0 p i]?) ∧
    ∃ b, Permutation.invPermute d p a = .ok b ∧ b.size = a.size ∧ ∀ i < a.size, b[at' 0 p i]? = a[i]? :=
  ⟨Permutation.permute_tot d p a (by rw [hp.1]) hp.2.1, Permutation.invPermute_tot d p a ⟨hp.1, hp.2⟩⟩

/-- C38: `(p * q)[i] = p[q[i]]`, and the product is a permutation. -/
theorem permutation_mul (n : Nat) (p q : Array Nat) (hp : IsPermutation p n) (hq : IsPermutation q n) :
    ∃ r, Permutation.mul p q = .ok r ∧ IsPermutation r n ∧ ∀ i < n, at' 0 r i = at' 0 p (at' 0 q i) := by
  obtain ⟨r, h1, h2, h3⟩ := Permutation.permute_tot 0 q p (by rw [hp.1, hq.1]) (by rw [hp.1]; exact hq.2.1)
  rw [hp.1] at h2 h3
  have h4 : ∀ i < n, at' 0 r i = at' 0 p (at' 0 q i) := fun i hi => by
    have := congrArg (fun o => o.getD 0) (h3 i hi)
    exact this
  refine ⟨r, h1, ⟨h2, ?_, ?_⟩, h4⟩
  · intro i hi
    rw [h4 i hi]
    exact hp.2.1 _ (hq.2.1 i hi)
  · intro i hi j hj h
    rw [h4 i hi, h4 j hj] at h
    exact hq.2.2 i hi j hj (hp.2.2 _ (hq.2.1 i hi) _ (hq.2.1 j hj) h)

/-- C38: `inv` is a two-sided inverse. -/
theorem permutation_inv (n : Nat) (p : Array Nat) (hp : IsPermutation p n) :
    ∃ q, Permutation.inv p = .ok q ∧ IsPermutation q n ∧ (∀ i < n, at' 0 q (at' 0 p i) = i) ∧ ∀ i < n, at' 0 p (at' 0 q i) = i := by
  obtain ⟨q, h1, h2, h3⟩ := Permutation.inv_tot p n ⟨hp.1, hp.2⟩
  obtain ⟨h4, h5⟩ := Permutation.inverse_spec hp.2 h3
  exact ⟨q, h1, ⟨h2, h4⟩, h3, h5⟩

/-- C38: `pow(k)` is the `k`-fold iterate, when `k + n` does not overflow. -/
theorem permutation_pow (n : Nat) (p : Array Nat) (hp : IsPermutation p n) (k : Nat) (hk : (k : Int) + n < 2 ^ 63) :
    ∃ q, Permutation.pow p k = .ok q ∧ q.size = n ∧ ∀ i < n, at' 0 q i = (at' 0 p)^[k] i :=
  Permutation.pow_tot p n ⟨hp.1, hp.2⟩ k hk

/-- Finding: `(j + k) % l` overflows for `k` close to the maximum of `long long`. -/
theorem permutation_pow_overflow_finding : Permutation.pow #[1, 0] (2 ^ 63 - 1) = .error .ub := by decide

/-- C38: if `n!` fits the hash type, `hash` maps the permutations of size `n` to `[0, n!)` and `unhash` undoes it. -/
theorem permutation_unhash_hash (lim n : Nat) (hlim : n.factorial ≤ lim) (p : Array Nat) (hp : IsPermutation p n) :
    ∃ h, Permutation.hash lim p = .ok h ∧ h < n.factorial ∧ Permutation.unhash n h = .ok p := by
  refine ⟨_, Permutation.hash_tot lim p n ⟨hp.1, hp.2⟩ hlim, Permutation.enc_lt n hp.2, ?_⟩
  rw [← tot_eq]
  refine (Permutation.unhash_tot n _).mono ?_
  rintro q ⟨h1, h2⟩
  apply Array.ext (by rw [h1, hp.1])
  intro i hi1 hi2
  have h3 := h2 i (by omega)
  rw [Permutation.unOf_enc n hp.2 i (by omega)] at h3
  simpa [at', hi1, hi2] using h3

/-- C38: conversely `unhash` gives a permutation whose hash is the given number. -/
theorem permutation_hash_unhash (lim n : Nat) (hlim : n.factorial ≤ lim) (h : Nat) (hh : h < n.factorial) :
    ∃ p, Permutation.unhash n h = .ok p ∧ IsPermutation p n ∧ Permutation.hash lim p = .ok h := by
  obtain ⟨p, h1, h2, h3⟩ := Permutation.unhash_tot n h
  have hp := (Permutation.unOf_perm n h).congr h3
  refine ⟨p, h1, ⟨h2, hp⟩, ?_⟩
  rw [Permutation.hash_tot lim p n ⟨h2, hp⟩ hlim, Permutation.enc_congr n h3, Permutation.enc_unOf, Nat.mod_eq_of_lt hh]

example : IsPermutation #[2, 0, 1] 3 := by
  refine ⟨rfl, ?_, ?_⟩ <;> decide
example : (Permutation.hash (2 ^ 32) #[2, 0, 1] >>= Permutation.unhash 3) = .ok #[2, 0, 1] := by decide
example : Permutation.pow #[1, 2, 0] 4 = .ok #[1, 2, 0] := by decide

/-! ## C39, C68 -/

/-- C39: with `f(l)` false, `f(r)` true, `f` monotone on `[l, r]` and `r - l` representable, `binary_search(l, r, f)` returns the least true point. -/
theorem binary_search_boundary (f : Int → Bool) (l r : Int) (hl : -2 ^ 63 ≤ l) (hr : r < 2 ^ 63) (hd : r - l < 2 ^ 63)
    (hfl : f l = false) (hfr : f r = true) (hlr : l ≤ r) (hmono : ∀ x y, l ≤ x → x ≤ y → y ≤ r → f x = true → f y = true) :
    ∃ x, Search.binarySearch f l r = .ok x ∧ l < x ∧ x ≤ r ∧ ∀ y, l ≤ y → y ≤ r → (f y = true ↔ x ≤ y) := by
  have hne : l ≠ r := by rintro rfl; rw [hfl] at hfr; cases hfr
  suffices H : Tot (Search.binarySearch f l r) fun x => l < x ∧ x ≤ r ∧ ∀ y, l ≤ y → y ≤ r → (f y = true ↔ x ≤ y) from H
  rw [Search.binarySearch, decide_eq_true hlr, check_true, ok_bind, hfl, Bool.not_false, check_true, ok_bind, hfr, check_true, ok_bind]
  refine Tot.bind (Search.bisect_tot f l r hl hr hd (l, r) ⟨le_refl _, by dsimp only; omega, le_refl _, hfl, hfr⟩) ?_
  rintro ⟨a, b⟩ ⟨⟨h1, h2, h3, h4, h5⟩, h6⟩
  dsimp only at h1 h2 h3 h4 h5 h6
  refine Tot.pure ⟨by dsimp only; omega, h3, ?_⟩
  intro y hy1 hy2
  dsimp only
  constructor
  · intro hy
    by_contra hlt
    have := hmono y a hy1 (by omega) (by omega) hy
    rw [h4] at this
    cases this
  · intro h
    exact hmono b y (by omega) h hy2 h5

/-- Finding: the difference of the end points overflows on the full range. -/
theorem binary_search_overflow_finding : Search.binarySearch (fun x => decide (0 ≤ x)) (-2 ^ 63) (2 ^ 63 - 1) = .error .ub := by decide

/-- C39: `binary_search_exponential(l, f)` returns the least true point above `l` when some true `t` is close enough not to overflow. -/
theorem binary_search_exponential_boundary (f : Int → Bool) (l t : Int) (hl : -2 ^ 63 ≤ l) (hfl : f l = false) (hlt : l < t) (hft : f t = true)
    (h1 : 2 * (t - l) ≤ 2 ^ 63) (h2 : l + 2 * (t - l) ≤ 2 ^ 63) (hmono : ∀ x y, l ≤ x → x ≤ y → f x = true → f y = true) :
    ∃ x, Search.binarySearchExp f l = .ok x ∧ l < x ∧ ∀ y, l ≤ y → (f y = true ↔ x ≤ y) := by
  suffices H : Tot (Search.binarySearchExp f l) fun x => l < x ∧ ∀ y, l ≤ y → (f y = true ↔ x ≤ y) from H
  rw [Search.binarySearchExp, hfl, Bool.not_false, check_true, ok_bind]
  refine Tot.bind (Search.exp_tot f l t hl hlt hft hmono h1 h2) ?_
  rintro w ⟨hw1, hw2, hfw⟩
  rw [i64_ok (x := l + w) ⟨by omega, by omega⟩, ok_bind]
  refine Tot.bind (Search.bisect_tot f l (l + w) hl (by omega) (by omega) (l, l + w) ⟨le_refl _, by dsimp only; omega, le_refl _, hfl, hfw⟩) ?_
  rintro ⟨a, b⟩ ⟨⟨h1, h2, h3, h4, h5⟩, h6⟩
  dsimp only at h1 h2 h3 h4 h5 h6
  refine Tot.pure ⟨by dsimp only; omega, ?_⟩
  intro y hy1
  dsimp only
  constructor
  · intro hy
    by_contra hlt
    have := hmono y a hy1 (by omega) hy
    rw [h4] at this
    cases this
  · intro h
    exact hmono b y (by omega) h h5

/-- Finding: with the boundary above `2^62` the step doubles past the range. -/
theorem binary_search_exponential_overflow_finding :
    Search.binarySearchExp (fun x => decide (2 ^ 62 < x)) 0 = .error .ub := by decide +kernel

example : Search.binarySearch (fun x => decide (37 ≤ x * x)) 0 100 = .ok 7 := by decide
example : Search.binarySearchExp (fun x => decide (37 ≤ x * x)) 0 = .ok 7 := by decide

section Ternary
variable {β : Type} [AddCommGroup β] [LinearOrder β] [IsOrderedAddMonoid β]

/-- C68: for a function that is convex on `[l, r]`, `ternary_search_key<Convex>` returns a point where it is least. -/
theorem ternary_search_convex (f : Int → β) (l r : Int) (hl : -2 ^ 63 ≤ l) (hlr : l ≤ r) (hr : r < 2 ^ 63 - 1) (hd : r - l < 2 ^ 63)
    (hf : ∀ x, l ≤ x → x + 2 ≤ r → f (x + 1) - f x ≤ f (x + 2) - f (x + 1)) :
    ∃ x, Search.ternaryKey (fun x y => decide (f x > f y)) l r = .ok x ∧ l ≤ x ∧ x ≤ r ∧ ∀ z, l ≤ z → z ≤ r → f x ≤ f z :=
  Search.key_tot f l r hf hl hlr hr hd

/-- C68: for a concave function, `ternary_search_key<Concave>` returns a point where it is greatest. -/
theorem ternary_search_concave (f : Int → β) (l r : Int) (hl : -2 ^ 63 ≤ l) (hlr : l ≤ r) (hr : r < 2 ^ 63 - 1) (hd : r - l < 2 ^ 63)
    (hf : ∀ x, l ≤ x → x + 2 ≤ r → f (x + 2) - f (x + 1) ≤ f (x + 1) - f x) :
    ∃ x, Search.ternaryKey (fun x y => decide (f x < f y)) l r = .ok x ∧ l ≤ x ∧ x ≤ r ∧ ∀ z, l ≤ z → z ≤ r → f z ≤ f x := by
  obtain ⟨x, h1, h2, h3, h4⟩ := Search.key_tot (fun x => - f x) l r (fun x hx1 hx2 => by
    have := neg_le_neg (hf x hx1 hx2)
    simpa [sub_eq_add_neg, add_comm] using this) hl hlr hr hd
  refine ⟨x, ?_, h2, h3, fun z hz1 hz2 => by simpa using h4 z hz1 hz2⟩
  rw [← h1]
  congr 1
  funext x y
  simp

/-- Finding: with `r` the largest value of the type, `++y` overflows. -/
theorem ternary_search_overflow_finding : Search.ternaryKey (fun x y => decide (x > y)) (2 ^ 63 - 2) (2 ^ 63 - 1) = .error .ub := by decide

end Ternary

example : Search.ternaryKey (fun x y => decide ((x - 7) * (x - 7) > (y - 7) * (y - 7))) (-100) 100 = .ok 7 := by decide

/-! ## C40, C69 -/

section Sums
variable {α : Type} [AddCommGroup α]

/-- A `CumulativeSum` built from a vector, then `push_back` calls. -/
def cumulative (a : Array α) (vs : List α) : M (CumulativeSum.State α) := do
  let c ← CumulativeSum.ofVector 0 (· + ·) a
  forEach vs c (CumulativeSum.pushBack 0 (· + ·))

/-- C40: `sum(l, r)` is the sum of the elements in `[l, r)` of the whole sequence. -/
theorem cumulative_sum (a : Array α) (vs : List α) :
    ∃ c, cumulative a vs = .ok c ∧ ∀ l r, l ≤ r → r ≤ (a.toList ++ vs).length →
      CumulativeSum.sum (· - ·) c l r = .ok (((a.toList ++ vs).take r).drop l).sum := by
  have H : Tot (cumulative a vs) fun c => CumulativeSum.Rep c (a.toList ++ vs) := by
    rw [cumulative]
    refine Tot.bind (CumulativeSum.ofVector_tot a) fun c hc => ?_
    refine Tot.forEach (P := fun done c => CumulativeSum.Rep c (a.toList ++ done)) (by simpa using hc) ?_
    intro pre x post c _ hc
    rw [← List.append_assoc]
    exact CumulativeSum.push_tot c _ hc x
  obtain ⟨c, h1, h2⟩ := H
  exact ⟨c, h1, fun l r hl hr => CumulativeSum.sum_tot c _ h2 l r hl hr⟩

/-- Finding: `CumulativeSum<T> c;` leaves the length indeterminate, and `push_back` increments it. -/
theorem cumulative_default_finding (v : α) : CumulativeSum.pushBack 0 (· + ·) CumulativeSum.defaultInit v = .error .ub := rfl

/-- C40: on a rectangular grid, `(u, d, l, r)` is the sum over rows `[u, d)` and columns `[l, r)`; invalid ranges give zero. -/
theorem cumulative_sum_2d (n m : Nat) (a : Array (Array α)) (A : Nat → Nat → α) (hn : a.size = n) (hm : n = 0 → m = 0)
    (ha : ∀ i < n, ∃ row, a[i]? = some row ∧ row.size = m ∧ ∀ j < m, row[j]? = some (A i j)) :
    ∃ c, CumulativeSum2D.ofGrid 0 (· + ·) (· - ·) a = .ok c ∧ ∀ u d l r,
      CumulativeSum2D.sum 0 (· + ·) (· - ·) c u d l r =
        .ok (if u ≤ d ∧ d ≤ n ∧ l ≤ r ∧ r ≤ m then ∑ i ∈ Finset.Ico u d, ∑ j ∈ Finset.Ico l r, A i j else 0) := by
  subst hn
  obtain ⟨c, h1, h2, h3, h4⟩ := CumulativeSum2D.ofGrid_tot a A m
    (fun r hr => by
      obtain ⟨row, g1, g2, -⟩ := ha 0 (Array.getElem?_eq_some_iff.1 hr).1
      rw [g1] at hr
      cases hr
      exact g2) hm
    (fun i hi j hj => by
      obtain ⟨row, g1, g2, g3⟩ := ha i hi
      rw [CumulativeSum2D.get2, g1, Option.bind_some, g3 j hj])
  refine ⟨c, h1, fun u d l r => ?_⟩
  rw [CumulativeSum2D.sum, h2, h3]
  split
  · rename_i hc
    obtain ⟨g1, g2, g3, g4⟩ := hc
    rw [CumulativeSum2D.rd2_some (h4 d g2 r g4), ok_bind, CumulativeSum2D.rd2_some (h4 u (by omega) l (by omega)), ok_bind,
      CumulativeSum2D.rd2_some (h4 u (by omega) r g4), ok_bind, CumulativeSum2D.rd2_some (h4 d g2 l (by omega)), ok_bind,
      ← CumulativeSum2D.S_rect A g1 g3]
    rfl
  · rfl

/-- C69: for `0 ≤ k < step`, if the vector has an element of class `k` or the range is trivially empty, `sum(k, l, r)` is the sum of the
elements with index `≡ k (mod step)` in `[l, r)`. -/
theorem step_sum (a : Array α) (A : Nat → α) (hA : ∀ i < a.size, a[i]? = some (A i)) (step : Nat) (hs : 0 < step) :
    ∃ c, StepSum.build (· + ·) a step = .ok c ∧ ∀ k l r, k < step → (k < a.size ∨ r ≤ k ∨ r ≤ l ∨ a.size ≤ l) →
      StepSum.sum 0 (· - ·) c k l r = .ok (∑ i ∈ Finset.Ico l (min r a.size), if i % step = k then A i else 0) := by
  obtain ⟨c, h1, h2, h3, h4⟩ := StepSum.build_tot a A hA step hs
  exact ⟨c, h1, fun k l r hk hkn => StepSum.sum_tot c A a.size step hs h2 h3 h4 k l r hk hkn⟩

/-- Finding: `sum(k, l, r)` with `size ≤ k < step` reads outside the vector although the sum is empty. -/
theorem step_sum_finding :
    (StepSum.build (· + ·) #[(7 : Int)] 5 >>= fun c => StepSum.sum 0 (· - ·) c 3 0 4) = .error .ub := by decide

end Sums

example : (cumulative #[(1 : Int), 2, 3] [4, 5] >>= fun c => CumulativeSum.sum (· - ·) c 1 5) = .ok 14 := by decide
example : (CumulativeSum2D.ofGrid (0 : Int) (· + ·) (· - ·) #[#[1, 2], #[3, 4]] >>= fun c =>
    CumulativeSum2D.sum 0 (· + ·) (· - ·) c 1 2 0 2) = .ok 7 := by decide
example : (StepSum.build (· + ·) #[(1 : Int), 2, 3, 4, 5] 2 >>= fun c => StepSum.sum 0 (· - ·) c 1 2 5) = .ok 4 := by decide

/-! ## C41 -/

/-- C41: `all_subset(s)` on a `w`-bit unsigned type visits every submask of `s` once, in decreasing order, for every `s` but the full mask. -/
theorem all_subset (w s : Nat) (hs : s + 1 < 2 ^ w) :
    SubsetIter.allSubset w s = .ok ((List.range (s + 1)).filter fun u => u &&& s = u).reverse := SubsetIter.subset_tot w s hs

/-- Finding: for the full mask nothing is visited (`s + 1` wraps to zero). -/
theorem all_subset_full_finding (w : Nat) : SubsetIter.allSubset w (2 ^ w - 1) = .ok [] := SubsetIter.subset_full w

/-- C41: `all_setbit(s)` visits every set bit once, in increasing order. -/
theorem all_setbit (w s : Nat) (hs : s < 2 ^ w) :
    SubsetIter.allSetbit w s = .ok ((List.range w).filter fun i => s.testBit i) := SubsetIter.setbit_tot w s hs

/-- C41: `all_subset_k(s, k)` visits every submask of `s` with `k` set bits once, in increasing order; excluded are the full mask (asserted)
and `k = 1` with only one bit missing. -/
theorem all_subset_k (w s k : Nat) (hs : s < 2 ^ w) (hne : s ≠ 2 ^ w - 1) (hk : k < w)
    (hub : k = 1 → ((List.range w).filter fun i => s.testBit i).length + 1 < w) :
    SubsetIter.allSubsetK w s k =
      .ok ((List.range (2 ^ w)).filter fun u => u &&& s = u ∧ ((List.range w).filter fun i => u.testBit i).length = k) :=
  SubsetIter.subsetK_tot w s k hs hne hk hub

/-- Finding: after the last subset of `all_subset_k(2^(w-1) - 1, 1)` the iterator shifts by the word size. -/
theorem all_subset_k_shift_finding :
    SubsetIter.nextK 32 1 (2 ^ 30) = .error .ub ∧ SubsetIter.nextK 64 1 (2 ^ 62) = .error .ub ∧ SubsetIter.allSubsetK 8 127 1 = .error .ub := by
  refine ⟨?_, ?_, ?_⟩ <;> decide +kernel

example : SubsetIter.allSubset 8 5 = .ok [5, 4, 1, 0] := by decide
example : SubsetIter.allSetbit 8 0b10110 = .ok [1, 2, 4] := by decide
example : SubsetIter.allSubsetK 8 0b10110 2 = .ok [0b110, 0b10010, 0b10100] := by decide +kernel

end UtilProps
