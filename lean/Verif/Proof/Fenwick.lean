import Verif.Model.Fenwick
import Verif.Proof.Bits
import Mathlib.Algebra.BigOperators.Intervals
import Mathlib.Tactic.Abel
import Mathlib.Algebra.BigOperators.Group.Finset.Piecewise

namespace Fenwick
open Cxx Bits

variable {T : Type} [AddCommMonoid T]

/-- The value node `j` must hold. -/
def node (f : Nat → T) (j : Nat) : T := ∑ i ∈ Finset.Ico (j - lowbit j) j, f i

/-- `data` (with index offset `off`) represents the array `f` of length `n`. -/
def Rep (off n : Nat) (f : Nat → T) (data : Array T) : Prop :=
  data.size = n + 1 - off ∧ ∀ j, 0 < j → j ≤ n → data[j - off]? = some (node f j)

theorem node_add (f : Nat → T) (i j : Nat) (v : T) [Decidable (Cov j (i + 1))] :
    node (fun k => f k + if k = i then v else 0) j = node f j + if Cov j (i + 1) then v else 0 := by
  unfold node
  rw [Finset.sum_add_distrib, Finset.sum_ite_eq']
  congr 1
  refine if_congr ?_ rfl rfl
  rw [Finset.mem_Ico]; unfold Cov; omega

theorem addLoop_tot {off n : Nat} {f : Nat → T} {data : Array T} (hoff : off ≤ 1) (h : Rep off n f data) (i : Nat) (v : T) :
    Tot (addLoop (· + ·) off n v (i + 1) data) (Rep off n fun k => f k + if k = i then v else 0) := by
  classical
  unfold addLoop
  refine Tot.bind (P := fun (s : Nat × Array T) => Rep off n (fun k => f k + if k = i then v else 0) s.2) ?_
    (fun s h => Tot.pure h)
  refine Tot.loop (P := fun (s : Nat × Array T) => 0 < s.1 ∧ (∀ j, Cov j s.1 → Cov j (i + 1)) ∧ s.2.size = n + 1 - off ∧
    ∀ j, 0 < j → j ≤ n → s.2[j - off]? = some (node f j + if Cov j (i + 1) ∧ ¬ Cov j s.1 then v else 0))
    (fun s => n + 1 - s.1) ?_ ⟨by simp, fun _ h => h, h.1, fun j h1 h2 => ?_⟩ (by simp)
  · rintro ⟨k, d⟩ ⟨hk, hsub, hsz, hd⟩
    simp only at hk hsub hsz hd
    simp only [addStep]
    by_cases hkn : k ≤ n
    · have hlb := lowbit_pos hk
      rw [if_pos hkn, rd_some (hd k hk hkn), ok_bind, wr_eq (by omega), ok_bind]
      refine Tot.pure ⟨⟨by simp only; omega, ?_, by simpa using hsz, ?_⟩, by simp only; omega⟩
      · intro j hj; exact hsub j ((cov_step hk).mpr (Or.inr hj))
      · intro j h1 h2
        simp only
        rw [get?_set _ _ _ _ (by omega)]
        by_cases e : k - off = j - off
        · have : k = j := by omega
          subst this
          rw [if_pos rfl]
          have c1 := cov_self hk
          have c2 := hsub k c1
          have c3 : ¬ Cov k (k + lowbit k) := fun h => by have := h.2; omega
          simp [c1, c2, c3]
        · rw [if_neg e, hd j h1 h2]
          have : Cov j k ↔ Cov j (k + lowbit k) := by
            rw [cov_step hk]; constructor
            · rintro (rfl | h)
              · exact absurd rfl e
              · exact h
            · exact Or.inr
          simp only [this]
    · rw [if_neg hkn]
      refine Tot.pure ⟨hsz, fun j h1 h2 => ?_⟩
      rw [node_add]
      have : ¬ Cov j k := fun h => by have := h.2; omega
      simp only [hd j h1 h2, this, not_false_eq_true, and_true]
  · simp [h.2 j h1 h2]

theorem sumLoop_tot {off n : Nat} {f : Nat → T} {data : Array T} (h : Rep off n f data) (z : T) {r : Nat}
    (hr : r ≤ n) : sumLoop (· + ·) off data z r = .ok (z + ∑ i ∈ Finset.range r, f i) := by
  rw [← tot_eq]
  unfold sumLoop
  refine Tot.bind (P := fun (s : Nat × T) => s.2 = z + ∑ i ∈ Finset.range r, f i) ?_ (fun s h => Tot.pure h)
  refine Tot.loop (P := fun (s : Nat × T) => s.1 ≤ r ∧ s.2 + ∑ i ∈ Finset.range s.1, f i = z + ∑ i ∈ Finset.range r, f i)
    (fun s => s.1) ?_ ⟨le_rfl, rfl⟩ le_rfl
  rintro ⟨k, s⟩ ⟨hk, hs⟩
  simp only at hk hs
  simp only [sumStep]
  by_cases e : k = 0
  · subst e
    rw [if_pos rfl]
    exact Tot.pure (by simpa using hs)
  · have hpos : 0 < k := by omega
    have hlb := lowbit_pos hpos
    rw [if_neg e, rd_some (h.2 k hpos (by omega)), ok_bind]
    refine Tot.pure ⟨⟨by simp only; omega, ?_⟩, by simp only; omega⟩
    simp only
    rw [← hs, add_assoc]
    congr 1
    rw [add_comm, node, Finset.range_eq_Ico, Finset.sum_Ico_consecutive _ (Nat.zero_le _) (by omega), Finset.range_eq_Ico]

theorem rep_init {off : Nat} (hoff : off ≤ 1) (n : Nat) : Rep off n (fun _ => (0 : T)) (Array.replicate (n + 1 - off) 0) := by
  refine ⟨by simp, fun j h1 h2 => ?_⟩
  rw [Array.getElem?_replicate]
  by_cases h : j - off < n + 1 - off
  · rw [if_pos h]; simp [node]
  · omega

/-- The in-place construction of `FenwickTree(vector)`. -/
theorem build_tot {off n : Nat} (hoff : off ≤ 1) {f : Nat → T} {data : Array T} (hsz : data.size = n + 1 - off)
    (hd : ∀ j, 0 < j → j ≤ n → data[j - off]? = some (f (j - 1))) :
    Tot (forUp 1 (n + 1) data (buildStep (· + ·) off n)) (Rep off n f) := by
  classical
  -- positions summed in node `j` before step `i`
  let S : Nat → Nat → Finset Nat := fun i j =>
    (Finset.range j).filter fun z => z + 1 = j ∨ ∃ c < i, c + lowbit c = j ∧ Cov c (z + 1)
  have hS : ∀ j, 0 < j → S j j = Finset.Ico (j - lowbit j) j := by
    intro j hj
    ext z
    simp only [S, Finset.mem_filter, Finset.mem_range, Finset.mem_Ico]
    constructor
    · rintro ⟨h1, h2⟩
      refine ⟨?_, h1⟩
      rcases h2 with rfl | ⟨c, hc, e, hcov⟩
      · have := lowbit_pos hj; omega
      · have := cov_parent hcov; rw [e] at this; have := this.1; omega
    · rintro ⟨h1, h2⟩
      refine ⟨h2, ?_⟩
      rcases cov_child (j := j) (i := z + 1) ⟨by omega, by omega⟩ with e | ⟨c, hc, hcov⟩
      · exact Or.inl e
      · refine Or.inr ⟨c, ?_, hc, hcov⟩
        have h0 := cov_pos hcov
        have := hcov.2
        have := lowbit_pos (i := c) (by omega); omega
  -- once its index is passed, a node does not change
  have hSge : ∀ i j, j ≤ i → S i j = S j j := by
    intro i j hij
    ext z
    simp only [S, Finset.mem_filter, Finset.mem_range]
    refine and_congr_right fun _ => or_congr_right ⟨?_, ?_⟩
    · rintro ⟨c, hc, e, hcov⟩
      have h0 := cov_pos hcov
      have := hcov.2
      have := lowbit_pos (i := c) (by omega)
      exact ⟨c, by omega, e, hcov⟩
    · rintro ⟨c, hc, e, hcov⟩; exact ⟨c, by omega, e, hcov⟩
  refine (Tot.forUp (P := fun i (d : Array T) => d.size = n + 1 - off ∧
    ∀ j, 0 < j → j ≤ n → d[j - off]? = some (∑ z ∈ S i j, f z)) (by omega) ⟨hsz, fun j h1 h2 => ?_⟩ ?_).mono ?_
  · rw [hd j h1 h2]
    have : S 1 j = {j - 1} := by
      ext z
      simp only [S, Finset.mem_filter, Finset.mem_range, Finset.mem_singleton]
      constructor
      · rintro ⟨h1, h2 | ⟨c, hc, e, hcov⟩⟩
        · omega
        · have := hcov.2; omega
      · rintro rfl; exact ⟨by omega, by omega⟩
    rw [this, Finset.sum_singleton]
  · rintro i d h1 hi ⟨hsz, hd⟩
    have hlb := lowbit_pos (i := i) (by omega)
    have hstep : ∀ j, j ≠ i + lowbit i → S (i + 1) j = S i j := by
      intro j hj
      ext z
      simp only [S, Finset.mem_filter, Finset.mem_range]
      refine and_congr_right fun _ => or_congr_right ⟨?_, ?_⟩
      · rintro ⟨c, hc, e, hcov⟩
        exact ⟨c, by have : c ≠ i := by rintro rfl; exact hj e.symm
                     omega, e, hcov⟩
      · rintro ⟨c, hc, e, hcov⟩; exact ⟨c, by omega, e, hcov⟩
    simp only [buildStep]
    by_cases hp : i + lowbit i ≤ n
    · rw [if_pos hp, rd_some (hd _ (by omega) hp), ok_bind, rd_some (hd i (by omega) (by omega)), ok_bind]
      refine Tot.wr (by omega) ⟨by simpa using hsz, fun j h1 h2 => ?_⟩
      rw [get?_set _ _ _ _ (by omega)]
      by_cases e : i + lowbit i - off = j - off
      · have : i + lowbit i = j := by omega
        subst this
        rw [if_pos rfl]
        have hdis : Disjoint (S i (i + lowbit i)) (S i i) := by
          rw [Finset.disjoint_left]
          intro z hz hz'
          rw [hS i (by omega)] at hz'
          have hz'' := Finset.mem_Ico.mp hz'
          simp only [S, Finset.mem_filter, Finset.mem_range] at hz
          rcases hz.2 with e | ⟨c, hc, e, hcov⟩
          · omega
          · have : c = i := cov_child_unique hcov (⟨by omega, by omega⟩ : Cov i (z + 1)) e
            omega
        rw [← Finset.sum_union hdis]
        congr 2
        ext z
        rw [hS i (by omega)]
        simp only [S, Finset.mem_filter, Finset.mem_range, Finset.mem_union, Finset.mem_Ico]
        constructor
        · rintro (⟨h1, h2⟩ | ⟨h1, h2⟩)
          · refine ⟨h1, h2.imp_right ?_⟩
            rintro ⟨c, hc, e, hcov⟩; exact ⟨c, by omega, e, hcov⟩
          · exact ⟨by omega, Or.inr ⟨i, by omega, rfl, by omega, by omega⟩⟩
        · rintro ⟨h1, h2 | ⟨c, hc, e, hcov⟩⟩
          · exact Or.inl ⟨h1, Or.inl h2⟩
          · by_cases hci : c = i
            · subst hci; right; have := hcov.1; have := hcov.2; omega
            · exact Or.inl ⟨h1, Or.inr ⟨c, by omega, e, hcov⟩⟩
      · rw [if_neg e, hd j h1 h2, hstep j (by rintro rfl; exact e rfl)]
    · rw [if_neg hp]
      refine Tot.pure ⟨hsz, fun j h1 h2 => ?_⟩
      rw [hd j h1 h2, hstep j (by omega)]
  · rintro d ⟨hsz, hd⟩
    refine ⟨hsz, fun j h1 h2 => ?_⟩
    rw [hd j h1 h2, hSge _ _ (by omega), hS j h1]; rfl

end Fenwick

namespace FenwickTree2D
open Cxx Bits
open Fenwick (Rep)

variable {T : Type} [AddCommGroup T]

/-- `s` represents the `n × m` matrix `f`: row `x` is the Fenwick tree of the column sums over the rows `x` is responsible
for. -/
def Rep2 (n m : Nat) (f : Nat → Nat → T) (s : State T) : Prop :=
  s.m = m ∧ s.data.size = n ∧ ∀ x, 0 < x → x ≤ n → ∃ row, s.data[x - 1]? = some row ∧
    Rep 1 m (fun j => ∑ i ∈ Finset.Ico (x - lowbit x) x, f i j) row

theorem rep2_init (n m : Nat) : Rep2 n m (fun _ _ => (0 : T)) (init n m) := by
  refine ⟨rfl, by simp [init], fun x h1 h2 => ⟨Array.replicate m 0, ?_, ?_⟩⟩
  · simp only [init]; rw [Array.getElem?_replicate, if_pos (by omega)]
  · simpa using Fenwick.rep_init (T := T) le_rfl m

theorem add_tot {n m : Nat} {f : Nat → Nat → T} {s : State T} (h : Rep2 n m f s) (i j : Nat) (v : T) :
    Tot (add s i j v) (Rep2 n m fun a b => f a b + if a = i ∧ b = j then v else 0) := by
  classical
  obtain ⟨hm, hn, h⟩ := h
  unfold add
  refine Tot.bind (P := fun (t : Nat × Array (Array T)) => Rep2 n m (fun a b => f a b + if a = i ∧ b = j then v else 0) ⟨s.m, t.2⟩) ?_
    (fun s h => Tot.pure h)
  have key : ∀ x b : Nat, ∑ a ∈ Finset.Ico (x - lowbit x) x, (f a b + if a = i ∧ b = j then v else 0) =
      (∑ a ∈ Finset.Ico (x - lowbit x) x, f a b) + if b = j then (if Cov x (i + 1) then v else 0) else 0 := by
    intro x b
    rw [Finset.sum_add_distrib]
    congr 1
    by_cases hb : b = j
    · simp only [hb, and_true, if_true]
      rw [Finset.sum_ite_eq']
      refine if_congr ?_ rfl rfl
      rw [Finset.mem_Ico]; unfold Cov; omega
    · simp [hb]
  refine Tot.loop (P := fun (t : Nat × Array (Array T)) => 0 < t.1 ∧ (∀ x, Cov x t.1 → Cov x (i + 1)) ∧ t.2.size = n ∧
    ∀ x, 0 < x → x ≤ n → ∃ row, t.2[x - 1]? = some row ∧
      Rep 1 m (fun b => (∑ a ∈ Finset.Ico (x - lowbit x) x, f a b) +
        if b = j then (if Cov x (i + 1) ∧ ¬ Cov x t.1 then v else 0) else 0) row)
    (fun t => n + 1 - t.1) ?_ ⟨by simp, fun _ h => h, hn, fun x h1 h2 => ?_⟩ (by simp [hn])
  · rintro ⟨k, d⟩ ⟨hk, hsub, hsz, hd⟩
    simp only at hk hsub hsz hd
    simp only [addRow, hn]
    by_cases hkn : k ≤ n
    · have hlb := lowbit_pos hk
      obtain ⟨row, hrow, hrep⟩ := hd k hk hkn
      have c1 := cov_self hk
      have c2 := hsub k c1
      have c3 : ¬ Cov k (k + lowbit k) := fun h => by have := h.2; omega
      simp only [c1, c2, not_true, and_false, if_false, ite_self, add_zero] at hrep
      rw [if_pos hkn, rd_some hrow, ok_bind, hm]
      refine Tot.bind (Fenwick.addLoop_tot le_rfl hrep j v) fun row' hrow' => ?_
      rw [wr_eq (by omega), ok_bind]
      refine Tot.pure ⟨⟨by simp only; omega, ?_, by simpa using hsz, ?_⟩, by simp only; omega⟩
      · intro x hx; exact hsub x ((cov_step hk).mpr (Or.inr hx))
      · intro x h1 h2
        simp only
        rw [get?_set _ _ _ _ (by omega)]
        by_cases e : k - 1 = x - 1
        · have : k = x := by omega
          subst this
          rw [if_pos rfl]
          exact ⟨row', rfl, by simpa [c2, c3] using hrow'⟩
        · rw [if_neg e]
          obtain ⟨row, g1, g2⟩ := hd x h1 h2
          refine ⟨row, g1, ?_⟩
          have : Cov x k ↔ Cov x (k + lowbit k) := by
            rw [cov_step hk]; constructor
            · rintro (rfl | h)
              · exact absurd rfl e
              · exact h
            · exact Or.inr
          simpa only [this] using g2
    · rw [if_neg hkn]
      refine Tot.pure ⟨hm, hsz, fun x h1 h2 => ?_⟩
      obtain ⟨row, g1, g2⟩ := hd x h1 h2
      refine ⟨row, g1, ?_⟩
      have : ¬ Cov x k := fun h => by have := h.2; omega
      simp only [key]
      simpa only [this, not_false_eq_true, and_true] using g2
  · obtain ⟨row, g1, g2⟩ := h x h1 h2
    exact ⟨row, g1, by simpa using g2⟩

theorem prefixSum_eq {n m : Nat} {f : Nat → Nat → T} {s : State T} (h : Rep2 n m f s) {xr yr : Nat} (hx : xr ≤ n) (hy : yr ≤ m) :
    prefixSum s xr yr = .ok (∑ i ∈ Finset.range xr, ∑ j ∈ Finset.range yr, f i j) := by
  rw [← tot_eq]
  unfold prefixSum
  refine Tot.bind (P := fun (t : Nat × T) => t.2 = ∑ i ∈ Finset.range xr, ∑ j ∈ Finset.range yr, f i j) ?_
    (fun s h => Tot.pure h)
  refine Tot.loop (P := fun (t : Nat × T) => t.1 ≤ xr ∧
      t.2 + ∑ i ∈ Finset.range t.1, ∑ j ∈ Finset.range yr, f i j = ∑ i ∈ Finset.range xr, ∑ j ∈ Finset.range yr, f i j)
    (fun t => t.1) ?_ ⟨le_rfl, by simp⟩ le_rfl
  rintro ⟨k, acc⟩ ⟨hk, hacc⟩
  simp only at hk hacc
  simp only [sumRow]
  by_cases e : k = 0
  · subst e
    rw [if_pos rfl]
    exact Tot.pure (by simpa using hacc)
  · have hpos : 0 < k := by omega
    have hlb := lowbit_pos hpos
    obtain ⟨row, g1, g2⟩ := h.2.2 k hpos (by omega)
    rw [if_neg e, rd_some g1, ok_bind, Fenwick.sumLoop_tot g2 _ hy, ok_bind]
    refine Tot.pure ⟨⟨by simp only; omega, ?_⟩, by simp only; omega⟩
    simp only
    rw [← hacc, add_assoc]
    congr 1
    rw [Finset.sum_comm, add_comm]
    simp only [Finset.range_eq_Ico]
    rw [Finset.sum_Ico_consecutive _ (Nat.zero_le _) (by omega)]

theorem sum_eq {n m : Nat} {f : Nat → Nat → T} {s : State T} (h : Rep2 n m f s) {xl xr yl yr : Nat} (hxl : xl ≤ xr) (hx : xr ≤ n)
    (hyl : yl ≤ yr) (hy : yr ≤ m) :
    sum s xl xr yl yr = .ok (∑ i ∈ Finset.Ico xl xr, ∑ j ∈ Finset.Ico yl yr, f i j) := by
  unfold sum
  rw [prefixSum_eq h hx hy, ok_bind, prefixSum_eq h (hxl.trans hx) hy, ok_bind, prefixSum_eq h hx (hyl.trans hy), ok_bind,
    prefixSum_eq h (hxl.trans hx) (hyl.trans hy), ok_bind]
  simp only [pure_eq]
  congr 1
  have e1 : ∀ i, ∑ j ∈ Finset.Ico yl yr, f i j = ∑ j ∈ Finset.range yr, f i j - ∑ j ∈ Finset.range yl, f i j := fun i =>
    Finset.sum_Ico_eq_sub _ hyl
  simp only [e1]
  rw [Finset.sum_sub_distrib, Finset.sum_Ico_eq_sub _ hxl, Finset.sum_Ico_eq_sub _ hxl]
  abel

end FenwickTree2D
