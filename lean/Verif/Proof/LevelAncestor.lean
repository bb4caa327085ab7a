import Verif.Model.LevelAncestor
import Verif.Proof.PreOrder
import Verif.Proof.CountSort

/-! # Proofs about `library/tree/level_ancestor.hpp` -/

namespace LevelAncestor
open Cxx Graph Tree

/-- The effect of visiting the children `F` of `u`. -/
structure Post (u : Nat) (F : Forest) (s t : St) : Prop where
  time : t.time = s.time + F.size
  vsize : t.vis.size = s.vis.size
  isize : t.inv.size = s.inv.size
  dsize : t.dep.size = s.dep.size
  csize : t.cnt.size = s.cnt.size
  vis : ∀ x, at' 0 t.vis x = if x ∈ F.pre then s.time + F.pre.idxOf x else at' 0 s.vis x
  inv : ∀ j, at' 0 t.inv j = if s.time ≤ j ∧ j < s.time + F.size then F.pre[j - s.time]?.getD 0 else at' 0 s.inv j
  dep : ∀ x, at' 0 t.dep x = if x ∈ F.pre then at' 0 s.dep u + (F.path x).length else at' 0 s.dep x
  cnt : ∀ d, at' 0 t.cnt d = at' 0 s.cnt d + F.pre.countP fun x => decide (at' 0 s.dep u + (F.path x).length + 1 = d)

theorem kids_dfs {g : Array (List Nat)} (F : Forest) : ∀ (u : Nat) (p : Option Nat) (fuel : Nat) (l : List Nat) (s : St), (l.filter fun w => decide (some w ≠ p)) = F.roots → F.Fits g (some u) →
    F.height ≤ fuel → (u :: F.pre).Nodup → u < g.size → s.vis.size = g.size → s.inv.size = g.size → s.dep.size = g.size → s.cnt.size = g.size + 1 → s.time + F.size ≤ g.size →
    at' 0 s.dep u + F.height < g.size → Tot (forEach l s (kid u p (dfs g fuel))) (Post u F s) := by
  induction F with
  | nil =>
    intro u p fuel l s hl hf hh hn hu s1 s2 s3 s4 s5 d1
    rw [kids_nil (q := fun w => decide (some w ≠ p)) (fun s x hx => by simp at hx; rw [kid, if_neg (by simp [hx])]; rfl) hl]
    refine Tot.pure ⟨rfl, rfl, rfl, rfl, rfl, fun x => by simp [Forest.pre], fun j => ?_, fun x => by simp [Forest.pre], fun d => by simp [Forest.pre]⟩
    rw [if_neg (by simp)]
  | cons v ch rest ih1 ih2 =>
    intro u p fuel l s hl hf hh hn hu s1 s2 s3 s4 s5 d1
    obtain ⟨hv, f1, f2, f3⟩ := hf
    have hn' := hn
    rw [Forest.pre, List.nodup_cons, List.nodup_cons, List.mem_cons, List.mem_append, List.mem_append, List.nodup_append] at hn'
    obtain ⟨m1, m2, m3, m4, m5⟩ := hn'
    have huv : u ≠ v := fun e => m1 (Or.inl e)
    have n1 : (v :: ch.pre).Nodup := List.nodup_cons.2 ⟨fun h => m2 (Or.inl h), m3⟩
    have n2 : (u :: rest.pre).Nodup := List.nodup_cons.2 ⟨fun h => m1 (Or.inr (Or.inr h)), m4⟩
    simp only [Forest.height] at hh d1
    simp only [Forest.size_cons] at s5
    obtain ⟨fuel, rfl⟩ : ∃ f, fuel = f + 1 := ⟨fuel - 1, by omega⟩
    have hvp : some v ≠ p := by
      obtain ⟨a, b, -, -, h, -⟩ := kids_cons hl
      simpa using h
    refine kids_tot (q := fun w => decide (some w ≠ p)) (R := rest.roots) (v := v) (fun s x hx => by simp at hx; rw [kid, if_neg (by simp [hx])]; rfl) hl ?_
    have hset : ∀ y, at' 0 (s.dep.setIfInBounds v (at' 0 s.dep u + 1)) y = if y = v then at' 0 s.dep u + 1 else at' 0 s.dep y := fun y => at_set' 0 (by omega) _ y
    have hsv := hset v
    rw [if_pos rfl] at hsv
    rw [kid, if_pos hvp, setDep, rd_at 0 (by omega), ok_bind, wr_eq (by omega), ok_bind]
    simp only [pure_eq, ok_bind]
    rw [dfs, enter, wr_eq (by show v < s.vis.size; omega), ok_bind, wr_eq (by show s.time < s.inv.size; omega), ok_bind, rd_at 0 (by simp; omega), ok_bind]
    simp only [hsv]
    rw [rd_at 0 (by omega), ok_bind, wr_eq (by omega), ok_bind]
    simp only [pure_eq, ok_bind]
    rw [rd_some (adj_eq hv), ok_bind]
    refine (ih1 v (some u) fuel (adj g v) _ f1.symm f2 (by omega) n1 hv (by simpa using s1) (by simpa using s2) (by simpa using s3) (by simpa using s4) (by dsimp only; omega)
      (by dsimp only; rw [hsv]; omega)).mono fun t ht => ?_
    have tk := ht.time
    have tv := ht.vsize
    have ti := ht.isize
    have td := ht.dsize
    have tc := ht.csize
    have tvis := ht.vis
    have tinv := ht.inv
    have tdep := ht.dep
    have tcnt := ht.cnt
    simp only [Array.size_setIfInBounds] at tk tv ti td tc tvis tinv tdep tcnt
    have hdu : at' 0 t.dep u = at' 0 s.dep u := by
      rw [tdep, if_neg (fun h => m1 (Or.inr (Or.inl h))), hset, if_neg huv]
    intro b _ hb
    refine (ih2 u p (fuel + 1) b _ hb f3 (by omega) n2 hu (by omega) (by omega) (by omega) (by omega) (by omega) (by omega)).mono fun w hw => ?_
    have wk := hw.time
    have wv := hw.vsize
    have wi := hw.isize
    have wd := hw.dsize
    have wc := hw.csize
    have wvis := hw.vis
    have winv := hw.inv
    have wdep := hw.dep
    have wcnt := hw.cnt
    have hlen : ch.pre.length = ch.size := rfl
    refine ⟨by simp only [Forest.size_cons]; omega, by omega, by omega, by omega, by omega, fun x => ?_, fun j => ?_, fun x => ?_, fun d => ?_⟩
    · rw [wvis, tvis, at_set' 0 (by omega)]
      simp only [Forest.pre, List.mem_cons, List.mem_append]
      by_cases hxv : x = v
      · subst hxv
        rw [if_neg (fun h => m2 (Or.inr h)), if_neg (fun h => m2 (Or.inl h))]
        simp
      · rw [List.idxOf_cons_ne _ (Ne.symm hxv), List.idxOf_append]
        by_cases hxc : x ∈ ch.pre
        · rw [if_neg (fun h => m5 x hxc x h rfl)]
          simp only [hxv, hxc, if_true, if_false, true_or, or_true]
          omega
        · by_cases hxr : x ∈ rest.pre
          · simp only [hxv, hxc, hxr, if_true, if_false, or_true]
            omega
          · simp only [hxv, hxc, hxr, if_false, or_false]
    · rw [winv, tinv, at_set' 0 (by omega)]
      simp only [Forest.pre, Forest.size_cons]
      by_cases h1 : t.time ≤ j ∧ j < t.time + rest.size
      · rw [if_pos h1, if_pos (by omega)]
        obtain ⟨i, rfl⟩ : ∃ i, j = t.time + i := ⟨j - t.time, by omega⟩
        rw [show t.time + i - s.time = (ch.size + i) + 1 by omega, List.getElem?_cons_succ, List.getElem?_append_right (by omega), hlen, Nat.add_sub_cancel_left, Nat.add_sub_cancel_left]
      · rw [if_neg h1]
        by_cases h2 : s.time + 1 ≤ j ∧ j < s.time + 1 + ch.size
        · rw [if_pos h2, if_pos (by omega)]
          obtain ⟨i, rfl⟩ : ∃ i, j = s.time + 1 + i := ⟨j - (s.time + 1), by omega⟩
          rw [show s.time + 1 + i - s.time = i + 1 by omega, List.getElem?_cons_succ, List.getElem?_append_left (by omega), Nat.add_sub_cancel_left]
        · rw [if_neg h2]
          by_cases h3 : j = s.time
          · rw [if_pos h3, if_pos (by omega), h3]
            simp
          · rw [if_neg h3, if_neg (by omega)]
    · rw [wdep, hdu, tdep, hsv, hset]
      simp only [Forest.pre, List.mem_cons, List.mem_append, Forest.path]
      by_cases hxv : x = v
      · subst hxv
        rw [if_neg (fun h => m2 (Or.inr h)), if_neg (fun h => m2 (Or.inl h))]
        simp
      · by_cases hxc : x ∈ ch.pre
        · rw [if_neg (fun h => m5 x hxc x h rfl)]
          simp only [hxv, hxc, if_true, if_false, true_or, or_true, List.length_cons]
          omega
        · by_cases hxr : x ∈ rest.pre <;> simp [hxv, hxc, hxr]
    · rw [wcnt, tcnt, hdu, hsv, at_set' 0 (by omega)]
      simp only [Forest.pre, List.countP_cons, List.countP_append]
      have e1 : ch.pre.countP (fun x => decide (at' 0 s.dep u + ((Forest.cons v ch rest).path x).length + 1 = d)) = ch.pre.countP fun x => decide (at' 0 s.dep u + 1 + (ch.path x).length + 1 = d) := by
        refine List.countP_congr fun x hx => ?_
        rw [Forest.path, if_neg (by rintro rfl; exact m2 (Or.inl hx)), if_pos hx, List.length_cons, decide_eq_true_eq, decide_eq_true_eq]
        omega
      have e2 : rest.pre.countP (fun x => decide (at' 0 s.dep u + ((Forest.cons v ch rest).path x).length + 1 = d)) = rest.pre.countP fun x => decide (at' 0 s.dep u + (rest.path x).length + 1 = d) := by
        refine List.countP_congr fun x hx => ?_
        rw [Forest.path, if_neg (by rintro rfl; exact m2 (Or.inr hx)), if_neg (fun h => m5 x h x hx rfl)]
      rw [e1, e2, show ((Forest.cons v ch rest).path v).length = 1 by rw [Forest.path, if_pos rfl]; rfl]
      simp only [decide_eq_true_eq]
      by_cases hd : d = at' 0 s.dep u + 1 + 1
      · rw [if_pos hd, if_pos hd.symm, ← hd]; omega
      · rw [if_neg hd, if_neg (Ne.symm hd)]; omega

/-- The depth of the `t`-th visited vertex. -/
def key (r : Nat) (F : Forest) (t : Nat) : Nat := Tree.depth r F ((r :: F.pre)[t]?.getD 0)

/-- What the constructor establishes. -/
structure Built (g : Array (List Nat)) (r : Nat) (F : Forest) (t : Obj) : Prop where
  vsize : t.vis.size = g.size
  isize : t.inv.size = g.size
  dsize : t.dep.size = g.size
  csize : t.cnt.size = g.size + 1
  bsize : t.bucket.size = g.size
  vis : ∀ x, x < g.size → at' 0 t.vis x = (r :: F.pre).idxOf x
  inv : t.inv.toList = r :: F.pre
  dep : ∀ x, x < g.size → at' 0 t.dep x = Tree.depth r F x
  cnt : ∀ d, d ≤ g.size → at' 0 t.cnt d = Nat.count (fun i => key r F i < d) g.size
  bucket : ∀ i, i < g.size → at' 0 t.bucket (CountSort.rank (key r F) g.size i) = i

theorem rooted_length {g : Array (List Nat)} {r : Nat} {F : Forest} (h : Rooted g r F) : (r :: F.pre).length = g.size := by
  have := h.perm.length_eq
  simpa using this

theorem depth_ne {r x : Nat} {F : Forest} (h : x ≠ r) : Tree.depth r F x = (F.path x).length := by
  rw [Tree.depth, rpath_ne F h]; rfl

theorem depth_root {r : Nat} {F : Forest} : Tree.depth r F r = 0 := by
  rw [Tree.depth, rpath_root]; rfl

theorem depth_lt {g : Array (List Nat)} {r : Nat} {F : Forest} (hg : IsTree g) (h : Rooted g r F) {x : Nat} (hx : x < g.size) : Tree.depth r F x < g.size := by
  have := path_length_le hg h.lt (h.isPath hx)
  rw [rpath_length] at this
  omega

theorem count_list (L : List Nat) (f : Nat → Nat) (d : Nat) : Nat.count (fun t => f (L[t]?.getD 0) = d) L.length = L.countP fun x => decide (f x = d) := by
  induction L using List.reverseRecOn with
  | nil => simp
  | append_singleton L a ih =>
    rw [List.length_append, List.length_singleton, Nat.count_succ, List.countP_append, ← ih]
    congr 1
    · rw [Nat.count_eq_card_filter_range, Nat.count_eq_card_filter_range]
      congr 1
      ext x
      simp only [Finset.mem_filter, Finset.mem_range, and_congr_right_iff]
      intro hx
      rw [List.getElem?_append_left hx]
    · simp

theorem pref_tot {g : Array (List Nat)} {k : Nat → Nat} {cnt : Array Nat} (h1 : cnt.size = g.size + 1) (h2 : at' 0 cnt 0 = 0)
    (h3 : ∀ d, d < g.size → at' 0 cnt (d + 1) = Nat.count (fun i => k i = d) g.size) :
    Tot (forUp 0 g.size cnt prefStep) fun cnt => cnt.size = g.size + 1 ∧ ∀ d, d ≤ g.size → at' 0 cnt d = Nat.count (fun i => k i < d) g.size := by
  refine (Tot.forUp (P := fun i (cnt : Array Nat) => cnt.size = g.size + 1 ∧ (∀ d, d ≤ i → at' 0 cnt d = Nat.count (fun i => k i < d) g.size) ∧ ∀ d, i ≤ d → d < g.size → at' 0 cnt (d + 1) = Nat.count (fun i => k i = d) g.size) (Nat.zero_le _) ?_ ?_).mono fun c hc => ⟨hc.1, hc.2.1⟩
  · refine ⟨h1, fun d hd => ?_, fun d _ => h3 d⟩
    have : d = 0 := by omega
    subst this
    rw [h2, CountSort.count_lt_zero]
  · rintro i c - hi ⟨k1, k2, k3⟩
    unfold prefStep
    rw [rd_at 0 (by omega), ok_bind, rd_at 0 (by omega), ok_bind, wr_eq (by omega)]
    refine Tot.pure ⟨by simpa using k1, fun d hd => ?_, fun d hd hd' => ?_⟩
    · rw [at_set' 0 (by omega)]
      split
      · next he =>
        subst he
        rw [CountSort.count_lt_succ, k2 i le_rfl, k3 i le_rfl hi, Nat.add_comm]
      · exact k2 d (by omega)
    · rw [at_set' 0 (by omega), if_neg (by omega)]
      exact k3 d (by omega) hd'

theorem make_tot {g : Array (List Nat)} {r : Nat} {F : Forest} (hg : IsTree g) (h : Rooted g r F) : Tot (make g r) (Built g r F) := by
  have hlen := rooted_length h
  have hsz : F.size + 1 = g.size := by simpa [Forest.size] using hlen
  have hn0 := hg.pos
  have hr := h.lt
  have hh := F.height_le
  obtain ⟨f, hf⟩ : ∃ f, g.size = f + 1 := ⟨g.size - 1, by omega⟩
  unfold make
  dsimp only
  have z0 : ∀ n x : Nat, at' 0 (Array.replicate n 0) x = 0 := fun n x => by
    unfold at'
    rw [Array.getElem?_replicate]
    split <;> rfl
  have hdfs : Tot (dfs g g.size r none ⟨0, Array.replicate g.size 0, Array.replicate g.size 0, Array.replicate g.size 0, Array.replicate (g.size + 1) 0⟩) fun s =>
      s.vis.size = g.size ∧ s.inv.size = g.size ∧ s.dep.size = g.size ∧ s.cnt.size = g.size + 1 ∧ (∀ x, x < g.size → at' 0 s.vis x = (r :: F.pre).idxOf x) ∧
      s.inv.toList = r :: F.pre ∧ (∀ x, x < g.size → at' 0 s.dep x = Tree.depth r F x) ∧ at' 0 s.cnt 0 = 0 ∧ ∀ d, d < g.size → at' 0 s.cnt (d + 1) = Nat.count (fun i => key r F i = d) g.size := by
    rw [show dfs g g.size = dfs g (f + 1) by rw [hf], dfs, enter, wr_eq (by simpa using hr), ok_bind, wr_eq (by simpa using hn0), ok_bind, rd_at 0 (by simpa using hr), ok_bind, z0,
      rd_at 0 (by simp; omega), ok_bind, z0, wr_eq (by simp; omega), ok_bind]
    simp only [pure_eq, ok_bind]
    rw [rd_some (adj_eq hr), ok_bind]
    have hnr := List.nodup_cons.1 h.nodup
    refine (kids_dfs F r none f (adj g r) _ (by rw [h.roots]; simp) h.fits (by omega) h.nodup hr (by simp) (by simp) (by simp) (by simp) (by dsimp only; omega) (by dsimp only; rw [z0]; omega)).mono fun s hs => ?_
    have s1 := hs.vsize
    have s2 := hs.isize
    have s3 := hs.dsize
    have s4 := hs.csize
    have s5 := hs.vis
    have s6 := hs.inv
    have s7 := hs.dep
    have s8 := hs.cnt
    simp only [Array.size_setIfInBounds, Array.size_replicate] at s1 s2 s3 s4 s5 s6 s7 s8
    refine ⟨s1, s2, s3, s4, fun x hx => ?_, ?_, fun x hx => ?_, ?_, fun d hd => ?_⟩
    · rw [s5, at_set' 0 (by simpa using hr)]
      by_cases hxr : x = r
      · subst hxr
        rw [if_neg hnr.1]
        simp
      · rw [if_pos (((h.lt_iff x).1 hx).resolve_left hxr), List.idxOf_cons_ne _ (Ne.symm hxr)]
        omega
    · apply List.ext_getElem?
      intro j
      by_cases hj : j < g.size
      · have := s6 j
        rw [at_set' 0 (by simpa using hn0), z0] at this
        unfold at' at this
        rw [Array.getElem?_toList]
        rw [Array.getElem?_eq_getElem (by omega), Option.getD_some] at this
        rw [Array.getElem?_eq_getElem (by omega), this]
        cases j with
        | zero => rw [if_neg (by omega), if_pos rfl]; rfl
        | succ j =>
          rw [if_pos (by omega), List.getElem?_cons_succ, show j + 1 - (0 + 1) = j by omega, List.getElem?_eq_getElem (show j < F.pre.length by have : F.pre.length = F.size := rfl; omega)]
          rfl
      · rw [Array.getElem?_toList, Array.getElem?_eq_none (by omega), List.getElem?_eq_none (by omega)]
    · rw [s7]
      simp only [z0]
      by_cases hxr : x = r
      · subst hxr
        rw [if_neg hnr.1, depth_root]
      · rw [if_pos (((h.lt_iff x).1 hx).resolve_left hxr), depth_ne hxr, Nat.zero_add]
    · rw [s8, at_set' 0 (by simp; omega), if_neg (by omega), z0, z0, Nat.zero_add, List.countP_eq_zero]
      intro x hx
      simp
    · rw [s8, at_set' 0 (by simp; omega), z0, z0]
      unfold key
      rw [← hlen, count_list (r :: F.pre) (Tree.depth r F) d, List.countP_cons, depth_root, Nat.add_comm]
      congr 1
      · refine List.countP_congr fun x hx => ?_
        have hxr : x ≠ r := by rintro rfl; exact hnr.1 hx
        rw [depth_ne hxr]
        simp
      · simp only [decide_eq_true_eq]
        by_cases h0 : d = 0
        · subst h0; simp
        · rw [if_neg (by omega), if_neg (by omega)]
  refine Tot.bind hdfs ?_
  rintro s ⟨s1, s2, s3, s4, s5, s6, s7, s8, s9⟩
  refine Tot.bind (pref_tot (k := key r F) s4 s8 s9) ?_
  rintro cnt ⟨c1, c2⟩
  have hkey : ∀ t, t < g.size → key r F t < g.size := fun t ht => by
    unfold key
    obtain ⟨x, hx⟩ : ∃ x, (r :: F.pre)[t]? = some x := ⟨_, List.getElem?_eq_getElem (by omega)⟩
    rw [hx]
    have hxm := List.mem_of_getElem? hx
    exact depth_lt hg h ((h.lt_iff x).2 (List.mem_cons.1 hxm))
  refine Tot.bind (P := fun q => q.2.size = g.size ∧ ∀ i, i < g.size → at' 0 q.2 (CountSort.rank (key r F) g.size i) = i) ?_ ?_
  · refine (Tot.forEach (P := fun pre (q : Array Nat × Array Nat) => q.1.size = g.size + 1 ∧ q.2.size = g.size ∧
      (∀ d, d < g.size → at' 0 q.1 d = Nat.count (fun i => key r F i < d) g.size + Nat.count (fun i => key r F i = d) pre.length) ∧
      ∀ i, i < pre.length → at' 0 q.2 (CountSort.rank (key r F) g.size i) = i) ?_ ?_).mono ?_
    · exact ⟨c1, by simp, fun d hd => by rw [c2 d hd.le]; simp, fun i hi => by simp at hi⟩
    · rintro pre v post ⟨ix, bk⟩ he ⟨k1, k2, k3, k4⟩
      dsimp only at k1 k2 k3 k4
      rw [s6] at he
      have hvt : (r :: F.pre)[pre.length]? = some v := by rw [he, List.getElem?_append_right le_rfl]; simp
      have hpl : pre.length < g.size := by rw [← hlen]; exact (List.getElem?_eq_some_iff.1 hvt).1
      have hv : v < g.size := (h.lt_iff v).2 (List.mem_cons.1 (List.mem_of_getElem? hvt))
      have hkv : key r F pre.length = Tree.depth r F v := by unfold key; rw [hvt]; rfl
      have hidx : (r :: F.pre).idxOf v = pre.length := by
        obtain ⟨hl, hg'⟩ := List.getElem?_eq_some_iff.1 hvt
        rw [← hg']
        exact List.Nodup.idxOf_getElem h.nodup _ _
      have hdl := depth_lt hg h hv
      have hrl := CountSort.rank_lt (key := key r F) hpl
      unfold fill
      dsimp only
      rw [rd_at 0 (by omega), ok_bind, s7 v hv, rd_at 0 (by omega), ok_bind, wr_eq (by omega), ok_bind, rd_at 0 (by omega), ok_bind, s5 v hv, hidx]
      have hrk : at' 0 ix (Tree.depth r F v) = CountSort.rank (key r F) g.size pre.length := by
        rw [k3 _ hdl, CountSort.rank, hkv]
      rw [hrk, wr_eq (by omega), ok_bind]
      refine Tot.pure ⟨by simpa using k1, by simpa using k2, fun d hd => ?_, fun i hi => ?_⟩
      · dsimp only
        rw [at_set' 0 (by omega), List.length_append, List.length_singleton, Nat.count_succ, hkv]
        by_cases hdd : d = Tree.depth r F v
        · rw [if_pos hdd, if_pos hdd.symm, hdd, ← hrk, k3 _ hdl]
          omega
        · rw [if_neg hdd, if_neg (Ne.symm hdd), k3 d hd, Nat.add_zero]
      · dsimp only
        rw [List.length_append, List.length_singleton] at hi
        rw [at_set' 0 (by omega)]
        by_cases hii : i = pre.length
        · rw [if_pos (by rw [hii]), hii]
        · rw [if_neg (fun e => hii (CountSort.rank_inj (by omega) hpl e)), k4 i (by omega)]
    · rintro ⟨ix, bk⟩ ⟨-, k2, -, k4⟩
      refine ⟨k2, fun i hi => k4 i ?_⟩
      rw [s6, hlen]; exact hi
  · rintro q ⟨q1, q2⟩
    exact Tot.pure ⟨s1, s2, s3, c1, q1, s5, s6, s7, c2, q2⟩

/-- The last vertex of a level visited no later than `u` is the ancestor of `u` on that level. -/
theorem level_last {r : Nat} {F : Forest} (hn : (r :: F.pre).Nodup) {a u w i j k : Nat} (ha : (r :: F.pre)[i]? = some a) (hw : (r :: F.pre)[j]? = some w) (hu : (r :: F.pre)[k]? = some u)
    (hau : a ∈ rpath r F u) (hij : i < j) (hjk : j ≤ k) : Tree.depth r F w ≠ Tree.depth r F a := by
  intro hd
  have h1 := pre_between F r hn i j k a w u hij.le hjk ha hw hu hau
  have h2 := anc_eq hn (List.mem_cons.1 (List.mem_of_getElem? hw)) h1 (by omega)
  subst h2
  obtain ⟨l1, e1⟩ := List.getElem?_eq_some_iff.1 ha
  obtain ⟨l2, e2⟩ := List.getElem?_eq_some_iff.1 hw
  have := (List.Nodup.getElem_inj_iff hn).1 (e1.trans e2.symm)
  omega

theorem find_tot {g : Array (List Nat)} {r : Nat} {F : Forest} {t : Obj} (hg : IsTree g) (h : Rooted g r F) (b : Built g r F t) {u d : Nat} (hu : u < g.size) (hd : d ≤ Tree.depth r F u) :
    ∃ a : Nat, find t u d = .ok (a : Int) ∧ a ∈ rpath r F u ∧ Tree.depth r F a = d := by
  have hlen := rooted_length h
  have b1 := b.vsize
  have b2 := b.isize
  have b3 := b.dsize
  have b4 := b.csize
  have b5 := b.bsize
  have hdl := depth_lt hg h hu
  obtain ⟨a, ha1, ha2⟩ := exists_anc h.nodup ((h.lt_iff u).1 hu) hd
  refine ⟨a, ?_, ha1, ha2⟩
  have hum : u ∈ r :: F.pre := List.mem_cons.2 ((h.lt_iff u).1 hu)
  have ham : a ∈ r :: F.pre := List.mem_cons.2 (rpath_sub ha1)
  obtain ⟨k, hk⟩ : ∃ k, k = (r :: F.pre).idxOf u := ⟨_, rfl⟩
  obtain ⟨i, hi⟩ : ∃ k, k = (r :: F.pre).idxOf a := ⟨_, rfl⟩
  have hk' : (r :: F.pre)[k]? = some u := by rw [hk]; exact List.getElem?_idxOf hum
  have hi' : (r :: F.pre)[i]? = some a := by rw [hi]; exact List.getElem?_idxOf ham
  have hkl : k < g.size := by rw [← hlen]; exact (List.getElem?_eq_some_iff.1 hk').1
  have hil : i < g.size := by rw [← hlen]; exact (List.getElem?_eq_some_iff.1 hi').1
  have hik := pre_anc_le F r h.nodup i k a u hi' hk' ha1
  have hki : key r F i = d := by unfold key; rw [hi']; exact ha2
  obtain ⟨lo, hlo⟩ : ∃ x, x = Nat.count (fun j => key r F j < d) g.size := ⟨_, rfl⟩
  obtain ⟨hi2, hhi⟩ : ∃ x, x = Nat.count (fun j => key r F j < d + 1) g.size := ⟨_, rfl⟩
  have hlohi : lo ≤ hi2 := by rw [hlo, hhi]; exact CountSort.count_lt_mono (by omega)
  have hhin : hi2 ≤ g.size := by rw [hhi]; exact Nat.count_le _
  have hrk1 := CountSort.rank_ge (key := key r F) (n := g.size) i
  have hrk2 := CountSort.rank_lt_succ (key := key r F) hil
  rw [hki, ← hlo] at hrk1
  rw [hki, ← hhi] at hrk2
  obtain ⟨q, hq⟩ : ∃ q, CountSort.rank (key r F) g.size i = lo + q := ⟨_ - lo, (Nat.add_sub_cancel' hrk1).symm⟩
  have hidx : (t.bucket.extract lo hi2).toList.findIdx (fun y => decide (k < y)) = q + 1 := by
    have hget : ∀ p, lo + p < hi2 → (t.bucket.extract lo hi2).toList[p]? = some (at' 0 t.bucket (lo + p)) := by
      intro p hp
      rw [Array.getElem?_toList, Array.getElem?_extract_of_lt (by omega)]
      unfold at'
      rw [Array.getElem?_eq_getElem (by omega)]
      rfl
    have hblk : ∀ p, lo + p < hi2 → ∃ j, j < g.size ∧ key r F j = d ∧ CountSort.rank (key r F) g.size j = lo + p ∧ at' 0 t.bucket (lo + p) = j := by
      intro p hp
      obtain ⟨j, j1, j2, j3⟩ := CountSort.rank_surj (key := key r F) (n := g.size) (d := d) (q := lo + p) (by omega) (by omega)
      exact ⟨j, j1, j2, j3, by rw [← j3]; exact b.bucket j j1⟩
    have hln : (t.bucket.extract lo hi2).toList.length = hi2 - lo := by
      rw [Array.length_toList, Array.size_extract]
      omega
    have hle : ∀ p, p ≤ q → at' 0 t.bucket (lo + p) ≤ k := by
      intro p hp
      obtain ⟨j, j1, j2, j3, j4⟩ := hblk p (by omega)
      rw [j4]
      by_contra hcon
      have := CountSort.rank_lt_of (key := key r F) hil j1 (Or.inr ⟨by omega, by omega⟩)
      omega
    apply Nat.le_antisymm
    · by_cases hend : lo + (q + 1) < hi2
      · by_contra hcon
        have hnot := List.not_of_lt_findIdx (show q + 1 < (t.bucket.extract lo hi2).toList.findIdx (fun y => decide (k < y)) by omega)
        have hg2 := hget (q + 1) hend
        obtain ⟨l1, e1⟩ := List.getElem?_eq_some_iff.1 hg2
        rw [e1] at hnot
        simp only [decide_eq_true_eq, Bool.not_eq_true, decide_eq_false_iff_not, not_lt] at hnot
        obtain ⟨j, j1, j2, j3, j4⟩ := hblk (q + 1) hend
        rw [j4] at hnot
        have hij : i < j := by
          by_contra hc
          rcases Nat.lt_or_ge j i with hc' | hc'
          · have := CountSort.rank_lt_of (key := key r F) j1 hil (Or.inr ⟨by omega, by omega⟩)
            omega
          · have : i = j := by omega
            subst this
            omega
        obtain ⟨w, hw⟩ : ∃ w, (r :: F.pre)[j]? = some w := ⟨_, List.getElem?_eq_getElem (by omega)⟩
        refine level_last h.nodup hi' hw hk' ha1 hij hnot ?_
        rw [ha2, ← j2]
        unfold key
        rw [hw]; rfl
      · have := List.findIdx_le_length (p := fun y => decide (k < y)) (xs := (t.bucket.extract lo hi2).toList)
        omega
    · by_contra hcon
      have hlt : (t.bucket.extract lo hi2).toList.findIdx (fun y => decide (k < y)) < (t.bucket.extract lo hi2).toList.length := by omega
      have hyes := List.findIdx_getElem (p := fun y => decide (k < y)) (w := hlt)
      obtain ⟨p, hp⟩ : ∃ p, p = (t.bucket.extract lo hi2).toList.findIdx (fun y => decide (k < y)) := ⟨_, rfl⟩
      have hg2 := hget p (by omega)
      obtain ⟨l1, e1⟩ := List.getElem?_eq_some_iff.1 hg2
      simp only [← hp] at hyes
      rw [e1, decide_eq_true_eq] at hyes
      have := hle p (by omega)
      omega
  unfold find
  rw [rd_at 0 (by omega), ok_bind, b.cnt d (by omega), rd_at 0 (by omega), ok_bind, b.cnt (d + 1) (by omega), rd_at 0 (by omega), ok_bind, b.vis u hu, ← hlo, ← hhi, ← hk]
  rw [valid, if_pos (by rw [decide_eq_true_eq]; omega), ok_bind]
  dsimp only
  rw [hidx, valid, if_pos (by rw [decide_eq_true_eq]; omega), ok_bind, rd_at 0 (by omega), ok_bind, show lo + (q + 1) - 1 = lo + q by omega, ← hq, b.bucket i hil, rd_at 0 (by omega), ok_bind]
  have : at' 0 t.inv i = a := by
    unfold at'
    rw [← Array.getElem?_toList, b.inv, hi']; rfl
  rw [this]; rfl

end LevelAncestor
