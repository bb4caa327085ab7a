import Verif.Proof.LiChao
import Verif.Spec.LiChao

namespace LiChao
open Cxx

/-- The line stored for a segment. -/
def toLine (isMin : Bool) (s : Seg) : Line := if isMin then ⟨s.a, s.b⟩ else ⟨-s.a, -s.b⟩

/-- The lines added for a leaf. -/
def Active (isMin : Bool) (o : Obj) (segs : List Seg) (J : Nat) (f : Line) : Prop := (o.m ≤ J ∧ J < 2 * o.m) ∧ ∃ s ∈ segs, s.lo ≤ X o J ∧ X o J ≤ s.hi ∧ f = toLine isMin s

/-- Simulation. -/
structure Sim (isMin : Bool) (coords : List Int) (o : Obj) (segs : List Seg) : Prop where
  geo : ∃ L, Geo o L
  npos : 0 < o.n
  nle : o.n ≤ o.m
  pad : o.n < o.m → at' 0 o.pos o.n = at' 0 o.pos (o.n - 1)
  mem : ∀ x, x ∈ coords ↔ ∃ j, j < o.m ∧ at' 0 o.pos j = x
  ok : ∀ s ∈ segs, SegOk coords s
  inv : Inv o (Active isMin o segs) o.seg

theorem fits_toLine (isMin : Bool) {coords : List Int} {s : Seg} {x : Int} (h : SegOk coords s) (hx : x ∈ coords) (h1 : s.lo ≤ x) (h2 : x ≤ s.hi) : Fits (toLine isMin s) x ∧ val (toLine isMin s) x < inf := by
  obtain ⟨-, -, h⟩ := h
  obtain ⟨g1, g2⟩ := h x hx h1 h2
  unfold toLine Fits val inf
  cases isMin
  · simp only [Bool.false_eq_true, if_false, neg_mul]
    omega
  · simp only [if_true]
    omega

theorem Sim.fits {isMin : Bool} {coords : List Int} {o : Obj} {segs : List Seg} (h : Sim isMin coords o segs) {J : Nat} {f : Line} (hf : Active isMin o segs J f) : Fits f (X o J) ∧ val f (X o J) < inf := by
  obtain ⟨hJ, s, hs, h1, h2, rfl⟩ := hf
  exact fits_toLine isMin (h.ok s hs) ((h.mem _).mpr ⟨J - o.m, by omega, rfl⟩) h1 h2

theorem findIdx_mono {p : Int → Bool} {xs : Array Int} {m : Nat} (hsz : xs.size = m) (hp : ∀ i j, i ≤ j → j < m → p (at' 0 xs i) = true → p (at' 0 xs j) = true) :
    xs.toList.findIdx p ≤ m ∧ ∀ j, j < m → (j < xs.toList.findIdx p ↔ p (at' 0 xs j) = false) := by
  have hlen : xs.toList.length = m := by rw [Array.length_toList]; exact hsz
  have hat : ∀ j (h : j < xs.toList.length), xs.toList[j] = at' 0 xs j := by
    intro j h
    unfold at'
    rw [Array.getElem_toList, Array.getElem?_eq_getElem (by rw [Array.length_toList] at h; exact h)]
    rfl
  refine ⟨by rw [← hlen]; exact List.findIdx_le_length, ?_⟩
  intro j hj
  constructor
  · intro h
    have := List.not_of_lt_findIdx h
    rw [hat j (by omega)] at this
    simpa using this
  · intro h
    by_contra hc
    have hlt : xs.toList.findIdx p < xs.toList.length := by omega
    have := List.findIdx_getElem (w := hlt)
    rw [hat _ hlt] at this
    have := hp _ j (by omega) hj this
    rw [h] at this
    cases this

theorem bounds {o : Obj} {L : Nat} (hg : Geo o L) (x : Int) :
    (Compressor.lowerBound o.pos.toList x ≤ o.m ∧ ∀ j, j < o.m → (j < Compressor.lowerBound o.pos.toList x ↔ at' 0 o.pos j < x)) ∧
    (Compressor.upperBound o.pos.toList x ≤ o.m ∧ ∀ j, j < o.m → (j < Compressor.upperBound o.pos.toList x ↔ at' 0 o.pos j ≤ x)) := by
  constructor
  · have := findIdx_mono (p := fun y => !decide (y < x)) hg.size (by
      intro i j hij hj h
      have := hg.mono i j hij hj
      simp only [Bool.not_eq_true', decide_eq_false_iff_not] at h ⊢
      omega)
    refine ⟨this.1, fun j hj => (this.2 j hj).trans ?_⟩
    simp
  · have := findIdx_mono (p := fun y => decide (x < y)) hg.size (by
      intro i j hij hj h
      have := hg.mono i j hij hj
      simp only [decide_eq_true_eq] at h ⊢
      omega)
    refine ⟨this.1, fun j hj => (this.2 j hj).trans ?_⟩
    simp

theorem line_ok {isMin : Bool} {coords : List Int} {s : Seg} (h : SegOk coords s) : line isMin s.a s.b = .ok (toLine isMin s) := by
  obtain ⟨h1, h2, -⟩ := h
  unfold line toLine
  cases isMin
  · rw [if_neg (by decide), if_neg (by decide), i64_ok ⟨by omega, by omega⟩, ok_bind, i64_ok ⟨by omega, by omega⟩]
    rfl
  · rfl

theorem addSegment_tot {isMin : Bool} {coords : List Int} {o : Obj} {segs : List Seg} (h : Sim isMin coords o segs) (s : Seg) (hs : SegOk coords s) :
    Tot (o.addSegment isMin s.lo s.hi s.a s.b) (fun o' => Sim isMin coords o' (segs ++ [s])) := by
  obtain ⟨L, hg⟩ := h.geo
  unfold Obj.addSegment
  rw [line_ok hs, ok_bind]
  dsimp only
  obtain ⟨⟨l1, l2⟩, -⟩ := bounds hg s.lo
  obtain ⟨-, ⟨r1, r2⟩⟩ := bounds hg s.hi
  generalize Compressor.lowerBound o.pos.toList s.lo = l at l1 l2
  generalize Compressor.upperBound o.pos.toList s.hi = r at r1 r2
  have hr : (if r = o.n then o.m else r) = r := by
    split_ifs with hc
    · by_contra hne
      have hn := h.npos
      have hnm : o.n < o.m := by omega
      have h1 := (r2 (o.n - 1) (by omega)).mp (by omega)
      rw [← h.pad hnm] at h1
      have := (r2 o.n hnm).mpr h1
      omega
    · rfl
  rw [hr]
  have hA : ∀ J f, Active isMin o segs J f → Fits f (X o J) := fun J f hf => (h.fits hf).1
  have hAm : ∀ J f, Active isMin o segs J f → o.m ≤ J ∧ J < 2 * o.m := fun J f hf => hf.1
  have hX : ∀ J, o.m ≤ J → J < 2 * o.m → (l + o.m ≤ J ∧ J < r + o.m ↔ s.lo ≤ X o J ∧ X o J ≤ s.hi) := by
    intro J h1 h2
    have a1 := l2 (J - o.m) (by omega)
    have a2 := r2 (J - o.m) (by omega)
    unfold X
    omega
  have fin : ∀ seg, Inv o (fun J g => Active isMin o segs J g ∨ (g = toLine isMin s ∧ l + o.m ≤ J ∧ J < r + o.m)) seg → Sim isMin coords { o with seg := seg } (segs ++ [s]) := by
    intro seg hi
    refine ⟨⟨L, hg.m_eq, hg.logm, hg.size, hg.mono⟩, h.npos, h.nle, h.pad, h.mem, ?_, ?_⟩
    · intro s' hs'
      rcases List.mem_append.mp hs' with h' | h'
      · exact h.ok s' h'
      · rw [List.mem_singleton.mp h']
        exact hs
    · have hc : Inv o (Active isMin o (segs ++ [s])) seg := by
        refine hi.congr ?_ (fun J f hf => hf.1)
        intro J g h1 h2
        constructor
        · rintro (⟨-, s', q1, q2⟩ | ⟨rfl, q⟩)
          · exact ⟨⟨h1, h2⟩, s', List.mem_append_left _ q1, q2⟩
          · have := (hX J h1 h2).mp q
            exact ⟨⟨h1, h2⟩, s, by simp, this.1, this.2, rfl⟩
        · rintro ⟨-, s', q1, q2, q3, q4⟩
          rcases List.mem_append.mp q1 with h' | h'
          · exact Or.inl ⟨⟨h1, h2⟩, s', h', q2, q3, q4⟩
          · rw [List.mem_singleton.mp h'] at q2 q3 q4
            exact Or.inr ⟨q4, (hX J h1 h2).mpr ⟨q2, q3⟩⟩
      exact ⟨hc.size, hc.sound, hc.cov⟩
  by_cases hlr : l ≤ r
  · refine (addLoop_tot hg hA hAm h.inv (l := l + o.m) (r := r + o.m) (f := toLine isMin s) (by omega) (by omega) (by omega) ?_).bind ?_
    · intro J h1 h2
      have := (hX J (by omega) (by omega)).mp ⟨h1, h2⟩
      exact (fits_toLine isMin hs ((h.mem _).mpr ⟨J - o.m, by omega, rfl⟩) this.1 this.2).1
    · intro q hq
      exact tot_ok.mpr (fin _ hq)
  · have hst : loop (addStep o (toLine isMin s)) (r + o.m) (l + o.m, r + o.m, o.seg) = .ok (l + o.m, r + o.m, o.seg) := by
      have h1 : addStep o (toLine isMin s) (l + o.m, r + o.m, o.seg) = .ok none := by
        unfold addStep
        dsimp only
        rw [if_neg (by omega)]
        rfl
      cases hc : r + o.m with
      | zero =>
        rw [hc] at h1
        simp [Cxx.loop, h1]
      | succ k =>
        rw [hc] at h1
        simp [Cxx.loop, h1]
    rw [hst, ok_bind]
    refine tot_ok.mpr (fin _ (h.inv.congr ?_ ?_))
    · intro J g _ _
      constructor
      · exact Or.inl
      · rintro (h' | h')
        · exact h'
        · omega
    · rintro J g (h' | h')
      · exact h'.1
      · omega

theorem query_sim {isMin : Bool} {coords : List Int} {o : Obj} {segs : List Seg} (h : Sim isMin coords o segs) {x : Int} (hx : x ∈ coords) :
    Tot (o.query isMin x) (fun r => (r = none → valuesAt segs x = ∅) ∧ ∀ v, r = some v → if isMin then IsLeast (valuesAt segs x) v else IsGreatest (valuesAt segs x) v) := by
  obtain ⟨L, hg⟩ := h.geo
  obtain ⟨⟨l1, l2⟩, -⟩ := bounds hg x
  unfold Obj.query
  dsimp only
  generalize Compressor.lowerBound o.pos.toList x = p at l1 l2
  obtain ⟨j, hj, hjx⟩ := (h.mem x).mp hx
  have hpj : p ≤ j := by
    by_contra hc
    have := (l2 j hj).mp (by omega)
    omega
  have hpx : at' 0 o.pos p = x := by
    have a1 := hg.mono p j hpj hj
    have a2 := l2 p (by omega)
    omega
  rw [rd_at 0 (by rw [hg.size]; omega), ok_bind, hpx, decide_eq_true rfl, check_true, ok_bind]
  have hX : X o (p + o.m) = x := by
    unfold X
    rw [Nat.add_sub_cancel]
    exact hpx
  have hq := query_tot hg (fun J f hf => (h.fits (isMin := isMin) hf).1) h.inv (J := p + o.m) (by omega) (by omega)
  rw [hX] at hq
  refine hq.bind ?_
  rintro ⟨_, res, no⟩ ⟨q1, q2, q3, q4⟩
  dsimp only at q1 q2 q3 q4 ⊢
  have hact : ∀ f, Active isMin o segs (p + o.m) f ↔ ∃ s ∈ segs, s.lo ≤ x ∧ x ≤ s.hi ∧ f = toLine isMin s := by
    intro f
    unfold Active
    rw [hX]
    exact ⟨fun h => h.2, fun h => ⟨⟨by omega, by omega⟩, h⟩⟩
  cases no with
  | true =>
    rw [if_pos rfl]
    refine tot_ok.mpr ⟨fun _ => ?_, fun v hv => (by cases hv)⟩
    ext v
    constructor
    · rintro ⟨s, s1, s2, s3, -⟩
      have hf := (hact _).mpr ⟨s, s1, s2, s3, rfl⟩
      have a1 := q4 rfl _ hf
      have a2 := (h.fits hf).2
      rw [hX] at a2
      omega
    · intro hv
      exact absurd hv (Set.notMem_empty v)
  | false =>
    rw [if_neg (by decide)]
    obtain ⟨f, f1, f2⟩ := q3 rfl
    have a2 := (h.fits f1).2
    have a3 := (h.fits f1).1
    rw [hX] at a2 a3
    have hres : res = val f x := by omega
    obtain ⟨s, s1, s2, s3, rfl⟩ := (hact f).mp f1
    cases isMin with
    | true =>
      rw [if_pos rfl]
      refine tot_ok.mpr ⟨fun h => (by cases h), ?_⟩
      rintro v hv
      cases hv
      rw [if_pos rfl]
      refine ⟨⟨s, s1, s2, s3, hres⟩, ?_⟩
      rintro w ⟨s', t1, t2, t3, rfl⟩
      exact q2 _ ((hact _).mpr ⟨s', t1, t2, t3, rfl⟩)
    | false =>
      rw [if_neg (by decide)]
      have hv : val (toLine false s) x = -(s.a * x + s.b) := by
        unfold val toLine
        simp only [Bool.false_eq_true, if_false]
        ring
      obtain ⟨g1, g2, g3⟩ := h.ok s s1
      have g4 := (g3 x hx s2 s3).2
      rw [i64_ok ⟨by omega, by omega⟩, ok_bind]
      refine tot_ok.mpr ⟨fun h => (by cases h), ?_⟩
      rintro v hv'
      cases hv'
      rw [if_neg (by decide)]
      refine ⟨⟨s, s1, s2, s3, by omega⟩, ?_⟩
      rintro w ⟨s', t1, t2, t3, rfl⟩
      have := q2 _ ((hact _).mpr ⟨s', t1, t2, t3, rfl⟩)
      have hv2 : val (toLine false s') x = -(s'.a * x + s'.b) := by
        unfold val toLine
        simp only [Bool.false_eq_true, if_false]
        ring
      omega

theorem mk_tot (isMin : Bool) {coords : List Int} (hne : coords ≠ []) : Tot (mk coords) (fun o => Sim isMin coords o []) := by
  obtain ⟨ys, hb, hsort, hmem⟩ := Compressor.build_spec coords
  have hys : ys.toList = Compressor.unique (coords.mergeSort fun a b => decide (a ≤ b)) := by
    unfold Compressor.build at hb
    dsimp only at hb
    cases hc : check (Compressor.isStrictlySorted (Compressor.unique (coords.mergeSort fun a b => decide (a ≤ b)))) with
    | error _ => rw [hc, err_bind] at hb; cases hb
    | ok u =>
      rw [hc, ok_bind] at hb
      cases hb
      rfl
  unfold mk
  rw [← hys]
  dsimp only
  obtain ⟨xs, hxs⟩ : ∃ xs, xs = ys.toList := ⟨_, rfl⟩
  rw [← hxs] at hsort hmem ⊢
  have hxne : xs ≠ [] := by
    intro h
    obtain ⟨c, hc⟩ := List.exists_mem_of_ne_nil _ hne
    have := (hmem c).mpr hc
    rw [h] at this
    cases this
  have hlen : 0 < xs.length := List.length_pos_iff.mpr hxne
  refine (SegTree.ceilPow2_tot xs.length).bind ?_
  rintro m ⟨hm, L, rfl⟩
  have hlast : xs.getLast?.getD 0 = xs[xs.length - 1] := by
    rw [List.getLast?_eq_getLast_of_ne_nil hxne, Option.getD_some, List.getLast_eq_getElem]
  have hat : ∀ j, j < 2 ^ L → ∃ i, ∃ h : i < xs.length, at' 0 (xs ++ List.replicate (2 ^ L - xs.length) (xs.getLast?.getD 0)).toArray j = xs[i] ∧ i = min j (xs.length - 1) := by
    intro j hj
    unfold at'
    rw [List.getElem?_toArray]
    by_cases hjl : j < xs.length
    · refine ⟨j, hjl, ?_, by omega⟩
      rw [List.getElem?_append_left hjl, List.getElem?_eq_getElem hjl]
      rfl
    · refine ⟨xs.length - 1, by omega, ?_, by omega⟩
      rw [List.getElem?_append_right (by omega), List.getElem?_replicate, if_pos (by omega), Option.getD_some, hlast]
  have hmono : ∀ i j (hi : i < xs.length) (hj : j < xs.length), i ≤ j → xs[i] ≤ xs[j] := by
    intro i j hi hj hij
    rcases Nat.lt_or_eq_of_le hij with h | h
    · exact le_of_lt (List.pairwise_iff_getElem.mp hsort i j hi hj h)
    · subst h
      exact le_refl _
  refine tot_ok.mpr ⟨⟨L, rfl, ?_, ?_, ?_⟩, hlen, hm, ?_, ?_, ?_, ?_⟩
  · dsimp only
    exact Nat.log2_two_pow
  · dsimp only
    rw [List.size_toArray, List.length_append, List.length_replicate]
    omega
  · dsimp only
    intro i j hij hj
    obtain ⟨a, ha, e1, e2⟩ := hat i (by omega)
    obtain ⟨b, hb, e3, e4⟩ := hat j hj
    rw [e1, e3]
    exact hmono a b ha hb (by omega)
  · dsimp only
    intro h
    obtain ⟨a, ha, e1, e2⟩ := hat xs.length h
    obtain ⟨b, hb, e3, e4⟩ := hat (xs.length - 1) (by omega)
    rw [e1, e3]
    have : a = b := by omega
    subst this
    rfl
  · dsimp only
    intro x
    rw [← hmem]
    constructor
    · intro h
      obtain ⟨j, hj, rfl⟩ := List.getElem_of_mem h
      obtain ⟨a, ha, e1, e2⟩ := hat j (by omega)
      refine ⟨j, by omega, ?_⟩
      have : a = j := by omega
      subst this
      exact e1
    · rintro ⟨j, hj, rfl⟩
      obtain ⟨a, ha, e1, -⟩ := hat j hj
      rw [e1]
      exact List.getElem_mem ha
  · intro s hs
    cases hs
  · refine ⟨by dsimp only; rw [Array.size_replicate], ?_, ?_⟩
    · intro J s _ _ _
      left
      unfold at'
      rw [Array.getElem?_replicate]
      split_ifs <;> rfl
    · rintro J h ⟨-, s, hs, -⟩
      cases hs

theorem step_tot {isMin : Bool} {coords : List Int} {o : Obj} {segs : List Seg} (h : Sim isMin coords o segs) (i : Op) (hp : Pre coords segs i) :
    Tot (step isMin o i) (fun r => Sim isMin coords r.1 (next segs i) ∧ Ans isMin segs i r.2) := by
  cases i with
  | addSegment lo hi a b => exact (addSegment_tot h ⟨lo, hi, a, b⟩ hp).bind fun o' h' => tot_ok.mpr ⟨h', rfl⟩
  | addLine a b => exact (addSegment_tot h ⟨-2 ^ 63, 2 ^ 63 - 1, a, b⟩ hp).bind fun o' h' => tot_ok.mpr ⟨h', rfl⟩
  | query x => exact (query_sim h hp).bind fun r hr => tot_ok.mpr ⟨h, r, rfl, hr⟩

end LiChao
