import Verif.Proof.AuxTree2

/-! # Auxiliary trees: `build` -/

namespace AuxTree
open Cxx Graph Tree HLD

variable {g : Array (List Nat)} {r : Nat} {F : Forest} {t : St}

/-- Between two calls of `build`. -/
structure OInv (n : Nat) (t : St) (o : Obj) : Prop where
  hld : o.hld = t
  size : o.aux.size = n
  cover : ∀ u < n, at' [] o.aux u ≠ [] → u ∈ o.upd
  range : ∀ q ∈ o.upd, q < n

theorem clear_tot {n : Nat} {aux : Array (List Nat)} {upd : List Nat} (h1 : aux.size = n) (h2 : ∀ u < n, at' [] aux u ≠ [] → u ∈ upd) (h3 : ∀ q ∈ upd, q < n) :
    Tot (forEach upd aux clear) fun a => Edges n a fun _ _ => False := by
  refine Tot.mono (Tot.forEach (P := fun pre a => a.size = n ∧ ∀ u < n, at' [] a u ≠ [] → u ∈ upd ∧ u ∉ pre) ⟨h1, fun u hu h => ⟨h2 u hu h, by simp⟩⟩ ?_) ?_
  · rintro pre x post a e ⟨i1, i2⟩
    have hx : x < n := h3 x (by rw [e]; simp)
    have hxa : x < a.size := by omega
    rw [clear, wr_eq hxa]
    refine (tot_ok ..).2 ⟨by rw [Array.size_setIfInBounds, i1], fun u hu h => ?_⟩
    rw [at_set' [] hxa] at h
    by_cases hux : u = x
    · rw [if_pos hux] at h; exact absurd rfl h
    · rw [if_neg hux] at h
      have := i2 u hu h
      exact ⟨this.1, by simp [this.2, hux]⟩
  · rintro a ⟨i1, i2⟩
    refine ⟨i1, fun u hu => ?_⟩
    have : at' [] a u = [] := by
      by_contra h
      exact (i2 u hu h).2 (i2 u hu h).1
    rw [this]
    simp

theorem rd_append {V : List Nat} {e : Array Nat} {i : Nat} (hi : i < V.length) : rd (V.toArray ++ e) i = .ok V[i] := by
  rw [rd_some (a := V.toArray ++ e) (x := V[i])]
  rw [Array.getElem?_append_left (by simpa using hi)]
  simp [hi]

section
variable (b : Built g r F t)
include b

theorem clo_one {x s : Nat} (hx : x < g.size) : Clo r F g.size [x] s ↔ s = x := by
  constructor
  · rintro ⟨a, ha, c, hc, h⟩
    rw [List.mem_singleton] at ha hc
    subst ha hc
    exact com_unique b h (com_self b hx)
  · rintro rfl
    exact ⟨s, by simp, s, by simp, com_self b hx⟩

theorem line_one {x : Nat} (hx : x < g.size) : line r F (Clo r F g.size [x]) x = [x] := by
  classical
  obtain ⟨A, hA⟩ := rsnoc b hx
  have hnd := rnodup b hx
  rw [hA] at hnd
  have h1 : A.filter (fun y => decide (Clo r F g.size [x] y)) = [] := List.filter_eq_nil_iff.2 fun y hy => by
    have : y ≠ x := fun e => (List.nodup_append.1 hnd).2.2 y hy x (by simp) e
    simpa [clo_one b hx] using this
  have h2 : decide (Clo r F g.size [x] x) = true := by simpa using (clo_one b hx).2 rfl
  rw [line, hA, List.filter_append, h1, List.filter_cons_of_pos (p := fun y => decide (Clo r F g.size [x] y)) h2]; rfl

theorem join_tot {S : Nat → Prop} {x : Nat} (hx : x < g.size) {aux : Array (List Nat)} (hE : Edges g.size aux (Done r F S x)) {L : List Nat} (hL : L = line r F S x) :
    Tot (forUp 0 (L.length - 1) aux (joinStep L.toArray)) fun a => Edges g.size a (Near r F S) := by
  have hnd := line_nodup b (S := S) hx
  rw [← hL] at hnd
  refine Tot.mono (Tot.forUp (P := fun i a => Edges g.size a fun p c => Done r F S x p c ∨ Adj (L.take (i + 1)) p c) (Nat.zero_le _) (hE.congr fun p c => ?_) ?_) fun a ha => ha.congr fun p c => ?_
  · constructor
    · exact Or.inl
    · rintro (h | h)
      · exact h
      · cases L with
        | nil => exact absurd h adj_nil
        | cons y L => exact absurd h adj_single
  · intro i a _ hi ha
    have hi1 : i + 1 < L.length := by omega
    have hi0 : i < L.length := by omega
    have m1 : L[i] ∈ line r F S x := by rw [← hL]; exact List.getElem_mem hi0
    have m2 : L[i + 1] ∈ line r F S x := by rw [← hL]; exact List.getElem_mem hi1
    have hsplit : L = (L.take (i + 1)) ++ L[i + 1] :: L.drop (i + 2) := by
      rw [← List.drop_eq_getElem_cons hi1, List.take_append_drop]
    have ht : L.take (i + 1) = L.take i ++ [L[i]] := by simp
    obtain ⟨o1, o2⟩ := line_order b hx (hL.symm.trans hsplit) (p := L[i]) (by rw [ht]; exact List.mem_append_right _ (List.mem_singleton.2 rfl))
    rw [joinStep, rd_some (x := L[i]) (by simp [hi0]), ok_bind, rd_some (x := L[i + 1]) (by simp [hi1]), ok_bind]
    have hnt : L[i + 1] ∉ L.take (i + 1) := fun hm => by
      have h3 : (L.take (i + 1) ++ L[i + 1] :: L.drop (i + 2)).Nodup := hsplit ▸ hnd
      exact (List.nodup_append.1 h3).2.2 _ hm _ List.mem_cons_self rfl
    refine Tot.mono (link_tot ha (lt_of b (mem_line.1 m1).1) (lt_of b (mem_line.1 m2).1) o2 ?_ ?_) fun a ha => ha.congr fun p c => ?_
    · rintro (h | h)
      · exact h.2 m2
      · exact hnt (adj_mem h).2
    · rintro (h | h)
      · exact h.2 m1
      · exact hnt (adj_mem h).1
    · have : L.take (i + 1 + 1) = L.take i ++ [L[i], L[i + 1]] := by rw [List.take_succ_eq_append_getElem hi1, ht, List.append_assoc]; rfl
      rw [this, adj_snoc, ← ht, or_assoc]
  · constructor
    · rintro (h | h)
      · exact h.1
      · have h2 : Adj L p c := by
          rwa [List.take_of_length_le (by omega)] at h
        exact (near_adj b hx (by rw [← hL]; exact (adj_mem h2).2) p).2 (by rw [← hL]; exact h2)
    · intro h
      by_cases hc : c ∈ line r F S x
      · right
        rw [List.take_of_length_le (by omega), hL]
        exact (near_adj b hx hc p).1 h
      · exact Or.inl ⟨h, hc⟩

theorem build_tot {srt : List Nat → List Nat} {o : Obj} (ho : OInv g.size t o) {l : List Nat} (hs : (srt l).Perm l ∧ (srt l).Pairwise fun x y => ¬ at' 0 t.visit y < at' 0 t.visit x) (hl : ∀ a ∈ l, a < g.size) (hnd : l.Nodup) (hne : l ≠ []) :
    Tot (build srt o l) fun o' => OInv g.size t o' ∧ Edges g.size o'.aux (Near r F (Clo r F g.size l)) := by
  obtain ⟨V, hV⟩ : ∃ V, V = srt l := ⟨_, rfl⟩
  rw [build, ← hV]
  rw [← hV] at hs
  have hVnd : V.Nodup := hs.1.nodup_iff.2 hnd
  have hVl : ∀ a ∈ V, a < g.size := fun a ha => hl a (hs.1.mem_iff.1 ha)
  have hpos : 0 < V.length := by
    rw [hs.1.length_eq]; exact List.length_pos_of_ne_nil hne
  have hsort : ∀ i j (hi : i < j) (hj : j < V.length), at' 0 t.visit V[i] < at' 0 t.visit V[j] := by
    intro i j hi hj
    have h1 := List.pairwise_iff_getElem.1 hs.2 i j (by omega) hj hi
    have h2 : at' 0 t.visit V[i] ≠ at' 0 t.visit V[j] := fun e => by
      have := b.visInj (hVl _ (List.getElem_mem _)) (hVl _ (List.getElem_mem _)) e
      rw [hVnd.getElem_inj_iff] at this
      omega
    omega
  rw [ho.hld]
  refine Tot.bind (clear_tot ho.size ho.cover ho.range) fun aux haux => ?_
  dsimp only
  rw [rd_some (x := V[0]) (by simp [hpos]), ok_bind]
  have hx0 := hVl _ (List.getElem_mem hpos)
  have hsz : V.toArray.size = V.length := by simp
  rw [hsz]
  have htake : ∀ i (hi : i < V.length), V.take (i + 1) = V.take i ++ [V[i]] := fun i hi => by simp
  refine Tot.bind (P := fun s => s.st.reverse = line r F (Clo r F g.size V) V[V.length - 1] ∧ Edges g.size s.aux (Done r F (Clo r F g.size V) V[V.length - 1]) ∧ (∀ q, Clo r F g.size V q → q ∈ s.upd) ∧ (∀ q ∈ s.upd, q < g.size)) ?_ ?_
  · refine Tot.mono (Tot.forUp (P := fun i s => ∃ hi : i < V.length, s.st.reverse = line r F (Clo r F g.size (V.take (i + 1))) V[i] ∧ Edges g.size s.aux (Done r F (Clo r F g.size (V.take (i + 1))) V[i]) ∧
      (∀ q ∈ V, q ∈ s.upd) ∧ (∀ q, Clo r F g.size (V.take (i + 1)) q → q ∈ s.upd) ∧ (∀ q ∈ s.upd, q < g.size) ∧ ∃ e, s.vs = V.toArray ++ e) (Nat.zero_le _) ?_ ?_) ?_
    · refine ⟨hpos, ?_, ?_, ?_, ?_, ?_, ⟨#[], by simp⟩⟩
      · have : V.take (0 + 1) = [V[0]] := by rw [htake 0 hpos]; simp
        rw [this, line_one b hx0]; rfl
      · have : V.take (0 + 1) = [V[0]] := by rw [htake 0 hpos]; simp
        rw [this]
        refine haux.congr fun p c => ⟨False.elim, fun h => h.2 ?_⟩
        rw [line_one b hx0, (clo_one b hx0).1 h.1.2.1]; simp
      · intro q hq; simpa using hq
      · intro q hq
        have : V.take (0 + 1) = [V[0]] := by rw [htake 0 hpos]; simp
        rw [this, clo_one b hx0] at hq
        rw [hq]; simp
      · intro q hq; exact hVl q (by simpa using hq)
    · rintro i s - hi ⟨hi0, i1, i2, i3, i4, i5, e, he⟩
      have hi1 : i + 1 < V.length := by omega
      have hxl := hVl _ (List.getElem_mem hi0)
      have hyl := hVl _ (List.getElem_mem hi1)
      rw [body, he, rd_append hi0, ok_bind, rd_append hi1, ok_bind]
      refine Tot.bind (b.lca_tot hxl hyl) fun w hw => ?_
      have hl' : ∀ a ∈ V.take (i + 1), a < g.size ∧ at' 0 t.visit a ≤ at' 0 t.visit V[i] := by
        intro a ha
        obtain ⟨j, hj, rfl⟩ := List.mem_iff_getElem.1 ha
        rw [List.getElem_take]
        rw [List.length_take] at hj
        refine ⟨hVl _ (List.getElem_mem _), ?_⟩
        rcases Nat.lt_or_ge j i with h | h
        · exact Nat.le_of_lt (hsort j i h hi0)
        · have : j = i := by omega
          subst this; exact Nat.le_refl _
      have hx : V[i] ∈ V.take (i + 1) := by rw [htake i hi0]; exact List.mem_append_right _ (List.mem_singleton.2 rfl)
      have hv := hsort i (i + 1) (by omega) hi1
      refine Tot.bind (branch_tot b hl' hx hyl hv hw i1 i2) fun s' h => ?_
      obtain ⟨j1, j2, ⟨e2, j3, j4⟩, ⟨e3, j5⟩, j6⟩ := h
      rw [j5, he, Array.append_assoc, rd_append hi1, ok_bind]
      rw [← htake (i + 1) hi1] at j1 j2
      refine (tot_ok ..).2 ⟨hi1, j1, j2, ?_, ?_, ?_, ⟨e ++ e3, rfl⟩⟩
      · intro q hq
        dsimp only
        rw [j3]; exact List.mem_append_left _ (i3 q hq)
      · intro q hq
        dsimp only
        rw [htake (i + 1) hi1, clo_snoc b hl' hx hyl (Nat.le_of_lt hv) hw] at hq
        rw [j3]
        rcases hq with h | rfl | rfl
        · exact List.mem_append_left _ (i4 q h)
        · rcases j4 with h | h
          · exact List.mem_append_left _ (i3 q (by rw [h]; exact List.getElem_mem _))
          · exact List.mem_append_right _ h
        · exact List.mem_append_left _ (i3 _ (List.getElem_mem _))
      · intro q hq
        rcases j6 q hq with h | h
        · exact i5 q h
        · exact h
    · rintro s ⟨hi, i1, i2, i3, i4, i5, -⟩
      rw [List.take_of_length_le (by omega)] at i1 i2 i4
      exact ⟨i1, i2, i4, i5⟩
  · rintro s ⟨i1, i2, i3, i4⟩
    have hxl := hVl _ (List.getElem_mem (show V.length - 1 < V.length by omega))
    have hj := join_tot b hxl i2 i1
    rw [List.length_reverse] at hj
    refine Tot.bind hj fun a ha => (tot_ok ..).2 ?_
    have hClo : ∀ q, Clo r F g.size V q ↔ Clo r F g.size l q := fun q => by
      constructor
      · rintro ⟨x, hx, y, hy, h⟩; exact ⟨x, hs.1.mem_iff.1 hx, y, hs.1.mem_iff.1 hy, h⟩
      · rintro ⟨x, hx, y, hy, h⟩; exact ⟨x, hs.1.mem_iff.2 hx, y, hs.1.mem_iff.2 hy, h⟩
    have hClo' : Clo r F g.size V = Clo r F g.size l := funext fun q => propext (hClo q)
    refine ⟨⟨rfl, ha.1, fun u hu h => ?_, i4⟩, hClo' ▸ ha⟩
    obtain ⟨v, hv⟩ := List.exists_mem_of_ne_nil _ h
    rcases ((ha.2 u hu).2 v).1 hv with h | h
    · exact i3 u h.1
    · exact i3 u h.2.1

theorem make_inv : OInv g.size t (AuxTree.make t) := by
  refine ⟨rfl, by rw [AuxTree.make, Array.size_replicate, b.vsz], fun u hu h => ?_, fun q hq => by simp [AuxTree.make] at hq⟩
  rw [AuxTree.make, EulerTour.at_replicate] at h
  simp at h

end

end AuxTree
