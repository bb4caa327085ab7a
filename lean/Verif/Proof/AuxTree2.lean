import Verif.Proof.AuxTree

/-! # Auxiliary trees: the construction -/

namespace AuxTree
open Cxx Graph Tree HLD

variable {g : Array (List Nat)} {r : Nat} {F : Forest} {t : St}

/-- The adjacency lists hold the edges `R` (parent, child). -/
def Edges (n : Nat) (aux : Array (List Nat)) (R : Nat → Nat → Prop) : Prop :=
  aux.size = n ∧ ∀ u < n, (at' [] aux u).Nodup ∧ ∀ v, v ∈ at' [] aux u ↔ R u v ∨ R v u

theorem Edges.congr {n : Nat} {aux : Array (List Nat)} {R R' : Nat → Nat → Prop} (h : Edges n aux R) (hR : ∀ p c, R p c ↔ R' p c) : Edges n aux R' :=
  ⟨h.1, fun u hu => ⟨(h.2 u hu).1, fun v => by rw [(h.2 u hu).2 v, hR, hR]⟩⟩

theorem link_tot {n : Nat} {aux : Array (List Nat)} {R : Nat → Nat → Prop} (h : Edges n aux R) {p c : Nat} (hp : p < n) (hc : c < n) (hne : p ≠ c) (h1 : ¬ R p c) (h2 : ¬ R c p) :
    Tot (link aux p c) fun a => Edges n a fun x y => R x y ∨ (x = p ∧ y = c) := by
  obtain ⟨hs, h⟩ := h
  have s1 : p < aux.size := by omega
  have s2 : c < (aux.setIfInBounds p (at' [] aux p ++ [c])).size := by rw [Array.size_setIfInBounds]; omega
  rw [link, push, rd_at [] s1, ok_bind, wr_eq s1, ok_bind, push, rd_at [] s2, ok_bind, wr_eq s2]
  refine (tot_ok ..).2 ⟨by rw [Array.size_setIfInBounds, Array.size_setIfInBounds, hs], fun u hu => ?_⟩
  rw [at_set' [] s2, at_set' [] s1, at_set' [] s1, if_neg (Ne.symm hne)]
  by_cases hup : u = p
  · subst hup
    rw [if_neg hne, if_pos rfl]
    refine ⟨List.nodup_append.2 ⟨(h u hp).1, by simp, fun x hx y hy e => ?_⟩, fun v => ?_⟩
    · rw [List.mem_singleton] at hy
      rw [e, hy, (h u hp).2 c] at hx
      rcases hx with hx | hx
      · exact h1 hx
      · exact h2 hx
    · rw [List.mem_append, (h u hp).2 v, List.mem_singleton]
      constructor
      · rintro ((h3 | h3) | rfl)
        · exact Or.inl (Or.inl h3)
        · exact Or.inr (Or.inl h3)
        · exact Or.inl (Or.inr ⟨rfl, rfl⟩)
      · rintro ((h3 | ⟨-, rfl⟩) | (h3 | ⟨-, h3⟩))
        · exact Or.inl (Or.inl h3)
        · exact Or.inr rfl
        · exact Or.inl (Or.inr h3)
        · exact absurd h3 hne
  · by_cases huc : u = c
    · subst huc
      rw [if_pos rfl]
      refine ⟨List.nodup_append.2 ⟨(h u hc).1, by simp, fun x hx y hy e => ?_⟩, fun v => ?_⟩
      · rw [List.mem_singleton] at hy
        rw [e, hy, (h u hc).2 p] at hx
        rcases hx with hx | hx
        · exact h2 hx
        · exact h1 hx
      · rw [List.mem_append, (h u hc).2 v, List.mem_singleton]
        constructor
        · rintro ((h3 | h3) | rfl)
          · exact Or.inl (Or.inl h3)
          · exact Or.inr (Or.inl h3)
          · exact Or.inr (Or.inr ⟨rfl, rfl⟩)
        · rintro ((h3 | ⟨h3, -⟩) | (h3 | ⟨rfl, -⟩))
          · exact Or.inl (Or.inl h3)
          · exact absurd h3 hup
          · exact Or.inl (Or.inr h3)
          · exact Or.inr rfl
    · rw [if_neg huc, if_neg hup]
      refine ⟨(h u hu).1, fun v => ?_⟩
      rw [(h u hu).2 v]
      constructor
      · rintro (h3 | h3)
        · exact Or.inl (Or.inl h3)
        · exact Or.inr (Or.inl h3)
      · rintro ((h3 | ⟨h3, -⟩) | (h3 | ⟨-, h3⟩))
        · exact Or.inl h3
        · exact absurd h3 hup
        · exact Or.inr h3
        · exact absurd h3 huc

section
variable (b : Built g r F t)
include b

/-- Members of a line come in order. -/
theorem line_order {S : Nat → Prop} {x p c : Nat} (hx : x < g.size) {A B : List Nat} (h : line r F S x = A ++ c :: B) (hp : p ∈ A) : p ∈ rpath r F c ∧ p ≠ c := by
  have h1 := line_anc b hx h
  have h2 : p ∈ line r F S c := by rw [h1]; simp [hp]
  refine ⟨(mem_line.1 h2).1, fun e => ?_⟩
  have hnd := line_nodup b (S := S) hx
  rw [h] at hnd
  exact (List.nodup_append.1 hnd).2.2 p hp c (by simp) e

theorem depth_cmp {x u w : Nat} (hu : u ∈ rpath r F x) (hw : w ∈ rpath r F x) : Tree.depth r F w < Tree.depth r F u ↔ u ∉ rpath r F w := by
  constructor
  · intro h hm
    have := depth_le b.rooted.nodup hm
    omega
  · intro h
    rcases comp b hu hw with h1 | h1
    · exact absurd h1 h
    · have h2 := depth_le b.rooted.nodup h1
      by_contra h3
      have := anc_eq b.rooted.nodup ((b.rooted.lt_iff u).1 (by rw [b.gsz]; exact lt_of b hu)) h1 (by omega)
      rw [this] at h
      exact h (b.self (lt_of b hu))

/-- Invariant of the popping loop. -/
def PInv (r : Nat) (F : Forest) (n w : Nat) (L : List Nat) (R : Nat → Nat → Prop) (c : Climb) (B : List Nat) : Prop :=
  c.st.reverse ++ c.last :: B = L ∧ c.last ∉ rpath r F w ∧ (∀ y ∈ B, y ∉ rpath r F w) ∧ Edges n c.aux fun p q => R p q ∨ Adj (c.last :: B) p q

theorem climb_tot {S : Nat → Prop} {x w : Nat} (hx : x < g.size) (hw : w ∈ rpath r F x) {R : Nat → Nat → Prop} (hR : ∀ p c, R p c → p ∈ rpath r F c ∧ p ≠ c ∧ c ∉ line r F S x) {fuel : Nat} {c : Climb} (hf : c.st.length ≤ fuel)
    (h0 : ∃ B, PInv r F g.size w (line r F S x) R c B) :
    Tot (loop (climb t w) fuel c) fun c => ∃ B, PInv r F g.size w (line r F S x) R c B ∧ ∀ y ∈ c.st, y ∈ rpath r F w := by
  have hwl := lt_of b hw
  refine Tot.loop (P := fun c => ∃ B, PInv r F g.size w (line r F S x) R c B) (fun c => c.st.length) (fun c hc => ?_) h0 hf
  obtain ⟨B, h1, h2, h3, h4⟩ := hc
  rw [climb]
  cases hst : c.st with
  | nil =>
    exact (tot_ok ..).2 ⟨B, ⟨h1, h2, h3, h4⟩, fun y hy => by simp at hy⟩
  | cons u st =>
    rw [hst, List.reverse_cons, List.append_assoc, List.singleton_append] at h1
    have hu : u ∈ line r F S x := by rw [← h1]; simp
    have hlast : c.last ∈ line r F S x := by rw [← h1]; simp
    have hux := (mem_line.1 hu).1
    have hul := lt_of b hux
    have hcl := lt_of b (mem_line.1 hlast).1
    dsimp only
    rw [climbAt, rd_at 0 (by rw [b.dsz]; exact hwl), ok_bind, rd_at 0 (by rw [b.dsz]; exact hul), ok_bind, b.dep w hwl, b.dep u hul]
    by_cases hd : ((Tree.depth r F w : Nat) : Int) < (Tree.depth r F u : Nat)
    · rw [if_pos hd]
      have hd' : u ∉ rpath r F w := (depth_cmp b hux hw).1 (by omega)
      have h1' : (st.reverse ++ [u]) ++ c.last :: B = line r F S x := by rw [← h1]; simp
      obtain ⟨o1, o2⟩ := line_order b hx (A := st.reverse ++ [u]) h1'.symm (p := u) (by simp)
      have hnd := line_nodup b (S := S) hx
      rw [← h1] at hnd
      have hun : u ∉ c.last :: B := fun hm => (List.nodup_cons.1 (List.nodup_append.1 hnd).2.1).1 hm
      refine Tot.bind (link_tot h4 hul hcl o2 ?_ ?_) fun aux ha => (tot_ok ..).2 ⟨⟨c.last :: B, ?_, hd', ?_, ?_⟩, ?_⟩
      · rintro (h | h)
        · exact (hR _ _ h).2.2 hlast
        · exact hun (adj_mem h).1
      · rintro (h | h)
        · exact o2 (anti b hul o1 (hR _ _ h).1)
        · exact hun (adj_mem h).2
      · exact h1
      · intro y hy
        rcases List.mem_cons.1 hy with rfl | hy
        · exact h2
        · exact h3 y hy
      · refine ha.congr fun p q => ?_
        rw [adj_cons]
        constructor
        · rintro ((h | h) | h)
          · exact Or.inl h
          · exact Or.inr (Or.inr h)
          · exact Or.inr (Or.inl h)
        · rintro (h | h | h)
          · exact Or.inl (Or.inl h)
          · exact Or.inr h
          · exact Or.inl (Or.inr h)
      · exact Nat.lt_succ_self _
    · rw [if_neg hd]
      refine (tot_ok ..).2 ⟨B, ⟨by rw [hst, ← h1]; simp, h2, h3, h4⟩, fun y hy => ?_⟩
      have huw : u ∈ rpath r F w := by
        by_contra h
        exact hd (by have := (depth_cmp b hux hw).2 h; omega)
      rcases List.mem_cons.1 hy with rfl | hy
      · exact huw
      · exact rpath_trans b.rooted.nodup (line_order b hx (A := st.reverse) h1.symm (by simpa using hy)).1 huw

/-- The edges collected so far: those towards finished vertices. -/
def Done (r : Nat) (F : Forest) (S : Nat → Prop) (x : Nat) (p c : Nat) : Prop := Near r F S p c ∧ c ∉ line r F S x

theorem line_split {S : Nat → Prop} {x w : Nat} (hx : x < g.size) (hw : w ∈ rpath r F x) {A D : List Nat} (h : line r F S x = A ++ D) (hA : ∀ y ∈ A, y ∈ rpath r F w) (hD : ∀ y ∈ D, y ∉ rpath r F w) :
    line r F S w = A := by
  classical
  obtain ⟨k, hk⟩ := rpath_prefix b.rooted.nodup hw
  have hnd := rnodup b hx
  rw [← hk] at hnd
  have h1 : line r F S x = line r F S w ++ k.filter fun y => decide (S y) := by rw [line, line, ← hk, List.filter_append]
  have h2 := congrArg (List.filter fun y => decide (y ∈ rpath r F w)) (h1.symm.trans h)
  have e1 : (line r F S w).filter (fun y => decide (y ∈ rpath r F w)) = line r F S w := List.filter_eq_self.2 fun y hy => by simpa using (mem_line.1 hy).1
  have e2 : A.filter (fun y => decide (y ∈ rpath r F w)) = A := List.filter_eq_self.2 fun y hy => by simpa using hA y hy
  have e3 : D.filter (fun y => decide (y ∈ rpath r F w)) = [] := List.filter_eq_nil_iff.2 fun y hy => by simpa using hD y hy
  have e4 : (k.filter fun y => decide (S y)).filter (fun y => decide (y ∈ rpath r F w)) = [] := List.filter_eq_nil_iff.2 fun y hy => by
    have := (List.mem_filter.1 hy).1
    simpa using fun h => (List.nodup_append.1 hnd).2.2 y h y this rfl
  rw [List.filter_append, List.filter_append, e1, e2, e3, e4, List.append_nil, List.append_nil] at h2
  exact h2

/-- Adding `w` to the set. -/
theorem line_insert {S S' : Nat → Prop} {x w : Nat} (hx : x < g.size) (hw : w ∈ rpath r F x) (hS : ∀ s ∈ rpath r F x, S' s ↔ S s ∨ s = w) {A D : List Nat} (h : line r F S x = A ++ D) (hA : ∀ y ∈ A, y ∈ rpath r F w) (hD : ∀ y ∈ D, y ∉ rpath r F w) :
    ∃ A', line r F S' x = A' ++ w :: D ∧ (A = A' ∨ A = A' ++ [w]) ∧ w ∉ A' := by
  classical
  obtain ⟨k, hk⟩ := rpath_prefix b.rooted.nodup hw
  obtain ⟨P, hP⟩ := rsnoc b (lt_of b hw)
  have hnd := rnodup b hx
  have hndw := rnodup b (lt_of b hw)
  rw [← hk] at hnd
  rw [hP] at hndw
  have hwP : w ∉ P := fun h => (List.nodup_append.1 hndw).2.2 w h w (by simp) rfl
  have hlw := line_split b hx hw h hA hD
  have h1 : line r F S x = line r F S w ++ k.filter fun y => decide (S y) := by rw [line, line, ← hk, List.filter_append]
  have hDk : D = k.filter fun y => decide (S y) := by
    rw [hlw, h] at h1
    exact (List.append_cancel_left h1)
  have hkk : k.filter (fun y => decide (S' y)) = k.filter fun y => decide (S y) := by
    refine List.filter_congr fun y hy => ?_
    rw [decide_eq_decide, hS y (by rw [← hk]; simp [hy])]
    constructor
    · rintro (h | rfl)
      · exact h
      · exact absurd rfl ((List.nodup_append.1 hnd).2.2 y (by rw [hP]; simp) y hy)
    · exact Or.inl
  have hPP : P.filter (fun y => decide (S' y)) = P.filter fun y => decide (S y) := by
    refine List.filter_congr fun y hy => ?_
    rw [decide_eq_decide, hS y (by rw [← hk, hP]; simp [hy])]
    constructor
    · rintro (h | rfl)
      · exact h
      · exact absurd hy hwP
    · exact Or.inl
  have hw' : decide (S' w) = true := by simpa using (hS w hw).2 (Or.inr rfl)
  refine ⟨P.filter fun y => decide (S y), ?_, ?_, fun h => hwP (List.mem_filter.1 h).1⟩
  · rw [line, ← hk, hP, List.filter_append, List.filter_append, hkk, hPP, List.filter_cons_of_pos (p := fun y => decide (S' y)) hw', hDk]; simp
  · rw [← hlw, line, hP, List.filter_append]
    by_cases hSw : S w
    · right; rw [List.filter_cons_of_pos (p := fun y => decide (S y)) (by simpa using hSw)]; simp
    · left; rw [List.filter_cons_of_neg (p := fun y => decide (S y)) (by simpa using hSw)]; simp

theorem branch_tot {l : List Nat} {x y w : Nat} (hl : ∀ a ∈ l, a < g.size ∧ at' 0 t.visit a ≤ at' 0 t.visit x) (hx : x ∈ l) (hy : y < g.size) (hv : at' 0 t.visit x < at' 0 t.visit y) (hw : Com r F g.size x y w) {s : Run}
    (hst : s.st.reverse = line r F (Clo r F g.size l) x) (hE : Edges g.size s.aux (Done r F (Clo r F g.size l) x)) :
    Tot (branch t w x s) fun s' => (y :: s'.st).reverse = line r F (Clo r F g.size (l ++ [y])) y ∧ Edges g.size s'.aux (Done r F (Clo r F g.size (l ++ [y])) y) ∧ (∃ e, s'.upd = s.upd ++ e ∧ (w = x ∨ w ∈ e)) ∧ (∃ e, s'.vs = s.vs ++ e) ∧
      (∀ q ∈ s'.upd, q ∈ s.upd ∨ q < g.size) := by
  have hS := clo_snoc b hl hx hy (Nat.le_of_lt hv) hw
  have hxl := (hl x hx).1
  have hww := (hw.2 w).1 (b.self hw.1)
  have hyx : y ∉ rpath r F x := fun h => by
    have := (b.range hy hxl).1 h
    omega
  have hSx : ∀ s ∈ rpath r F x, Clo r F g.size (l ++ [y]) s ↔ Clo r F g.size l s ∨ s = w := fun s hs => by
    rw [hS]
    constructor
    · rintro (h | h | rfl)
      · exact Or.inl h
      · exact Or.inr h
      · exact absurd hs hyx
    · rintro (h | h)
      · exact Or.inl h
      · exact Or.inr (Or.inl h)
  have hR : ∀ p c, Done r F (Clo r F g.size l) x p c → p ∈ rpath r F c ∧ p ≠ c ∧ c ∉ line r F (Clo r F g.size l) x := fun p c h => ⟨h.1.2.2.2.1, h.1.2.2.1, h.2⟩
  have hCx : Clo r F g.size l x := ⟨x, hx, x, hx, com_self b hxl⟩
  have hxline : x ∈ line r F (Clo r F g.size l) x := mem_line.2 ⟨b.self hxl, hCx⟩
  rw [branch]
  by_cases hwx : w = x
  · rw [if_neg (by simpa using hwx)]
    subst hwx
    obtain ⟨A, hA, hAA, hAw⟩ := line_insert b hxl hww.1 hSx (A := line r F (Clo r F g.size l) w) (D := []) (by simp) (fun y hy => (mem_line.1 hy).1) (by simp)
    have hln := line_next b hl hx hy hv hw hA
    have hnn := near_next b hl hx hy hv hw hA
    have hAw' : line r F (Clo r F g.size l) w = A ++ [w] := by
      rcases hAA with h | h
      · rw [h] at hxline; exact absurd hxline hAw
      · exact h
    refine (tot_ok ..).2 ⟨?_, ?_, ⟨[], by simp, Or.inl rfl⟩, ⟨#[], by simp⟩, fun q hq => Or.inl hq⟩
    · rw [List.reverse_cons, hst, hln, hAw']; simp
    · refine hE.congr fun p c => ?_
      have := hnn p c
      unfold Done
      rw [this]
      constructor
      · exact Or.inl
      · rintro (h | h)
        · exact h
        · exact absurd h adj_single
  · rw [if_pos hwx]
    have hxw : x ∉ rpath r F w := fun h => hwx (anti b hw.1 hww.1 h)
    -- the back of the stack is `x`
    obtain ⟨A0, hA0⟩ : ∃ A0, line r F (Clo r F g.size l) x = A0 ++ [x] := by
      obtain ⟨a, c, h⟩ := List.append_of_mem hxline
      exact ⟨a, line_anc b hxl h⟩
    have hstx : s.st = x :: A0.reverse := by
      have := congrArg List.reverse (hst.trans hA0)
      simpa using this
    rw [hstx, pop, pure_eq, ok_bind]
    dsimp only
    refine Tot.bind (climb_tot b hxl hww.1 hR (c := ⟨s.aux, A0.reverse, x⟩) (by simp) ⟨[], by rw [hA0]; simp, hxw, by simp, hE.congr fun p c => ?_⟩) fun c hc => ?_
    · constructor
      · exact Or.inl
      · rintro (h | h)
        · exact h
        · exact absurd h adj_single
    obtain ⟨B, ⟨p1, p2, p3, p4⟩, p5⟩ := hc
    obtain ⟨A, hA, hAA, hAw⟩ := line_insert b hxl hww.1 hSx (A := c.st.reverse) (D := c.last :: B) p1.symm (fun y hy => p5 y (by simpa using hy)) (fun y hy => by
      rcases List.mem_cons.1 hy with rfl | hy
      · exact p2
      · exact p3 y hy)
    have hln := line_next b hl hx hy hv hw hA
    have hnn := near_next b hl hx hy hv hw hA
    have hlast : c.last ∈ rpath r F x ∧ Clo r F g.size l c.last := mem_line.1 (by rw [← p1]; simp)
    have hwlast : w ∈ rpath r F c.last := by
      rcases comp b hlast.1 hww.1 with h | h
      · exact absurd h p2
      · exact h
    have hwne : w ≠ c.last := fun h => p2 (by rw [← h]; exact b.self hw.1)
    have hlink : Tot (link c.aux w c.last) fun a => Edges g.size a (Done r F (Clo r F g.size (l ++ [y])) y) := by
      refine Tot.mono (link_tot p4 hw.1 (lt_of b hlast.1) hwne ?_ ?_) fun a ha => ha.congr fun p q => ?_
      · rintro (h | h)
        · exact (hR _ _ h).2.2 (mem_line.2 hlast)
        · rcases List.mem_cons.1 (adj_mem h).1 with h | h
          · exact hwne h
          · exact p3 w h (b.self hw.1)
      · rintro (h | h)
        · exact hwne (anti b hw.1 hwlast (hR _ _ h).1)
        · rcases List.mem_cons.1 (adj_mem h).2 with h | h
          · exact hwne h
          · exact p3 w h (b.self hw.1)
      · have := hnn p q
        unfold Done
        rw [this, adj_cons]
        constructor
        · rintro ((h | h) | h)
          · exact Or.inl h
          · exact Or.inr (Or.inr h)
          · exact Or.inr (Or.inl h)
        · rintro (h | h | h)
          · exact Or.inl (Or.inl h)
          · exact Or.inr h
          · exact Or.inl (Or.inr h)
    have hupd : ∀ q ∈ s.upd ++ [w], q ∈ s.upd ∨ q < g.size := fun q hq => by
      rw [List.mem_append, List.mem_singleton] at hq
      rcases hq with h | rfl
      · exact Or.inl h
      · exact Or.inr hw.1
    rw [attach]
    by_cases hh : c.st.head? = some w
    · rw [if_pos hh]
      refine Tot.bind hlink fun a ha => (tot_ok ..).2 ⟨?_, ha, ⟨[w], rfl, Or.inr (by simp)⟩, ⟨#[], by simp⟩, hupd⟩
      rw [List.reverse_cons, hln]
      dsimp only
      have hm : w ∈ c.st.reverse := by rw [List.mem_reverse]; exact List.mem_of_mem_head? hh
      rcases hAA with h | h
      · rw [h] at hm; exact absurd hm hAw
      · rw [h]; simp
    · rw [if_neg hh]
      refine Tot.bind hlink fun a ha => (tot_ok ..).2 ⟨?_, ha, ⟨[w], rfl, Or.inr (by simp)⟩, ⟨#[w], by simp⟩, hupd⟩
      rw [List.reverse_cons, List.reverse_cons, hln]
      rcases hAA with h | h
      · rw [h]; simp
      · have : c.st = w :: A.reverse := by
          have := congrArg List.reverse h
          simpa using this
        rw [this] at hh
        simp at hh

end

end AuxTree
