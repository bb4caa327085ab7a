import Verif.Model.AuxTree
import Verif.Proof.HLDSpec
import Verif.Spec.AuxTree

/-! # Auxiliary trees: closures and chains -/

namespace AuxTree
open Cxx Graph Tree HLD

variable {g : Array (List Nat)} {r : Nat} {F : Forest} {t : St}

/-- `w` is the lowest common ancestor of `a` and `b`, in terms of root paths. -/
def Com (r : Nat) (F : Forest) (n a b w : Nat) : Prop := w < n ∧ ∀ y, y ∈ rpath r F w ↔ y ∈ rpath r F a ∧ y ∈ rpath r F b

/-- `Closure` in terms of root paths. -/
def Clo (r : Nat) (F : Forest) (n : Nat) (l : List Nat) (s : Nat) : Prop := ∃ a ∈ l, ∃ b ∈ l, Com r F n a b s

/-- `Closest` in terms of root paths. -/
def Near (r : Nat) (F : Forest) (S : Nat → Prop) (p c : Nat) : Prop :=
  S p ∧ S c ∧ p ≠ c ∧ p ∈ rpath r F c ∧ ∀ q, S q → q ∈ rpath r F c → q ≠ c → q ∈ rpath r F p

/-- The members of `S` on the path to `x`. -/
noncomputable def line (r : Nat) (F : Forest) (S : Nat → Prop) (x : Nat) : List Nat := open Classical in (rpath r F x).filter fun y => decide (S y)

/-- Consecutive elements. -/
def Adj (l : List Nat) (p c : Nat) : Prop := ∃ a b, l = a ++ p :: c :: b

theorem adj_single {x p c : Nat} : ¬ Adj [x] p c := by
  rintro ⟨a, b, h⟩
  have := congrArg List.length h
  simp at this
  omega

theorem adj_nil {p c : Nat} : ¬ Adj [] p c := by
  rintro ⟨a, b, h⟩
  have := congrArg List.length h
  simp at this

theorem adj_cons {x y : Nat} {l : List Nat} {p c : Nat} : Adj (x :: y :: l) p c ↔ (p = x ∧ c = y) ∨ Adj (y :: l) p c := by
  constructor
  · rintro ⟨a, b, h⟩
    cases a with
    | nil => simp at h; exact Or.inl ⟨h.1.symm, h.2.1.symm⟩
    | cons z a => rw [List.cons_append, List.cons.injEq] at h; exact Or.inr ⟨a, b, h.2⟩
  · rintro (⟨rfl, rfl⟩ | ⟨a, b, h⟩)
    · exact ⟨[], l, rfl⟩
    · exact ⟨x :: a, b, by rw [h]; rfl⟩

theorem adj_snoc {l : List Nat} {x y p c : Nat} : Adj (l ++ [x, y]) p c ↔ Adj (l ++ [x]) p c ∨ (p = x ∧ c = y) := by
  constructor
  · rintro ⟨a, b, h⟩
    rcases b.eq_nil_or_concat with rfl | ⟨b, z, rfl⟩
    · obtain ⟨h1, h2⟩ := List.append_inj' h rfl
      simp at h2
      exact Or.inr ⟨h2.1.symm, h2.2.symm⟩
    · refine Or.inl ⟨a, b, ?_⟩
      have : l ++ [x, y] = (l ++ [x]) ++ [y] := by simp
      have h2 : a ++ p :: c :: (b.concat z) = (a ++ p :: c :: b) ++ [z] := by simp
      rw [this, h2] at h
      exact (List.append_inj' h rfl).1
  · rintro (⟨a, b, h⟩ | ⟨rfl, rfl⟩)
    · exact ⟨a, b ++ [y], by rw [show l ++ [x, y] = (l ++ [x]) ++ [y] by simp, h]; simp⟩
    · exact ⟨l, [], rfl⟩

theorem adj_mem {l : List Nat} {p c : Nat} (h : Adj l p c) : p ∈ l ∧ c ∈ l := by
  obtain ⟨a, b, rfl⟩ := h
  simp

theorem append_cons_unique {A A' B B' : List Nat} {c : Nat} (hnd : (A ++ c :: B).Nodup) (h : A ++ c :: B = A' ++ c :: B') : A = A' := by
  have h1 : c ∉ A := fun hm => (List.nodup_append.1 hnd).2.2 c hm c (by simp) rfl
  rw [h] at hnd
  have h2 : c ∉ A' := fun hm => (List.nodup_append.1 hnd).2.2 c hm c (by simp) rfl
  induction A generalizing A' with
  | nil =>
    cases A' with
    | nil => rfl
    | cons x A' => simp at h; exact absurd (by simp [h.1]) h2
  | cons x A ih =>
    cases A' with
    | nil => simp at h; exact absurd (by simp [h.1]) h1
    | cons y A' =>
      rw [List.cons_append, List.cons_append, List.cons.injEq] at h
      rw [h.1, ih (by rw [List.cons_append] at hnd; exact (List.nodup_cons.1 hnd).2) h.2 (fun hm => h1 (List.mem_cons_of_mem _ hm)) (fun hm => h2 (List.mem_cons_of_mem _ hm))]

/-! ### Root paths -/

section
variable (b : Built g r F t)
include b

theorem anti {x y : Nat} (hx : x < g.size) (h1 : x ∈ rpath r F y) (h2 : y ∈ rpath r F x) : x = y :=
  (anc_eq b.rooted.nodup ((b.rooted.lt_iff x).1 (by rw [b.gsz]; exact hx)) h2 (depth_le b.rooted.nodup h1)).symm

theorem lt_of {a x : Nat} (h : a ∈ rpath r F x) : a < g.size := by rw [← b.gsz]; exact b.rooted.mem_lt h

theorem comp {x y z : Nat} (h1 : x ∈ rpath r F z) (h2 : y ∈ rpath r F z) : x ∈ rpath r F y ∨ y ∈ rpath r F x := by
  have hx := b.self (lt_of b h1)
  have hy := b.self (lt_of b h2)
  have p1 := rpath_prefix b.rooted.nodup h1
  have p2 := rpath_prefix b.rooted.nodup h2
  rcases List.prefix_or_prefix_of_prefix p1 p2 with h | h
  · exact Or.inl (h.subset hx)
  · exact Or.inr (h.subset hy)

/-- Everything below a vertex is visited consecutively. -/
theorem between {a x y s : Nat} (ha : a < g.size) (hx : x < g.size) (hy : y < g.size) (h1 : at' 0 t.visit a ≤ at' 0 t.visit x) (h2 : at' 0 t.visit x ≤ at' 0 t.visit y) (hsa : s ∈ rpath r F a) (hsy : s ∈ rpath r F y) : s ∈ rpath r F x := by
  have hs := lt_of b hsa
  rw [b.range hs ha] at hsa
  rw [b.range hs hy] at hsy
  rw [b.range hs hx]
  omega

theorem com_self {a : Nat} (ha : a < g.size) : Com r F g.size a a a := ⟨ha, fun y => ⟨fun h => ⟨h, h⟩, fun h => h.1⟩⟩

theorem com_unique {a a' w w' : Nat} (h1 : Com r F g.size a a' w) (h2 : Com r F g.size a a' w') : w = w' :=
  anti b h1.1 ((h2.2 w).2 ((h1.2 w).1 (b.self h1.1))) ((h1.2 w').2 ((h2.2 w').1 (b.self h2.1)))

theorem com_exists {a a' : Nat} (ha : a < g.size) (ha' : a' < g.size) : ∃ w, Com r F g.size a a' w := by
  obtain ⟨w, -, h⟩ := b.lca_tot ha ha'
  exact ⟨w, h⟩

/-- Adding the next vertex in visit order. -/
theorem clo_snoc {l : List Nat} {x y w : Nat} (hl : ∀ a ∈ l, a < g.size ∧ at' 0 t.visit a ≤ at' 0 t.visit x) (hx : x ∈ l) (hy : y < g.size) (hv : at' 0 t.visit x ≤ at' 0 t.visit y) (hw : Com r F g.size x y w) (s : Nat) :
    Clo r F g.size (l ++ [y]) s ↔ Clo r F g.size l s ∨ s = w ∨ s = y := by
  have hxl := (hl x hx).1
  have key : ∀ a ∈ l, Com r F g.size a y s → Clo r F g.size l s ∨ s = w := by
    intro a ha hs
    by_cases hsw : s = w
    · exact Or.inr hsw
    left
    have hss := (hs.2 s).1 (b.self hs.1)
    have hsx := between b (hl a ha).1 hxl hy (hl a ha).2 hv hss.1 hss.2
    have hsw' : s ∈ rpath r F w := (hw.2 s).2 ⟨hsx, hss.2⟩
    have hww := (hw.2 w).1 (b.self hw.1)
    refine ⟨a, ha, x, hx, hs.1, fun z => ⟨fun hz => ⟨rpath_trans b.rooted.nodup hz hss.1, rpath_trans b.rooted.nodup hz hsx⟩, fun ⟨h1, h2⟩ => ?_⟩⟩
    rcases comp b h2 hww.1 with h3 | h3
    · exact (hs.2 z).2 ⟨h1, rpath_trans b.rooted.nodup h3 hww.2⟩
    · exact absurd (anti b hs.1 hsw' ((hs.2 w).2 ⟨rpath_trans b.rooted.nodup h3 h1, hww.2⟩)) hsw
  constructor
  · rintro ⟨a, ha, c, hc, hs⟩
    rw [List.mem_append, List.mem_singleton] at ha hc
    rcases ha with ha | rfl <;> rcases hc with hc | rfl
    · exact Or.inl ⟨a, ha, c, hc, hs⟩
    · rcases key a ha hs with h | h
      · exact Or.inl h
      · exact Or.inr (Or.inl h)
    · rcases key c hc ⟨hs.1, fun z => by rw [hs.2 z]; exact and_comm⟩ with h | h
      · exact Or.inl h
      · exact Or.inr (Or.inl h)
    · exact Or.inr (Or.inr (com_unique b hs (com_self b hy)))
  · rintro (⟨a, ha, c, hc, hs⟩ | rfl | rfl)
    · exact ⟨a, List.mem_append_left _ ha, c, List.mem_append_left _ hc, hs⟩
    · exact ⟨x, List.mem_append_left _ hx, y, by simp, hw⟩
    · exact ⟨s, by simp, s, by simp, com_self b hy⟩

omit b in
theorem mem_line {S : Nat → Prop} {x y : Nat} : y ∈ line r F S x ↔ y ∈ rpath r F x ∧ S y := by simp [line]

theorem rnodup {x : Nat} (hx : x < g.size) : (rpath r F x).Nodup := (b.rooted.isPath (by rw [b.gsz]; exact hx)).nodup

theorem rsnoc {x : Nat} (hx : x < g.size) : ∃ A, rpath r F x = A ++ [x] := by
  have h := rpath_last ((b.rooted.lt_iff x).1 (by rw [b.gsz]; exact hx))
  exact ⟨_, (List.dropLast_append_getLast? x h).symm⟩

theorem line_nodup {S : Nat → Prop} {x : Nat} (hx : x < g.size) : (line r F S x).Nodup := by
  classical
  exact List.Nodup.filter _ (rnodup b hx)

theorem line_anc {S : Nat → Prop} {c x : Nat} (hx : x < g.size) {p q : List Nat} (h : line r F S x = p ++ c :: q) : line r F S c = p ++ [c] := by
  classical
  have hc : c ∈ line r F S x := by rw [h]; simp
  have hnd := line_nodup b (S := S) hx
  rw [mem_line] at hc
  obtain ⟨k, hk⟩ := rpath_prefix b.rooted.nodup hc.1
  obtain ⟨A, hA⟩ := rsnoc b (lt_of b hc.1)
  have hSc : decide (S c) = true := by simpa using hc.2
  have h1 : line r F S c = A.filter (fun y => decide (S y)) ++ [c] := by
    rw [line, hA, List.filter_append, List.filter_cons_of_pos (p := fun y => decide (S y)) hSc, List.filter_nil]
  have h2 : line r F S x = A.filter (fun y => decide (S y)) ++ c :: k.filter (fun y => decide (S y)) := by
    rw [line, ← hk, hA, List.filter_append, List.filter_append, List.filter_cons_of_pos (p := fun y => decide (S y)) hSc, List.filter_nil]; simp
  rw [h1]
  have h3 := h2.symm.trans h
  rw [h] at hnd
  rw [append_cons_unique hnd h3.symm]

/-- Closest proper ancestors are neighbours on a line. -/
theorem near_adj {S : Nat → Prop} {x c : Nat} (hx : x < g.size) (hc : c ∈ line r F S x) (p : Nat) : Near r F S p c ↔ Adj (line r F S x) p c := by
  obtain ⟨pre, suf, h⟩ := List.append_of_mem hc
  have hnd := line_nodup b (S := S) hx
  have hl := line_anc b hx h
  have hcl := lt_of b (mem_line.1 hc).1
  have hndc := line_nodup b (S := S) hcl
  rcases pre.eq_nil_or_concat with rfl | ⟨pre, p', rfl⟩
  · constructor
    · rintro ⟨h1, h2, h3, h4, h5⟩
      have : p ∈ line r F S c := mem_line.2 ⟨h4, h1⟩
      rw [hl] at this
      simp at this
      exact absurd this h3
    · rintro ⟨a, e, h6⟩
      rw [h6] at h hnd
      have : a ++ [p] = [] := append_cons_unique (c := c) (B := e) (B' := suf) (by simpa using hnd) (by simpa using h)
      simp at this
  · rw [List.concat_eq_append] at h hl
    have hp' : p' ∈ line r F S c := by rw [hl]; simp
    have hpl : line r F S p' = pre ++ [p'] := line_anc b hcl (q := [c]) (by rw [hl]; simp)
    have hne : p' ≠ c := by
      rintro rfl
      rw [hl] at hndc
      exact (List.nodup_append.1 hndc).2.2 p' (by simp) p' (by simp) rfl
    have hadj : Adj (line r F S x) p c ↔ p = p' := by
      constructor
      · rintro ⟨a, e, h6⟩
        rw [h6] at h hnd
        have : a ++ [p] = pre ++ [p'] := append_cons_unique (c := c) (B := e) (B' := suf) (by simpa using hnd) (by simpa using h)
        simpa using (List.append_inj' this rfl).2
      · rintro rfl
        exact ⟨pre, suf, by rw [h]; simp⟩
    rw [hadj]
    have hin : ∀ q, S q → q ∈ rpath r F c → q ≠ c → q ∈ rpath r F p' := by
      intro q h1 h2 h3
      have : q ∈ line r F S c := mem_line.2 ⟨h2, h1⟩
      rw [hl, ← hpl, List.mem_append, List.mem_singleton] at this
      rcases this with h4 | h4
      · exact (mem_line.1 h4).1
      · exact absurd h4 h3
    constructor
    · rintro ⟨h1, h2, h3, h4, h5⟩
      exact anti b (lt_of b h4) (hin p h1 h4 h3) (h5 p' (mem_line.1 hp').2 (mem_line.1 hp').1 hne)
    · rintro rfl
      exact ⟨(mem_line.1 hp').2, (mem_line.1 hc).2, hne, (mem_line.1 hp').1, hin⟩

/-- The stack after the next vertex. -/
theorem line_next {l : List Nat} {x y w : Nat} (hl : ∀ a ∈ l, a < g.size ∧ at' 0 t.visit a ≤ at' 0 t.visit x) (hx : x ∈ l) (hy : y < g.size) (hv : at' 0 t.visit x < at' 0 t.visit y) (hw : Com r F g.size x y w)
    {A D : List Nat} (hA : line r F (Clo r F g.size (l ++ [y])) x = A ++ w :: D) : line r F (Clo r F g.size (l ++ [y])) y = A ++ [w, y] := by
  classical
  have hS := clo_snoc b hl hx hy (Nat.le_of_lt hv) hw
  obtain ⟨S', hS'⟩ : ∃ S', S' = Clo r F g.size (l ++ [y]) := ⟨_, rfl⟩
  rw [← hS'] at hA hS ⊢
  have hxl := (hl x hx).1
  have hww := (hw.2 w).1 (b.self hw.1)
  have hlw := line_anc b hxl hA
  have hwy : w ≠ y := by
    rintro rfl
    have := (b.range hw.1 hxl).1 hww.1
    omega
  obtain ⟨k, hk⟩ := rpath_prefix b.rooted.nodup hww.2
  obtain ⟨Y, hY⟩ := rsnoc b hy
  have hnd := rnodup b hy
  rcases k.eq_nil_or_concat with rfl | ⟨k, z, rfl⟩
  · rw [List.append_nil] at hk
    exact absurd (anti b hw.1 hww.2 (by rw [hk]; exact b.self hy)) hwy
  · rw [List.concat_eq_append] at hk
    obtain rfl : z = y := by
      rw [hY, ← List.append_assoc] at hk
      simpa using (List.append_inj' hk rfl).2
    have hz : decide (S' z) = true := by simpa using (hS z).2 (Or.inr (Or.inr rfl))
    have hk0 : k.filter (fun y => decide (S' y)) = [] := by
      rw [List.filter_eq_nil_iff]
      intro q hq
      rw [← hk] at hnd
      have hqw : q ∉ rpath r F w := fun h => (List.nodup_append.1 hnd).2.2 q h q (by simp [hq]) rfl
      rw [decide_eq_true_eq, hS]
      rintro (⟨a, ha, c, hc, h⟩ | rfl | rfl)
      · have h1 := ((h.2 q).1 (b.self h.1)).1
        have h2 : q ∈ rpath r F z := by rw [← hk]; simp [hq]
        exact hqw ((hw.2 q).2 ⟨between b (hl a ha).1 hxl hy (hl a ha).2 (Nat.le_of_lt hv) h1 h2, h2⟩)
      · exact hqw (b.self hw.1)
      · rw [← List.append_assoc] at hnd
        exact (List.nodup_append.1 hnd).2.2 q (by simp [hq]) q (by simp) rfl
    have h1 : line r F S' z = line r F S' w ++ [z] := by
      rw [line, line, ← hk, List.filter_append, List.filter_append, hk0, List.filter_cons_of_pos (p := fun y => decide (S' y)) hz]; simp
    rw [h1, hlw]; simp

/-- The edges after the next vertex. -/
theorem near_next {l : List Nat} {x y w : Nat} (hl : ∀ a ∈ l, a < g.size ∧ at' 0 t.visit a ≤ at' 0 t.visit x) (hx : x ∈ l) (hy : y < g.size) (hv : at' 0 t.visit x < at' 0 t.visit y) (hw : Com r F g.size x y w)
    {A D : List Nat} (hA : line r F (Clo r F g.size (l ++ [y])) x = A ++ w :: D) (p c : Nat) :
    (Near r F (Clo r F g.size (l ++ [y])) p c ∧ c ∉ line r F (Clo r F g.size (l ++ [y])) y) ↔
      (Near r F (Clo r F g.size l) p c ∧ c ∉ line r F (Clo r F g.size l) x) ∨ Adj (w :: D) p c := by
  have hn := line_next b hl hx hy hv hw hA
  have hS := clo_snoc b hl hx hy (Nat.le_of_lt hv) hw
  obtain ⟨S', hS'⟩ : ∃ S', S' = Clo r F g.size (l ++ [y]) := ⟨_, rfl⟩
  obtain ⟨S, hS0⟩ : ∃ S, S = Clo r F g.size l := ⟨_, rfl⟩
  rw [← hS'] at hA hS hn ⊢
  rw [← hS0] at hS ⊢
  have hxl := (hl x hx).1
  have hww := (hw.2 w).1 (b.self hw.1)
  have hyx : ∀ c, S c → y ∉ rpath r F c := by
    intro c hc hyc
    rw [hS0] at hc
    obtain ⟨a, ha, a', ha', h⟩ := hc
    have h1 := (b.range hy (hl a ha).1).1 ((h.2 y).1 hyc).1
    have := (hl a ha).2
    omega
  -- an unfinished vertex
  have key : ∀ c, S c → c ∉ rpath r F x → w ∈ rpath r F c → ∃ z, S z ∧ z ∈ rpath r F c ∧ z ≠ c ∧ w ∈ rpath r F z := by
    intro c hc hcx hwc
    rw [hS0] at hc ⊢
    obtain ⟨a, ha, a', ha', h⟩ := hc
    have hca := ((h.2 c).1 (b.self h.1)).1
    obtain ⟨z, hz⟩ := com_exists b (hl a ha).1 hxl
    have hzz := (hz.2 z).1 (b.self hz.1)
    have hwz : w ∈ rpath r F z := (hz.2 w).2 ⟨rpath_trans b.rooted.nodup hwc hca, hww.1⟩
    have hzc : z ∈ rpath r F c := by
      rcases comp b hca hzz.1 with h1 | h1
      · exact absurd (rpath_trans b.rooted.nodup h1 hzz.2) hcx
      · exact h1
    exact ⟨z, ⟨a, ha, x, hx, hz⟩, hzc, fun e => hcx (e ▸ hzz.2), hwz⟩
  have hsame : ∀ c, S c → c ∉ rpath r F x → (Near r F S' p c ↔ Near r F S p c) := by
    intro c hc hcx
    constructor
    · rintro ⟨h1, h2, h3, h4, h5⟩
      refine ⟨?_, hc, h3, h4, fun q hq => h5 q ((hS q).2 (Or.inl hq))⟩
      rcases (hS p).1 h1 with h | rfl | rfl
      · exact h
      · obtain ⟨z, z1, z2, z3, z4⟩ := key c hc hcx h4
        have := anti b (lt_of b z4) z4 (h5 z ((hS z).2 (Or.inl z1)) z2 z3)
        rw [this]; exact z1
      · exact absurd h4 (hyx c hc)
    · rintro ⟨h1, h2, h3, h4, h5⟩
      refine ⟨(hS p).2 (Or.inl h1), (hS c).2 (Or.inl h2), h3, h4, fun q hq hqc hne => ?_⟩
      rcases (hS q).1 hq with h | rfl | rfl
      · exact h5 q h hqc hne
      · obtain ⟨z, z1, z2, z3, z4⟩ := key c hc hcx hqc
        exact rpath_trans b.rooted.nodup z4 (h5 z z1 z2 z3)
      · exact absurd hqc (hyx c hc)
  have hnd := line_nodup b (S := S') hxl
  have hD : ∀ c ∈ D, c ∉ line r F S' y := by
    intro c hc h
    rw [hn] at h
    have h1 : c ∈ line r F S' x := by rw [hA]; simp [hc]
    rw [hA] at hnd
    have h2 := List.nodup_append.1 hnd
    rw [List.mem_append, List.mem_cons, List.mem_singleton] at h
    rcases h with h | rfl | rfl
    · exact h2.2.2 c h c (by simp [hc]) rfl
    · exact (List.nodup_cons.1 h2.2.1).1 hc
    · have := (b.range hy hxl).1 (mem_line.1 h1).1
      omega
  have hadj : ∀ c, c ∈ D → (Near r F S' p c ↔ Adj (w :: D) p c) := by
    intro c hc
    rw [near_adj b hxl (by rw [hA]; simp [hc]) p, hA]
    constructor
    · rintro ⟨a, e, h⟩
      obtain ⟨d1, d2, hd⟩ := List.append_of_mem hc
      rw [hA] at hnd
      have h3 : a ++ [p] = A ++ w :: d1 := append_cons_unique (c := c) (B := e) (B' := d2) (by rw [h] at hnd; simpa using hnd) (by rw [show a ++ [p] ++ c :: e = a ++ p :: c :: e by simp, ← h, hd]; simp)
      rw [hd]
      rcases d1.eq_nil_or_concat with rfl | ⟨d1, p', rfl⟩
      · have := (List.append_inj' h3 rfl).2
        simp at this
        exact ⟨[], d2, by rw [this]; rfl⟩
      · have : a ++ [p] = (A ++ w :: d1) ++ [p'] := by rw [h3]; simp
        have := (List.append_inj' this rfl).2
        simp at this
        exact ⟨w :: d1, d2, by rw [this]; simp⟩
    · rintro ⟨a, e, h⟩
      exact ⟨A ++ a, e, by rw [h]; simp⟩
  constructor
  · rintro ⟨h1, h2⟩
    have hc : S c := by
      rcases (hS c).1 h1.2.1 with h | rfl | rfl
      · exact h
      · exact absurd (by rw [hn]; simp) h2
      · exact absurd (by rw [hn]; simp) h2
    by_cases hcx : c ∈ rpath r F x
    · right
      have h3 : c ∈ line r F S' x := mem_line.2 ⟨hcx, h1.2.1⟩
      rw [hA, List.mem_append, List.mem_cons] at h3
      rcases h3 with h3 | h3 | h3
      · exact absurd (by rw [hn]; simp [h3]) h2
      · exact absurd (by rw [hn]; simp [h3]) h2
      · exact (hadj c h3).1 h1
    · left
      exact ⟨(hsame c hc hcx).1 h1, fun h => hcx (mem_line.1 h).1⟩
  · rintro (⟨h1, h2⟩ | h1)
    · have hcx : c ∉ rpath r F x := fun h => h2 (mem_line.2 ⟨h, h1.2.1⟩)
      refine ⟨(hsame c h1.2.1 hcx).2 h1, fun h => hcx ?_⟩
      have hc := h1.2.1
      rw [hS0] at hc
      obtain ⟨a, ha, a', ha', h3⟩ := hc
      exact between b (hl a ha).1 hxl hy (hl a ha).2 (Nat.le_of_lt hv) ((h3.2 c).1 (b.self h3.1)).1 (mem_line.1 h).1
    · have hc : c ∈ D := by
        obtain ⟨a, e, h⟩ := h1
        cases a with
        | nil => simp at h; rw [h.2]; simp
        | cons z a => simp at h; rw [h.2]; simp
      exact ⟨(hadj c hc).2 h1, hD c hc⟩

end

end AuxTree
