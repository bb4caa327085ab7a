import Verif.Proof.BiconnectedComp

/-!
# C125, C126: biconnected components
-/

namespace Biconnected.Props
open Cxx Cut

/-- Building succeeds for every multigraph, and leaves the static stack empty for the next object. -/
theorem make_ok (n : Nat) (es : List (Nat × Nat)) (h : ∀ e ∈ es, e.1 < n ∧ e.2 < n) : ∃ p, make n es = .ok p ∧ p.2.stack = [] := by
  obtain ⟨p, hp, v, -, F⟩ := make_tot h
  exact ⟨p, hp, F.stack⟩

theorem built_of {n : Nat} {es : List (Nat × Nat)} {p : LowLink.Obj × St} (h : ∀ e ∈ es, e.1 < n ∧ e.2 < n) (hp : make n es = .ok p) :
    ∃ v, LowLink.Built n es p.1 v ∧ Fin n es p.1 v p.2 := by
  obtain ⟨p', hp', hv⟩ := make_tot h
  rw [hp] at hp'
  cases hp'
  exact hv

theorem get_ok {n : Nat} {es : List (Nat × Nat)} {p : LowLink.Obj × St} {v : LowLink.V} (B : LowLink.Built n es p.1 v) (F : Fin n es p.1 v p.2) {i : Nat}
    (hi : i < es.length) : get p.1 p.2 i = .ok (at' (-1) p.2.comp i) := by
  unfold get
  rw [B.built]
  exact rd_at (-1) (by rw [F.inv.s2]; exact hi)

/-- `operator[]` numbers the edges between different vertices by `0, …, edge_component_num() - 1`; two of them have the same number iff no removal of a
single vertex separates them; `edge_component_num()` is the number of these classes. A self-loop has the number `-1`. -/
theorem edge_ids {n : Nat} {es : List (Nat × Nat)} {p : LowLink.Obj × St} (h : ∀ e ∈ es, e.1 < n ∧ e.2 < n) (hp : make n es = .ok p) :
    ∃ (c : Nat → Nat) (m : Nat), (∀ x y i, Inc es x y i → x ≠ y → get p.1 p.2 i = .ok (c i : Int) ∧ c i < m) ∧ edgeComponentNum p.1 p.2 = .ok m ∧
      (∀ x y i x' y' j, Inc es x y i → x ≠ y → Inc es x' y' j → x' ≠ y' → (c i = c j ↔ SameBlock es i j)) ∧
      CompCount es.length (fun i => ∃ x y, Inc es x y i ∧ x ≠ y) (SameBlock es) m ∧
      ∀ x i, Inc es x x i → get p.1 p.2 i = .ok (-1) := by
  obtain ⟨v, B, F⟩ := built_of h hp
  have cv : ∀ x y i, Inc es x y i → x ≠ y → ((at' (-1) p.2.comp i).toNat : Int) = at' (-1) p.2.comp i ∧ (at' (-1) p.2.comp i).toNat < p.2.num := by
    intro x y i h1 h2
    obtain ⟨k, k1, k2⟩ := F.id B h1 h2
    rw [k2]
    exact ⟨by omega, by omega⟩
  refine ⟨fun i => (at' (-1) p.2.comp i).toNat, p.2.num, ?_, ?_, ?_, F.count B, ?_⟩
  · intro x y i h1 h2
    refine ⟨?_, (cv x y i h1 h2).2⟩
    rw [get_ok B F (inc_lt h1)]
    dsimp only
    rw [(cv x y i h1 h2).1]
  · unfold edgeComponentNum
    rw [B.built]
    rfl
  · intro x y i x' y' j h1 h2 h3 h4
    have e1 := (cv x y i h1 h2).1
    have e2 := (cv x' y' j h3 h4).1
    rw [← F.same B h1 h2 h3 h4]
    dsimp only
    omega
  · intro x i hx
    rw [get_ok B F (inc_lt hx), F.inv.loops i x hx]

/-- `isolated_vertices()` lists the vertices without incident edges in increasing order, and `component_num()` counts the blocks and these. -/
theorem isolated_ok {n : Nat} {es : List (Nat × Nat)} {p : LowLink.Obj × St} (h : ∀ e ∈ es, e.1 < n ∧ e.2 < n) (hp : make n es = .ok p) :
    ∃ l m, isolatedVertices p.1 p.2 = .ok l ∧ edgeComponentNum p.1 p.2 = .ok m ∧ componentNum p.1 p.2 = .ok (m + l.length) ∧ l.Pairwise (· < ·) ∧
      ∀ x, x ∈ l ↔ x < n ∧ ∀ y i, ¬ Inc es x y i := by
  obtain ⟨v, B, F⟩ := built_of h hp
  refine ⟨p.2.iso, p.2.num, ?_, ?_, ?_, ?_, ?_⟩
  · unfold isolatedVertices
    rw [B.built]
    rfl
  · unfold edgeComponentNum
    rw [B.built]
    rfl
  · unfold componentNum
    rw [B.built]
    rfl
  · rw [F.iso]
    exact List.Pairwise.filter _ List.pairwise_lt_range
  · intro x
    rw [F.iso, List.mem_filter, List.mem_range]
    refine and_congr_right fun hx => ?_
    rw [List.isEmpty_iff, List.eq_nil_iff_forall_not_mem]
    constructor
    · intro hh y i hi
      exact hh (y, i) ((B.graph.adj x hx y i).mpr hi)
    · rintro hh ⟨y, i⟩ hi
      exact hh y i ((B.graph.adj x hx y i).mp hi)

/-- `components()` of a graph without self-loops: entry `k < edge_component_num()` has the edges with number `k` in increasing order, and exactly the end points
of these edges, without repetition; the remaining entries are the isolated vertices, without edges. -/
theorem components_partial {n : Nat} {es : List (Nat × Nat)} {p : LowLink.Obj × St} (h : ∀ e ∈ es, e.1 < n ∧ e.2 < n) (hl : ∀ e ∈ es, e.1 ≠ e.2)
    (hp : make n es = .ok p) :
    ∃ r m l, components p.1 p.2 = .ok r ∧ edgeComponentNum p.1 p.2 = .ok m ∧ isolatedVertices p.1 p.2 = .ok l ∧ r.size = m + l.length ∧
      (∀ (k : Nat) b, k < m → r[k]? = some b →
        b.eids.Pairwise (· < ·) ∧ (∀ i, i ∈ b.eids ↔ i < es.length ∧ get p.1 p.2 i = .ok (k : Int)) ∧
        b.vids.Nodup ∧ ∀ x, x ∈ b.vids ↔ ∃ y i, Inc es x y i ∧ get p.1 p.2 i = .ok (k : Int)) ∧
      ∀ (j : Nat) x, l[j]? = some x → r[m + j]? = some ⟨[x], []⟩ := by
  obtain ⟨v, B, F⟩ := built_of h hp
  obtain ⟨r, h1, h2, h3, h4⟩ := components_tot B F hl
  refine ⟨r, p.2.num, p.2.iso, h1, ?_, ?_, h2, ?_, ?_⟩
  · unfold edgeComponentNum
    rw [B.built]
    rfl
  · unfold isolatedVertices
    rw [B.built]
    rfl
  · intro k b hk hb
    have e : at' ⟨[], []⟩ r k = b := by
      unfold at'
      rw [hb]
      rfl
    obtain ⟨c1, c2, c3⟩ := h3 k hk
    rw [e] at c1 c2 c3
    have me : ∀ i, i ∈ b.eids ↔ i < es.length ∧ get p.1 p.2 i = .ok (k : Int) := by
      intro i
      rw [c1]
      unfold eidsOf
      rw [List.mem_filter, List.mem_range]
      refine and_congr_right fun hi => ?_
      rw [get_ok B F hi]
      simp
    refine ⟨?_, me, c2, ?_⟩
    · rw [c1]
      exact List.Pairwise.filter _ List.pairwise_lt_range
    · intro x
      rw [c3 x, ← c1]
      constructor
      · rintro ⟨i, i1, y, i2⟩
        exact ⟨y, i, i2, ((me i).mp i1).2⟩
      · rintro ⟨y, i, i1, i2⟩
        exact ⟨i, (me i).mpr ⟨inc_lt i1, i2⟩, y, i1⟩
  · intro j x hj
    obtain ⟨hj', rfl⟩ := List.getElem?_eq_some_iff.mp hj
    have := h4 j hj'
    have hs : p.2.num + j < r.size := by omega
    unfold at' at this
    rw [Array.getElem?_eq_getElem hs] at this ⊢
    exact congrArg some this

/-- With a self-loop, `components()` writes at the index `-1`. -/
theorem components_loop : (∀ e ∈ [(0, 1), (1, 1)], e.1 < 2 ∧ e.2 < 2) ∧
    (do let p ← make 2 [(0, 1), (1, 1)]; components p.1 p.2) = .error .ub := by
  refine ⟨by decide, rfl⟩

/-- A triangle with a pending edge that is doubled, and a vertex of its own. -/
example : (∀ e ∈ [(0, 1), (1, 2), (2, 0), (2, 3), (3, 2)], e.1 < 5 ∧ e.2 < 5) ∧ (∀ e ∈ [(0, 1), (1, 2), (2, 0), (2, 3), (3, 2)], e.1 ≠ e.2) ∧
    (do let p ← make 5 [(0, 1), (1, 2), (2, 0), (2, 3), (3, 2)]; components p.1 p.2) = .ok #[⟨[2, 3], [3, 4]⟩, ⟨[0, 1, 2], [0, 1, 2]⟩, ⟨[4], []⟩] := by
  refine ⟨by decide, by decide, rfl⟩

end Biconnected.Props
