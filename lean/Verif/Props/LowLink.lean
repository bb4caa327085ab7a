import Verif.Proof.LowLink

/-!
# C122, C123: bridges, articulation points and numbers of components (`LowLink`)
-/

namespace LowLink.Props
open Cxx Cut

/-- Building from any list of edges between vertices `< n` (parallel edges and loops allowed) succeeds. -/
theorem make_ok (n : Nat) (es : List (Nat × Nat)) (h : ∀ e ∈ es, e.1 < n ∧ e.2 < n) : ∃ o, make n es = .ok o := by
  obtain ⟨o, ho, -⟩ := make_tot h
  exact ⟨o, ho⟩

theorem built_of {n : Nat} {es : List (Nat × Nat)} {o : Obj} (h : ∀ e ∈ es, e.1 < n ∧ e.2 < n) (ho : make n es = .ok o) : ∃ v, Built n es o v := by
  obtain ⟨o', ho', hv⟩ := make_tot h
  rw [ho] at ho'
  cases ho'
  exact hv

/-- `bridge_ids()` lists exactly the bridges, each once. -/
theorem bridge_ids {n : Nat} {es : List (Nat × Nat)} {o : Obj} (h : ∀ e ∈ es, e.1 < n ∧ e.2 < n) (ho : make n es = .ok o) :
    ∃ l, bridgeIds o = .ok l ∧ l.Nodup ∧ ∀ i, i ∈ l ↔ IsBridge es i := by
  obtain ⟨v, B⟩ := built_of h ho
  refine ⟨o.s.bridges, ?_, B.bn, B.bm⟩
  unfold bridgeIds
  rw [B.built]
  rfl

/-- `articulation_points()` lists exactly the cut vertices, each once. -/
theorem articulation_points {n : Nat} {es : List (Nat × Nat)} {o : Obj} (h : ∀ e ∈ es, e.1 < n ∧ e.2 < n) (ho : make n es = .ok o) :
    ∃ l, articulationPoints o = .ok l ∧ l.Nodup ∧ ∀ u, u ∈ l ↔ IsCut es u := by
  obtain ⟨v, B⟩ := built_of h ho
  refine ⟨o.s.arts, ?_, B.an, B.am⟩
  unfold articulationPoints
  rw [B.built]
  rfl

/-- `is_bridge(x, y)` for the end points of any edge `i` tells whether `i` is a bridge. -/
theorem is_bridge {n : Nat} {es : List (Nat × Nat)} {o : Obj} (h : ∀ e ∈ es, e.1 < n ∧ e.2 < n) (ho : make n es = .ok o) {x y i : Nat} (he : Inc es x y i) :
    ∃ b, isBridge o x y = .ok b ∧ (b = true ↔ IsBridge es i) := by
  obtain ⟨v, B⟩ := built_of h ho
  exact isBridge_ok B he

/-- `connected_component_num()` is the number of connected components. -/
theorem component_num {n : Nat} {es : List (Nat × Nat)} {o : Obj} (h : ∀ e ∈ es, e.1 < n ∧ e.2 < n) (ho : make n es = .ok o) :
    ∃ c, componentNum o = .ok c ∧ CompCount n (fun _ => True) (Reach es fun _ => True) c := by
  obtain ⟨v, B⟩ := built_of h ho
  refine ⟨o.conn, ?_, ?_⟩
  · unfold componentNum
    rw [B.built]
    rfl
  · rw [B.conn]
    convert B.cert.count

/-- `connected_component_num_if_removed(x, y)` is the number of components once one edge between `x` and `y` is removed. -/
theorem component_num_if_edge_removed {n : Nat} {es : List (Nat × Nat)} {o : Obj} (h : ∀ e ∈ es, e.1 < n ∧ e.2 < n) (ho : make n es = .ok o)
    {x y i : Nat} (he : Inc es x y i) :
    ∃ c, componentNumEdge o x y = .ok c ∧ CompCount n (fun _ => True) (Reach es (· ≠ i)) c := by
  classical
  obtain ⟨v, B⟩ := built_of h ho
  obtain ⟨b, h1, h2⟩ := isBridge_ok B he
  refine ⟨o.conn + (if b then 1 else 0), ?_, ?_⟩
  · unfold componentNumEdge
    rw [B.built, h1]
    rfl
  · have e : (if b = true then 1 else 0) = if IsBridge es i then 1 else 0 := by
      by_cases hb : IsBridge es i
      · rw [if_pos hb, if_pos (h2.mpr hb)]
      · rw [if_neg hb, if_neg (fun h => hb (h2.mp h))]
    rw [e, B.conn]
    convert B.cert.count_edge i

/-- `connected_component_num_if_removed(u)` is the number of components once the vertex `u` is removed. -/
theorem component_num_if_vertex_removed {n : Nat} {es : List (Nat × Nat)} {o : Obj} (h : ∀ e ∈ es, e.1 < n ∧ e.2 < n) (ho : make n es = .ok o)
    {u : Nat} (hu : u < n) :
    ∃ c : Nat, componentNumVertex o u = .ok (c : Int) ∧ CompCount n (· ≠ u) (Reach es (Avoid es u)) c := by
  classical
  obtain ⟨v, B⟩ := built_of h ho
  obtain ⟨res, h1, h2⟩ := componentNumVertex_ok B hu
  refine ⟨_, ?_, B.cert.count_vertex hu⟩
  rw [h2]
  push_cast
  rw [roots_ne hu, B.conn, h1]
  congr 1
  omega

/-- `is_articulation_point(u)` tells whether `u` is a cut vertex. -/
theorem is_articulation_point {n : Nat} {es : List (Nat × Nat)} {o : Obj} (h : ∀ e ∈ es, e.1 < n ∧ e.2 < n) (ho : make n es = .ok o)
    {u : Nat} (hu : u < n) : ∃ b, isArticulationPoint o u = .ok b ∧ (b = true ↔ IsCut es u) := by
  classical
  obtain ⟨v, B⟩ := built_of h ho
  obtain ⟨res, h1, h2⟩ := componentNumVertex_ok B hu
  have c := B.cert
  refine ⟨decide ((o.conn : Int) - 1 + res + (if v.par u = -1 then 0 else 1) > o.conn), ?_, ?_⟩
  · unfold isArticulationPoint componentNum
    rw [B.built, h2]
    rfl
  · rw [decide_eq_true_iff, ← c.art_iff hu]
    unfold V.Art
    have ri := (c.root_iff hu).symm
    have mk : ∀ w, w < n → v.par w = u → v.pre u < v.pre w ∧ v.pre w < v.fin u := by
      intro w h1 h2
      obtain ⟨-, h3, -, h4⟩ := c.child_notin h1 h2
      exact ⟨h3, h4.2⟩
    by_cases hc : v.par u = -1
    · rw [if_pos hc]
      constructor
      · intro hgt
        have : 1 < res := by omega
        rw [h1] at this
        obtain ⟨w, b3, w', b4, b5⟩ := Finset.one_lt_card.mp this
        rw [Finset.mem_filter, Finset.mem_range] at b3 b4
        exact .inr ⟨ri.mp hc, w, w', b5, ⟨b3.1, (mk w b3.1 b3.2.1).1, (mk w b3.1 b3.2.1).2, b3.2.1⟩, b4.1, (mk w' b4.1 b4.2.1).1, (mk w' b4.1 b4.2.1).2, b4.2.1⟩
      · rintro (b | ⟨-, w, w', b5, ⟨b1, b2, b3, b4⟩, b1', b2', b3', b4'⟩)
        · exact absurd (ri.mp hc) b.1
        · have : 1 < res := by
            rw [h1]
            refine Finset.one_lt_card.mpr ⟨w, ?_, w', ?_, b5⟩
            · rw [Finset.mem_filter, Finset.mem_range]; exact ⟨b1, b4, (c.root_sep hu hc b1 b4).2.2⟩
            · rw [Finset.mem_filter, Finset.mem_range]; exact ⟨b1', b4', (c.root_sep hu hc b1' b4').2.2⟩
          omega
    · rw [if_neg hc]
      constructor
      · intro hgt
        have : 0 < res := by omega
        rw [h1] at this
        obtain ⟨w, b3⟩ := Finset.card_pos.mp this
        rw [Finset.mem_filter, Finset.mem_range] at b3
        exact .inl ⟨fun e => hc (ri.mpr e), w, b3.1, (mk w b3.1 b3.2.1).1, (mk w b3.1 b3.2.1).2, b3.2.1, b3.2.2⟩
      · rintro (⟨-, w, b1, b2, b3, b4, b5⟩ | b)
        · have : 0 < res := by
            rw [h1]
            refine Finset.card_pos.mpr ⟨w, ?_⟩
            rw [Finset.mem_filter, Finset.mem_range]; exact ⟨b1, b4, b5⟩
          omega
        · exact absurd (ri.mpr b.1) hc

/-- Every query before `build()` fails its assertion. -/
theorem not_built {o : Obj} (hb : o.built = false) (u v : Nat) :
    bridgeIds o = .error .assertion ∧ articulationPoints o = .error .assertion ∧ componentNum o = .error .assertion ∧
    isBridge o u v = .error .assertion ∧ componentNumEdge o u v = .error .assertion ∧ componentNumVertex o u = .error .assertion ∧
    isArticulationPoint o u = .error .assertion := by
  unfold bridgeIds articulationPoints componentNum isBridge componentNumEdge componentNumVertex isArticulationPoint
  rw [hb]
  exact ⟨rfl, rfl, rfl, rfl, rfl, rfl, rfl⟩

/-- **C123 fails**: after another `add_edge` and another `build()` the answers are those of the old graph — here the edge `0` is still
reported as a bridge although it has become one of two parallel edges. -/
theorem rebuild_stale : ∃ o, (do let o ← make 2 [(0, 1)]; let o ← addEdge o 0 1; build o) = .ok o ∧ o.edges = [(0, 1), (0, 1)] ∧
    bridgeIds o = .ok [0] ∧ ¬ IsBridge o.edges 0 := by
  have key : (do let o ← make 2 [(0, 1)]; let o ← addEdge o 0 1; let o ← build o; let b ← bridgeIds o; return (o.edges, b)) = .ok ([(0, 1), (0, 1)], [0]) := by
    decide +kernel
  cases h : (do let o ← make 2 [(0, 1)]; let o ← addEdge o 0 1; build o) with
  | error e =>
    exfalso
    have : (do let o ← (do let o ← make 2 [(0, 1)]; let o ← addEdge o 0 1; build o); let b ← bridgeIds o; return (o.edges, b)) = .ok ([(0, 1), (0, 1)], [0]) := by
      simpa only [bind_assoc] using key
    rw [h] at this
    simp only [err_bind] at this
    cases this
  | ok o =>
    have this : (do let o ← (do let o ← make 2 [(0, 1)]; let o ← addEdge o 0 1; build o); let b ← bridgeIds o; return (o.edges, b)) = .ok ([(0, 1), (0, 1)], [0]) := by
      simpa only [bind_assoc] using key
    rw [h, ok_bind] at this
    cases hb : bridgeIds o with
    | error e => rw [hb, err_bind] at this; cases this
    | ok b =>
      rw [hb, ok_bind, pure_eq] at this
      injection this with this
      injection this with h1 h2
      refine ⟨o, rfl, h1, by rw [hb, h2], ?_⟩
      rw [h1]
      rintro ⟨x, y, hi, hn⟩
      refine hn (Relation.ReflTransGen.single ⟨1, by omega, ?_⟩)
      unfold Inc at hi ⊢
      simpa using hi

/-- What does hold of C123 (missing: edges added after the first `build()`): adding any edges one by one to a fresh object and building once
gives the object of the constructor, to which the theorems above apply. -/
theorem build_once_partial (n : Nat) (es : List (Nat × Nat)) : (do let o ← forEach es (empty n) (fun o e => addEdge o e.1 e.2); build o) = make n es := rfl

/-- The hypotheses hold for a triangle with a pendant path and an isolated vertex. -/
example : (∀ e ∈ [(0, 1), (1, 2), (2, 0), (2, 3), (3, 4)], e.1 < 6 ∧ e.2 < 6) ∧
    (do let o ← make 6 [(0, 1), (1, 2), (2, 0), (2, 3), (3, 4)]; bridgeIds o) = .ok [4, 3] ∧
    (do let o ← make 6 [(0, 1), (1, 2), (2, 0), (2, 3), (3, 4)]; articulationPoints o) = .ok [3, 2] ∧
    (do let o ← make 6 [(0, 1), (1, 2), (2, 0), (2, 3), (3, 4)]; componentNum o) = .ok 2 ∧
    (do let o ← make 6 [(0, 1), (1, 2), (2, 0), (2, 3), (3, 4)]; componentNumVertex o 2) = .ok 3 ∧
    (do let o ← make 6 [(0, 1), (1, 2), (2, 0), (2, 3), (3, 4)]; isBridge o 3 2) = .ok true ∧ Inc [(0, 1), (1, 2), (2, 0), (2, 3), (3, 4)] 3 2 3 := by
  refine ⟨by decide, by decide +kernel, by decide +kernel, by decide +kernel, by decide +kernel, by decide +kernel, .inr rfl⟩

end LowLink.Props
