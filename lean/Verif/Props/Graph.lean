import Verif.Proof.TopSort
import Verif.Proof.BFS
import Verif.Proof.BFS01
import Verif.Proof.Dijkstra
import Verif.Proof.Bipartite
import Verif.Proof.SSSPDag
import Verif.Proof.RemoveMultiedges

/-!
# C45–C48, C72–C75: topological sort, breadth-first search, Dijkstra, bipartite colouring, shortest paths in DAGs, multi-edges
-/

namespace GraphProps
open Cxx Graph

/-- A graph for the examples: 0 → 1, 0 → 2 (twice), 1 → 3, 2 → 3. -/
def diamond : Array (List Nat) := #[[1, 2, 2], [3], [3], []]

theorem diamond_valid : Valid diamond := by
  intro u v h
  unfold E adj diamond at h
  rcases u with _ | _ | _ | _ | u <;> simp at h <;> show _ < 4 <;> omega

/-! ## C45 -/

/-- C45: the order lists distinct vertices, each after all its predecessors (`u ∈ a`: before `v`). -/
theorem topological_sort_order (g : Array (List Nat)) (hg : Valid g) : ∃ ord, TopSort.sorted g = .ok ord ∧ ord.Nodup ∧ (∀ v ∈ ord, v < g.size) ∧
    ∀ a v b, ord = a ++ v :: b → ∀ u, E g u v → u ∈ a := by
  obtain ⟨ord, h, hi⟩ := TopSort.sorted_tot g hg
  exact ⟨ord, h, by simpa using hi.nodup, fun v hv => hi.lt v (by simpa using hv), hi.before⟩

/-- C45: it contains all vertices iff the graph is acyclic, and `is_dag` tells. -/
theorem topological_sort_complete (g : Array (List Nat)) (hg : Valid g) : ∃ ord, TopSort.sorted g = .ok ord ∧
    TopSort.isDag g = .ok (decide (ord.length = g.size)) ∧ ord.length ≤ g.size ∧ (ord.length = g.size ↔ Acyclic g) ∧
    (Acyclic g → ord.Perm (List.range g.size)) := by
  obtain ⟨ord, h, hi⟩ := TopSort.sorted_tot g hg
  have hle := TopSort.length_le hi
  have hiff := TopSort.acyclic_iff hg hi
  refine ⟨ord, h, by rw [TopSort.isDag, h]; rfl, hle, hiff, fun hac => ?_⟩
  have hsub : ord ⊆ List.range g.size := fun v hv => List.mem_range.2 (hi.lt v (by simpa using hv))
  exact (List.subperm_of_subset (by simpa using hi.nodup) hsub).perm_of_length_le (by simp [hiff.2 hac])

example : Valid diamond ∧ TopSort.sorted diamond = .ok [0, 1, 2, 3] ∧ TopSort.isDag #[[1], [0], [0]] = .ok false := ⟨diamond_valid, by decide +kernel, by decide +kernel⟩

/-! ## C46 -/

/-- C46: `distance(src)[v]` is `-1` iff `v` is reachable from no source and otherwise the least number of edges of a walk from a source. -/
theorem bfs_distance (g : Array (List Nat)) (hg : Valid g) (src : List Nat) (hs : ∀ s ∈ src, s < g.size) : ∃ dist, BFS.distance g src = .ok dist ∧ dist.size = g.size ∧
    ∀ v < g.size, (dist[v]? = some (-1) ∧ ∀ s ∈ src, ¬ Reach g s v) ∨ ∃ k : Nat, dist[v]? = some (k : Int) ∧ IsLeast {k | ∃ s ∈ src, Walk g k s v} k :=
  BFS.distance_tot g hg src hs

example : BFS.distance #[[1, 2, 2], [3], [3], [], [0]] [0, 0] = .ok #[0, 1, 1, 2, -1] := by decide +kernel

/-- C46: the graph built from a list of edges has exactly these edges, in both directions. -/
theorem bfs_add_edges (n : Nat) (edges : List (Nat × Nat)) (h : ∀ e ∈ edges, e.1 < n ∧ e.2 < n) :
    ∃ g, BFS.make n edges = .ok g ∧ g.size = n ∧ Valid g ∧ ∀ u v, E g u v ↔ (u, v) ∈ edges ∨ (v, u) ∈ edges :=
  BFS.make_tot n edges h

example : BFS.make 3 [(0, 1), (1, 1)] = .ok #[[1], [0, 1, 1], []] := by decide +kernel

/-! ## C72 -/

/-- C72: for an undirected graph `connected_components` partitions the vertices into nonempty lists; each is the set of vertices reachable from any of its members. -/
theorem connected_components (g : Array (List Nat)) (hg : Valid g) (hsym : ∀ u v, E g u v → E g v u) : ∃ res, BFS.components g = .ok res ∧
    res.flatten.Perm (List.range g.size) ∧ (∀ c ∈ res, c ≠ []) ∧ ∀ c ∈ res, ∀ u ∈ c, ∀ v, v ∈ c ↔ Reach g u v :=
  BFS.components_tot g hg hsym

example : (BFS.make 5 [(0, 3), (1, 2), (3, 0)] >>= BFS.components) = .ok [[0, 3], [1, 2], [4]] := by decide +kernel

/-! ## C73 -/

/-- C73: `BFS01` gives the least total cost of a walk from a source, where a `true` edge costs 1 and a `false` edge nothing, or `INF` iff there is no walk; no `int` overflows. -/
theorem bfs01_distance (g : Array (List (Nat × Bool))) (hg : ∀ u, ∀ e ∈ adj g u, e.1 < g.size) (hn : g.size < 2 ^ 31) (src : List Nat) (hs : ∀ s ∈ src, s < g.size) :
    ∃ dist, BFS01.distance g src = .ok dist ∧ dist.size = g.size ∧
      ∀ v < g.size, (dist[v]? = some (2 ^ 31 - 1) ∧ ∀ s ∈ src, ∀ x, ¬ Cost (g.map fun l => l.map fun e => (e.1, if e.2 then 1 else 0)) s v x) ∨
        ∃ x, dist[v]? = some x ∧ x < 2 ^ 31 - 1 ∧ IsLeast {x | ∃ s ∈ src, Cost (g.map fun l => l.map fun e => (e.1, if e.2 then 1 else 0)) s v x} x :=
  BFS01.distance_tot g hg hn src hs

example : (∀ u, ∀ e ∈ adj #[[(1, true), (2, false)], [], [(1, false)], []] u, e.1 < 4) ∧ BFS01.distance #[[(1, true), (2, false)], [], [(1, false)], []] [0] = .ok #[0, 0, 0, 2 ^ 31 - 1] := by
  refine ⟨?_, by decide +kernel⟩
  rintro u ⟨v, b⟩ h
  unfold adj at h
  rcases u with _ | _ | _ | _ | u <;> simp at h <;> show v < 4 <;> omega

/-! ## C47 -/

/-- The hypotheses of C47: heads are vertices, costs are not negative, and least costs plus an edge stay below the marker `LLONG_MAX`. -/
def Dijkstrable (g : Array (List (Nat × Int))) (src : Nat) : Prop :=
  (∀ u, ∀ e ∈ adj g u, e.1 < g.size ∧ 0 ≤ e.2) ∧ ∀ u x, IsLeast {x | Cost g src u x} x → ∀ e ∈ adj g u, x + e.2 < 2 ^ 63 - 1

theorem Dijkstrable.ok {g : Array (List (Nat × Int))} {src : Nat} (h : Dijkstrable g src) : Dijkstra.Ok g src :=
  ⟨fun u e he => (h.1 u e he).1, fun u e he => (h.1 u e he).2, h.2⟩

/-- C47: the distances are least costs, or the marker iff there is no walk; for reachable `t`, `path_to(t)` is a walk from the source to `t` of this cost; for others it asserts. -/
theorem dijkstra_correct (g : Array (List (Nat × Int))) (src : Nat) (hs : src < g.size) (hg : Dijkstrable g src) : ∃ d, Dijkstra.run g src = .ok d ∧ d.dist.size = g.size ∧
    ∀ t < g.size, (d.dist[t]? = some (2 ^ 63 - 1) ∧ (∀ x, ¬ Cost g src t x) ∧ Dijkstra.pathTo d src t = .error .assertion) ∨
      ∃ x p, d.dist[t]? = some x ∧ x < 2 ^ 63 - 1 ∧ IsLeast {x | Cost g src t x} x ∧
        Dijkstra.pathTo d src t = .ok p ∧ p.head? = some src ∧ p.getLast? = some t ∧ PathCost g p x := by
  obtain ⟨d, h1, S, last, h2, h3⟩ := Dijkstra.run_tot hg.ok hs
  have hfin := Dijkstra.final hg.ok hs h2 h3
  refine ⟨d, h1, h2.size, fun t ht => ?_⟩
  have hget : d.dist[t]? = some (Dijkstra.D d t) := by
    rw [Dijkstra.D, at', Array.getElem?_eq_getElem (by rw [h2.size]; exact ht)]
    rfl
  rcases hfin t ht with ⟨k1, k2, k3⟩ | ⟨k1, k2⟩
  · right
    have hS : ∀ v ∈ S, Dijkstra.D d v < Dijkstra.top := by
      intro v hv
      rcases hfin v (h2.lt v hv) with ⟨_, j2, _⟩ | ⟨_, j2⟩
      · exact j2
      · exact absurd (h2.least v hv).1 (j2 _)
    obtain ⟨p, j1, j2, j3, j4⟩ := Dijkstra.path_tot h2 k1 hS
    exact ⟨_, p, hget, k2, k3, j1, j2, j3, j4⟩
  · left
    refine ⟨by rw [hget, k1]; rfl, k2, ?_⟩
    rw [Dijkstra.pathTo, rd_some hget, ok_bind, k1]
    rfl

/-- The hypotheses hold when there are few vertices with small costs; here a concrete graph. -/
example : Dijkstrable #[[(1, 5), (2, 1)], [], [(1, 2)], []] 0 ∧
    (Dijkstra.run #[[(1, 5), (2, 1)], [], [(1, 2)], []] 0 >>= fun d => Dijkstra.pathTo d 0 1) = .ok [0, 2, 1] := by
  have hadj : ∀ u, ∀ e ∈ adj (#[[(1, 5), (2, 1)], [], [(1, 2)], []] : Array (List (Nat × Int))) u, e.1 < 4 ∧ 0 ≤ e.2 ∧ e.2 ≤ 5 := by
    rintro u ⟨v, c⟩ h
    unfold adj at h
    rcases u with _ | _ | _ | _ | u <;> simp at h <;> show v < 4 ∧ 0 ≤ c ∧ c ≤ 5 <;> omega
  refine ⟨⟨fun u e he => ⟨(hadj u e he).1, (hadj u e he).2.1⟩, fun u x hx e he => ?_⟩, by decide +kernel⟩
  have he5 := (hadj u e he).2.2
  have key : ∀ v y, Cost (#[[(1, 5), (2, 1)], [], [(1, 2)], []] : Array (List (Nat × Int))) 0 v y → v = 0 ∧ y ≤ 0 ∨ v = 2 ∧ y ≤ 1 ∨ v = 1 ∧ y ≤ 5 := by
    intro v y hy
    induction hy with
    | refl => simp
    | @step u v y c _ h ih =>
      unfold adj at h
      rcases u with _ | _ | _ | _ | u <;> simp at h <;> omega
  have := key u x hx.1
  omega

/-! ## C48 -/

/-- C48: for an undirected graph and two different colours the result is a proper colouring with these colours, or `nullopt` and there is no proper 2-colouring. -/
theorem bipartite_coloring (g : Array (List Nat)) (hg : Valid g) (hsym : ∀ u v, E g u v → E g v u) (col0 col1 : BitVec 32) (hc : col0 ≠ col1) :
    (∃ a, Bipartite.coloring g col0 col1 = .ok (some a) ∧ a.size = g.size ∧ (∀ v < g.size, a[v]? = some col0 ∨ a[v]? = some col1) ∧ ∀ u v, E g u v → a[u]? ≠ a[v]?) ∨
    (Bipartite.coloring g col0 col1 = .ok none ∧ ¬ ∃ κ, Graph.Proper g κ) := by
  obtain ⟨r, h1, h2⟩ := Bipartite.coloring_tot hg hsym hc
  cases r with
  | none => exact Or.inr ⟨h1, h2⟩
  | some a => exact Or.inl ⟨a, h1, h2⟩

example : (BFS.make 4 [(0, 3), (1, 2), (3, 1)] >>= fun g => Bipartite.coloring g 2 3) = .ok (some #[2, 2, 3, 3]) ∧
    (BFS.make 3 [(0, 1), (1, 2), (2, 0)] >>= fun g => Bipartite.coloring g 2 3) = .ok none := by decide +kernel

/-! ## C74 -/

/-- C74: in a DAG whose source has no incoming edge, the distances are least costs (weights may be negative), or the marker iff there is no walk. -/
theorem sssp_dag (g : Array (List (Nat × Int))) (src : Nat) (hs : src < g.size) (hlt : ∀ u, ∀ e ∈ adj g u, e.1 < g.size ∧ e.1 ≠ src)
    (hac : Acyclic (g.map fun l => l.map (·.1)))
    (hfit : ∀ u x, IsLeast {x | Cost g src u x} x → ∀ e ∈ adj g u, -2 ^ 63 ≤ x + e.2 ∧ x + e.2 < 2 ^ 63 - 1) :
    ∃ res, SSSPDag.run g src = .ok res ∧ res.size = g.size ∧ ∀ v < g.size, (res[v]? = some (2 ^ 63 - 1) ∧ ∀ x, ¬ Cost g src v x) ∨
      ∃ x, res[v]? = some x ∧ x < 2 ^ 63 - 1 ∧ IsLeast {x | Cost g src v x} x :=
  SSSPDag.run_tot ⟨fun u e he => (hlt u e he).1, hac, fun u e he => (hlt u e he).2, hfit⟩ hs

example : SSSPDag.run #[[(1, 5), (2, 1)], [], [(1, -2)], [(1, -9)]] 0 = .ok #[0, -1, 1, 2 ^ 63 - 1] ∧
    Acyclic ((#[[(1, 5), (2, 1)], [], [(1, -2)], [(1, -9)]] : Array (List (Nat × Int))).map fun l => l.map (·.1)) := by
  refine ⟨by decide +kernel, ?_⟩
  have e : ((#[[(1, 5), (2, 1)], [], [(1, -2)], [(1, -9)]] : Array (List (Nat × Int))).map fun l => l.map (·.1)) = #[[1, 2], [], [1], [1]] := by decide +kernel
  have hval : Valid #[[1, 2], [], [1], [1]] := by
    intro u v h
    unfold E adj at h
    rcases u with _ | _ | _ | _ | u <;> simp at h <;> show v < 4 <;> omega
  obtain ⟨ord, h1, h2⟩ := TopSort.sorted_tot #[[1, 2], [], [1], [1]] hval
  have : TopSort.sorted #[[1, 2], [], [1], [1]] = .ok [0, 3, 2, 1] := by decide +kernel
  rw [this] at h1
  cases h1
  rw [e]
  exact (TopSort.acyclic_iff hval h2).1 rfl

/-! ## C75 -/

/-- C75: every adjacency list keeps exactly the first occurrence of each neighbour, in order. -/
theorem remove_multiedges (g : Array (List Nat)) (hg : Valid g) : RemoveMultiedges.run g = .ok (g.map List.eraseDups) :=
  tot_eq.1 (RemoveMultiedges.run_tot g hg)

example : RemoveMultiedges.run #[[1, 2, 1, 0, 2], [1, 1], []] = .ok #[[1, 2, 0], [1], []] := by decide +kernel

end GraphProps
