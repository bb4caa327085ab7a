import Verif.Proof.Rerooting
import Verif.Proof.TreeCheck
import Mathlib.Algebra.Group.TypeTags.Basic

/-!
# Properties of `tree/rerooting.hpp` and `tree/rerooting_invertible.hpp`

`Below sub w es u none x` (see `Verif/Spec/Rerooting.lean`) says that `x` is the value of the children of `u` when the tree is rooted at `u`.
-/

namespace Rerooting
open Cxx Graph Tree

variable {V W T : Type}

/-- **C102** (`run_dp` of `Rerooting`). For every commutative monoid, all functions `add_subtree_root` and `add_root`, and every weighted tree entered with `add_edge`, `run_dp` returns one value per vertex: `add_root` applied to the value of that vertex in the tree rooted there. The value is determined by the recursion in the specification, so it does not depend on the order of the edges. -/
theorem runDp_rerooted [CommMonoid T] [Inhabited W] (sub : T → V → W → T) (root : T → V → T) (w : Array V) (es : List (Nat × Nat × W)) (he : ∀ q ∈ es, q.1 < w.size ∧ q.2.1 < w.size)
    (hg : IsTree (graph w.size es)) (wt : Nat → V) (hw : ∀ v < w.size, w[v]? = some (wt v)) :
    ∃ o dp, build w es = .ok o ∧ runDp sub root o = .ok dp ∧ dp.size = w.size ∧
      ∀ u < w.size, ∃ x, Below sub wt es u none x ∧ (∀ y, Below sub wt es u none y → y = x) ∧ dp[u]? = some (root x (wt u)) := by
  obtain ⟨val, hval⟩ := vals_exists (sub := sub) (w := wt) hg
  obtain ⟨dp, h1, h2, h3⟩ := runDp_tot (root := root) (o := ⟨w, es⟩) he hg hw hval
  refine ⟨_, dp, build_ok he, h1, h2, fun u hu => ⟨val u none, hval.below u hu, fun y hy => hy.unique (hval.below u hu), ?_⟩⟩
  have := h3 u hu
  rw [at'] at this
  rw [← this, Array.getElem?_eq_getElem (by rw [h2]; exact hu)]
  rfl

/-- **C102** (`run_dp` of `RerootingInvertible`). The same for the version that uses inverses, for every commutative group. -/
theorem runDpInv_rerooted [CommGroup T] [Inhabited W] (sub : T → V → W → T) (root : T → V → T) (w : Array V) (es : List (Nat × Nat × W)) (he : ∀ q ∈ es, q.1 < w.size ∧ q.2.1 < w.size)
    (hg : IsTree (graph w.size es)) (wt : Nat → V) (hw : ∀ v < w.size, w[v]? = some (wt v)) :
    ∃ o dp, build w es = .ok o ∧ runDpInv sub root o = .ok dp ∧ dp.size = w.size ∧
      ∀ u < w.size, ∃ x, Below sub wt es u none x ∧ (∀ y, Below sub wt es u none y → y = x) ∧ dp[u]? = some (root x (wt u)) := by
  obtain ⟨val, hval⟩ := vals_exists (sub := sub) (w := wt) hg
  obtain ⟨dp, h1, h2, h3⟩ := runDpInv_tot (root := root) (o := ⟨w, es⟩) he hg hw hval
  refine ⟨_, dp, build_ok he, h1, h2, fun u hu => ⟨val u none, hval.below u hu, fun y hy => hy.unique (hval.below u hu), ?_⟩⟩
  have := h3 u hu
  rw [at'] at this
  rw [← this, Array.getElem?_eq_getElem (by rw [h2]; exact hu)]
  rfl

/-- **C102** (assertions). `add_edge` with an end outside the vertices fails its assertion, and so does `set_vertex_weights` with another number of weights. -/
theorem addEdge_range (o : Obj V W) (u v : Int) (x : W) (h : ¬ ((0 ≤ u ∧ u < o.w.size) ∧ 0 ≤ v ∧ v < o.w.size)) : addEdge o u v x = .error .assertion := by
  unfold addEdge
  by_cases hu : 0 ≤ u ∧ u < o.w.size
  · rw [decide_eq_true hu, check_true, ok_bind, decide_eq_false (fun hv => h ⟨hu, hv⟩)]
    rfl
  · rw [decide_eq_false hu]
    rfl

theorem setVertexWeights_size (o : Obj V W) (w : Array V) : setVertexWeights o w = if w.size = o.w.size then .ok ⟨w, o.e⟩ else .error .assertion := by
  unfold setVertexWeights
  by_cases h : w.size = o.w.size
  · rw [decide_eq_true h, if_pos h]; rfl
  · rw [decide_eq_false h, if_neg h]; rfl

/-- **C102** (no vertices). Without any vertex `run_dp` reads outside its arrays: undefined behaviour. -/
theorem runDp_empty [CommMonoid T] [Inhabited W] (sub : T → V → W → T) (root : T → V → T) : runDp sub root (⟨#[], []⟩ : Obj V W) = .error .ub := rfl

theorem runDpInv_empty [CommGroup T] [Inhabited W] (sub : T → V → W → T) (root : T → V → T) : runDpInv sub root (⟨#[], []⟩ : Obj V W) = .error .ub := rfl

/-- A tree with weighted edges: 1 is joined to 0, 2 and 3. -/
example : (∀ q ∈ [(0, 1, 5), (2, 1, 6), (1, 3, (7 : Nat))], q.1 < #[(), (), (), ()].size ∧ q.2.1 < #[(), (), (), ()].size) ∧ IsTree (graph 4 [(0, 1, 5), (2, 1, 6), (1, 3, (7 : Nat))]) :=
  ⟨by decide, isTree_of_check (by decide +kernel)⟩

/-- Number of connected sets of vertices that contain the given vertex. -/
example : (build #[(), (), (), ()] [(0, 1, ()), (2, 1, ()), (1, 3, ())] >>= runDp (T := Nat) (fun x _ _ => x + 1) (fun x _ => x)) = .ok #[5, 8, 5, 5] := by decide +kernel

/-- Sum of the weighted distances of all vertices to the given vertex would need pairs; here: number of vertices, for every root, with inverses. -/
example : (build #[(), (), (), ()] [(0, 1, ()), (2, 1, ()), (1, 3, ())] >>= runDpInv (T := Multiplicative Int) (fun x _ _ => x * .ofAdd 1) (fun x _ => x * .ofAdd 1)) =
    .ok #[.ofAdd 4, .ofAdd 4, .ofAdd 4, .ofAdd 4] := by decide +kernel

end Rerooting
