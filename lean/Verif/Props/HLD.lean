import Verif.Proof.HLDSpec
import Verif.Proof.TreeCheck
import Mathlib.Algebra.Group.TypeTags.Basic
import Mathlib.Algebra.FreeMonoid.Basic

/-!
# Properties of `tree/heavy_light_decomposition.hpp`

Trees, paths, ancestors: `Verif/Spec/Tree.lean`. `t.visit`, `t.ord`, … are the arrays behind `get_visit_time`, `get_kth_visited`, `get_leave_time`, `get_head`, `get_subtree_size`, `get_parent`, `get_depth`; `t.g` is the argument of the constructor after the call.
-/

namespace HLD
open Cxx Graph Tree

variable {g : Array (List Nat)} {r u v : Nat} {t : St}

/-- `t` was built from the tree `g` by one of the constructors, with root `r`. -/
def Made (g : Array (List Nat)) (r : Nat) (t : St) : Prop := (r = 0 ∧ make g = .ok t) ∨ makeRoots g [r] = .ok t

theorem Made.built (h : Made g r t) (hg : IsTree g) (hsz : g.size ≤ 2 ^ 29) (hr : r < g.size) : ∃ F, Built g r F t := by
  rcases h with ⟨rfl, h⟩ | h
  · obtain ⟨t', h1, h2⟩ := make_tot hg (by omega)
    rw [h] at h1; cases h1; exact h2
  · obtain ⟨t', h1, h2⟩ := makeRoots_tot hg (by omega) hr
    rw [h] at h1; cases h1; exact h2

/-- **C103** (constructors). On a tree both constructors succeed. -/
theorem make_succeeds (hg : IsTree g) (hsz : g.size ≤ 2 ^ 29) (hr : r < g.size) : (∃ t, make g = .ok t) ∧ ∃ t, makeRoots g [r] = .ok t := by
  obtain ⟨t1, h1, -⟩ := make_tot hg (by omega)
  obtain ⟨t2, h2, -⟩ := makeRoots_tot hg (by omega) hr
  exact ⟨⟨t1, h1⟩, t2, h2⟩

/-- **C103** (getters). The adjacency lists of the argument are only permuted; parent, depth and subtree size are those of the tree rooted at `r`, and `r` is the only root. -/
theorem made_getters (h : Made g r t) (hg : IsTree g) (hsz : g.size ≤ 2 ^ 29) (hr : r < g.size) :
    (t.g.size = g.size ∧ ∀ x, (adj t.g x).Perm (adj g x)) ∧ getRoots t = .ok [r] ∧
      ∀ x < g.size, (∃ p, rd t.par x = .ok p ∧ (p = none ↔ x = r) ∧ ∀ q, p = some q ↔ Parent g r q x) ∧ (∃ d : Nat, rd t.dep x = .ok (d : Int) ∧ Dist g r x d) ∧
        rd t.siz x = .ok (open Classical in (List.range g.size).filter fun y => decide (Anc g r x y)).length := by
  obtain ⟨F, b⟩ := h.built hg hsz hr
  have e := b.gsz
  refine ⟨⟨b.gsz, b.perm⟩, ?_, fun x hx => ⟨?_, ?_, ?_⟩⟩
  · obtain ⟨l, h1, rfl⟩ := b.getRoots_tot; exact h1
  · exact ⟨_, rd_at none (by rw [b.psz]; exact hx), b.parNone hx, fun q => b.parent hg hx⟩
  · refine ⟨_, by rw [rd_at 0 (by rw [b.dsz]; exact hx), b.dep x hx], ?_⟩
    rw [← b.dist, b.rooted.depth_iff (b.tree hg) (by omega)]
  · rw [rd_at 0 (by rw [b.ssz]; exact hx), b.size hg hx]

/-- **C103** (order). `get_visit_time` is a bijection onto `0, …, n - 1` with inverse `get_kth_visited`, which is also what `inv_ids` returns. -/
theorem made_order (h : Made g r t) (hg : IsTree g) (hsz : g.size ≤ 2 ^ 29) (hr : r < g.size) : t.visit.size = g.size ∧ t.ord.size = g.size ∧ invIds t = .ok t.ord ∧
    ∀ x < g.size, ∃ k y, rd t.visit x = .ok k ∧ k < g.size ∧ rd t.ord k = .ok x ∧ rd t.ord x = .ok y ∧ y < g.size ∧ rd t.visit y = .ok x := by
  obtain ⟨F, b⟩ := h.built hg hsz hr
  have s1 := b.vsz
  have s2 := b.osz
  refine ⟨b.vsz, b.osz, ?_, fun x hx => ⟨_, _, rd_at 0 (by omega), b.visLt hx, ?_, rd_at 0 (by omega), b.ordLt hx, ?_⟩⟩
  · obtain ⟨l, h1, rfl⟩ := b.invIds_tot; exact h1
  · rw [rd_at 0 (by have := b.visLt hx; omega), b.ordVis hx]
  · rw [rd_at 0 (by have := b.ordLt hx; omega), b.visOrd hx]

/-- **C103** (subtrees). The range passed on by `fold_subtree` and `update_subtree` contains the visit time of `x` iff `x` is in the subtree of `u` (and is not `u` itself for edge queries). -/
theorem made_subtree (h : Made g r t) (hg : IsTree g) (hsz : g.size ≤ 2 ^ 29) (hr : r < g.size) (hu : u < g.size) (edge : Bool) : ∃ lo hi, subtreeRange t u edge = .ok (lo, hi) ∧ lo ≤ hi ∧ hi ≤ g.size ∧
    ∀ x < g.size, ∃ k, rd t.visit x = .ok k ∧ (lo ≤ k ∧ k < hi ↔ Anc g r u x ∧ (edge = true → x ≠ u)) := by
  obtain ⟨F, b⟩ := h.built hg hsz hr
  have s1 := b.vsz
  have s2 := b.lsz
  have h1 := b.lev u hu
  have h2 := (b.sub_le hu).1
  have h3 := Bool.toNat_le edge
  refine ⟨at' 0 t.visit u + edge.toNat, at' 0 t.leave u, ?_, by omega, b.leave_le hu, fun x hx => ⟨_, rd_at 0 (by omega), ?_⟩⟩
  · rw [subtreeRange, rd_at 0 (by omega), ok_bind, rd_at 0 (by omega), ok_bind]; rfl
  · rw [b.anc hg hx, b.range hu hx]
    cases edge with
    | false => simp
    | true =>
      simp only [Bool.toNat_true, forall_const]
      constructor
      · rintro ⟨h4, h5⟩; exact ⟨⟨by omega, h5⟩, fun e => by rw [e] at h4; omega⟩
      · rintro ⟨⟨h4, h5⟩, h6⟩
        have : at' 0 t.visit u ≠ at' 0 t.visit x := fun e => h6 (b.visInj hu hx e).symm
        exact ⟨by omega, h5⟩

/-- **C103** (heavy paths). The head of `x` is an ancestor of `x`, and the path from the head to `x` is visited consecutively, all its vertices having this head. A head other than the root has a sibling of at least the same subtree size which continues the heavy path of their parent. -/
theorem made_chain (h : Made g r t) (hg : IsTree g) (hsz : g.size ≤ 2 ^ 29) (hr : r < g.size) {x : Nat} (hx : x < g.size) : ∃ hd kh kx, rd t.head x = .ok hd ∧ Anc g r hd x ∧ rd t.visit hd = .ok kh ∧ rd t.visit x = .ok kx ∧ kh ≤ kx ∧
    (∃ p, IsPath g hd x p ∧ p.length = kx - kh + 1 ∧ ∀ i (hi : i < p.length), rd t.ord (kh + i) = .ok p[i] ∧ rd t.head p[i] = .ok hd) ∧
    (hd ≠ r → ∃ q c s s', Parent g r q hd ∧ Parent g r q c ∧ c ≠ hd ∧ rd t.siz hd = .ok s ∧ rd t.siz c = .ok s' ∧ s ≤ s' ∧ rd t.head c = rd t.head q) := by
  obtain ⟨F, b⟩ := h.built hg hsz hr
  have s1 := b.vsz
  have s2 := b.hsz
  have s3 := b.osz
  have s4 := b.ssz
  have e := b.gsz
  obtain ⟨c1, c2, c3⟩ := b.chain hx
  obtain ⟨c4, c5⟩ := b.chain_head hx
  have hxl := b.visLt hx
  refine ⟨_, _, _, rd_at 0 (by omega), (b.anc hg hx).2 c4, rd_at 0 (by omega), rd_at 0 (by omega), c2, ⟨_, b.path.1 (b.path_same hg c1 hx c2 c5), by simp [times_length], fun i hi => ?_⟩, fun hne => ?_⟩
  · rw [List.length_cons, times_length] at hi
    have h1 : ∀ p, p = at' 0 t.head x :: times t (at' 0 t.visit (at' 0 t.head x) + 1) (at' 0 t.visit x - at' 0 t.visit (at' 0 t.head x)) → ∀ hi : i < p.length, p[i] = at' 0 t.ord (at' 0 t.visit (at' 0 t.head x) + i) := by
      intro p hp hi'
      have h2 : p = times t (at' 0 t.visit (at' 0 t.head x)) (at' 0 t.visit x - at' 0 t.visit (at' 0 t.head x) + 1) := by rw [times_cons, b.ordVis c1, hp]
      subst h2
      simp [times]
    rw [h1 _ rfl]
    have h2 := b.ordLt (j := at' 0 t.visit (at' 0 t.head x) + i) (by omega)
    exact ⟨rd_at 0 (by omega), by rw [rd_at 0 (by omega), (c3 _ (by omega) (by omega)).1]⟩
  · cases hp : at' none t.par (at' 0 t.head x) with
    | none => exact absurd ((b.parNone c1).1 hp) hne
    | some q =>
      obtain ⟨q1, q2⟩ := (b.parE c1).1 hp
      have hq := (b.parent hg c1).1 hp
      have hf := b.head_light hx hp
      have hE : E t.g q (at' 0 t.head x) := (b.perm q).mem_iff.2 hq.1
      have hnp : some (at' 0 t.head x) ≠ (Forest.tree r F).par none q := by
        intro e
        have h3 := (par_iff b.rooted (by omega)).1 e.symm
        have d1 := Built.parent_depth q2
        have d2 := Built.parent_depth h3.2
        omega
      obtain ⟨mx, hH⟩ := b.heavy q q1
      rcases hH with ⟨-, h2⟩ | ⟨h1, c, a', h2, h3, h4, h5⟩
      · exact absurd (h2 _ hE) hnp
      · have h6 := h5 _ hE hnp
        have hcE : E t.g q c := by show c ∈ adj t.g q; rw [h2]; simp
        have hcl : c < g.size := by rw [← b.gsz]; exact (b.tree hg).valid q c hcE
        have hcp : at' none t.par c = some q := by
          rcases (b.rooted.adj_iff (b.tree hg) (by omega)).1 hcE with h7 | h7
          · rw [Forest.mem_under_roots b.rooted.tree_nodup ((b.rooted.tree_mem q).2 (by omega))] at h7
            have e1 := tree_path ((b.rooted.lt_iff c).1 (by omega))
            have e2 := tree_path ((b.rooted.lt_iff q).1 (by omega))
            rw [e1, e2] at h7
            exact (b.parE hcl).2 ⟨q1, h7.2⟩
          · exact absurd h7.symm h3
        refine ⟨q, c, _, _, hq, (b.parent hg hcl).1 hcp, fun e => ?_, rd_at 0 (by omega), rd_at 0 (by omega), ?_, ?_⟩
        · rw [← e, h2] at hf; simp at hf
        · rw [b.siz _ c1, b.siz c hcl]; omega
        · have h8 := b.hd c hcl q (by rw [← b.par c hcl]; exact hcp)
          rw [if_pos (by rw [h2]; rfl)] at h8
          rw [rd_at 0 (by omega), rd_at 0 (by omega), h8]

/-- **C104** (`lca`). -/
theorem made_lca (h : Made g r t) (hg : IsTree g) (hsz : g.size ≤ 2 ^ 29) (hr : r < g.size) (hu : u < g.size) (hv : v < g.size) : ∃ w, lca t u v = .ok w ∧ IsLCA g r u v w := by
  obtain ⟨F, b⟩ := h.built hg hsz hr
  obtain ⟨w, h1, h2, h3⟩ := b.lca_tot hu hv
  exact ⟨w, h1, (b.isLCA hg hu hv h2).2 h3⟩

/-- **C104** (`la`). For `0 ≤ k` the vertex `k` edges above `u` is returned, and the default value exactly if there is none; for `k < 0` the default value is returned. -/
theorem made_la (h : Made g r t) (hg : IsTree g) (hsz : g.size ≤ 2 ^ 29) (hr : r < g.size) (hu : u < g.size) :
    (∀ k : Nat, k < 2 ^ 31 → ∃ o, la t u k = .ok o ∧ ∀ w, o = some w ↔ IsKthAncestor g r u k w) ∧ ∀ k : Int, k < 0 → la t u k = .ok none := by
  obtain ⟨F, b⟩ := h.built hg hsz hr
  refine ⟨fun k hk => ?_, fun k hk => ?_⟩
  · obtain ⟨o, h1, h2⟩ := b.la_tot hu (by omega) hk
    exact ⟨o, h1, fun w => by rw [h2 w, b.kth hg hu]⟩
  · rw [la, if_pos hk]; rfl

/-- **C104** (`jump`). The `d`-th vertex of the path from `u` to `v`, and the default value if the path is too short or `d` is negative. -/
theorem made_jump (h : Made g r t) (hg : IsTree g) (hsz : g.size ≤ 2 ^ 29) (hr : r < g.size) (hu : u < g.size) (hv : v < g.size) {p : List Nat} (hp : IsPath g u v p) :
    (∀ d : Nat, d < 2 ^ 31 → jump t u v d = .ok p[d]?) ∧ ∀ d : Int, d < 0 → jump t u v d = .ok none := by
  obtain ⟨F, b⟩ := h.built hg hsz hr
  refine ⟨fun d hd => ?_, fun d hd => ?_⟩
  · obtain ⟨o, h1, rfl⟩ := b.jump_tot hg hsz hu hv hd (b.path.2 hp)
    exact h1
  · rw [jump, if_pos hd]; rfl

/-- **C104** (`dist`). -/
theorem made_dist (h : Made g r t) (hg : IsTree g) (hsz : g.size ≤ 2 ^ 29) (hr : r < g.size) (hu : u < g.size) (hv : v < g.size) : ∃ d : Nat, dist t u v = .ok (d : Int) ∧ Dist g u v d := by
  obtain ⟨F, b⟩ := h.built hg hsz hr
  obtain ⟨d, h1, k, rfl, h2⟩ := b.dist_tot hg hsz hu hv
  exact ⟨k, h1, b.dist.1 h2⟩

/-- **C105** (`update_path`). The calls made by `update_path` are calls on a list of at most `2 log₂ n + 1` ranges of visit times which depends on `u`, `v` and the flag only; the vertices visited in them are the vertices of the path from `u` to `v`, each exactly once, without the lowest common ancestor for edge queries. -/
theorem made_updatePath (h : Made g r t) (hg : IsTree g) (hsz : g.size ≤ 2 ^ 29) (hr : r < g.size) (hu : u < g.size) (hv : v < g.size) (edge : Bool) {p : List Nat} (hp : IsPath g u v p) :
    ∃ (rs : List (Nat × Nat)) (w : Nat), IsLCA g r u v w ∧ rs.length ≤ 2 * Nat.log 2 g.size + 1 ∧ (∀ q ∈ rs, q.1 ≤ q.2 ∧ q.2 ≤ g.size) ∧
      ((rs.flatMap fun q => List.range' q.1 (q.2 - q.1)).map fun k => t.ord[k]!).Perm (if edge then p.erase w else p) ∧
      ∀ (σ : Type) (f : Nat → Nat → σ → M σ) (x : σ), updatePath t f u v edge x = forEach rs x fun s q => f q.1 q.2 s := by
  obtain ⟨F, b⟩ := h.built hg hsz hr
  obtain ⟨rs, w, h1, h2, h3, h4, h5, h6⟩ := b.updatePath_eq hg hu hv edge
  refine ⟨rs, w, (b.isLCA hg hu hv h1).2 h2, h3, h4, ?_, h6⟩
  have := h5 p (b.path.2 hp)
  rw [List.map_flatMap]
  have he : (rs.flatMap (seg t)) = rs.flatMap fun q => (List.range' q.1 (q.2 - q.1)).map fun k => t.ord[k]! := by
    congr 1
    funext q
    rw [seg, times]
    refine List.map_congr_left fun k _ => ?_
    rw [getElem!_def, at']
    cases t.ord[k]? <;> rfl
  rwa [he] at this

/-- **C105** (`fold_path`). For a commutative monoid and a query which returns the product of the values of the vertices visited in a range, `fold_path` returns the product along the path from `u` to `v`, without the lowest common ancestor for edge queries. -/
theorem made_foldPath {T : Type} [CommMonoid T] (h : Made g r t) (hg : IsTree g) (hsz : g.size ≤ 2 ^ 29) (hr : r < g.size) (hu : u < g.size) (hv : v < g.size) (edge : Bool) {p : List Nat} (hp : IsPath g u v p)
    (val : Nat → T) {q : Nat → Nat → M T} (hq : ∀ l h, l ≤ h → h ≤ g.size → q l h = .ok ((List.range' l (h - l)).map fun k => val t.ord[k]!).prod) :
    ∃ w, IsLCA g r u v w ∧ foldPath t (· * ·) q u v 1 edge = .ok ((if edge then p.erase w else p).map val).prod := by
  obtain ⟨F, b⟩ := h.built hg hsz hr
  obtain ⟨x, h1, w, h2, h3, h4⟩ := b.foldPath_tot hg val (q := q) (fun l h h1 h2 => by
    rw [hq l h h1 h2, seg, times, List.map_map]
    congr 2
    refine List.map_congr_left fun k _ => ?_
    rw [Function.comp_apply, getElem!_def, at']
    cases t.ord[k]? <;> rfl) hu hv edge
  exact ⟨w, (b.isLCA hg hu hv h2).2 h3, by rw [h1, h4 p (b.path.2 hp)]⟩

/-- **C105** (`fold_path_noncommutative`). For any monoid, with one query for products in order of the visit times and one for the reverse order, the result is the product of the values in the order of the path from `u` to `v`. -/
theorem made_foldPathNC {T : Type} [Monoid T] (h : Made g r t) (hg : IsTree g) (hsz : g.size ≤ 2 ^ 29) (hr : r < g.size) (hu : u < g.size) (hv : v < g.size) (edge : Bool) {p : List Nat} (hp : IsPath g u v p)
    (val : Nat → T) {q q' : Nat → Nat → M T} (hq : ∀ l h, l ≤ h → h ≤ g.size → q l h = .ok ((List.range' l (h - l)).map fun k => val t.ord[k]!).prod)
    (hq' : ∀ l h, l ≤ h → h ≤ g.size → q' l h = .ok ((List.range' l (h - l)).reverse.map fun k => val t.ord[k]!).prod) :
    ∃ w, IsLCA g r u v w ∧ foldPathNC t (· * ·) q q' u v 1 edge = .ok ((if edge then p.erase w else p).map val).prod := by
  obtain ⟨F, b⟩ := h.built hg hsz hr
  have hk : ∀ k, val t.ord[k]! = (val ∘ at' 0 t.ord) k := fun k => by
    rw [Function.comp_apply, getElem!_def, at']
    cases t.ord[k]? <;> rfl
  obtain ⟨x, h1, w, h2, h3, h4⟩ := b.foldNC_tot hg val (q := q) (q' := q') (fun l h h1 h2 => by
    rw [hq l h h1 h2, seg, times, List.map_map]
    congr 2
    exact List.map_congr_left fun k _ => hk k) (fun l h h1 h2 => by
    rw [hq' l h h1 h2, seg, times, ← List.map_reverse, List.map_map]
    congr 2
    exact List.map_congr_left fun k _ => hk k) hu hv edge (b.path.2 hp)
  exact ⟨w, (b.isLCA hg hu hv h2).2 h3, by rw [h1, h4]⟩

/-! ### The hypotheses are satisfiable -/

def sample : Array (List Nat) := #[[1, 2], [0], [0, 3, 4], [2], [2, 5], [4]]

example : IsTree sample ∧ sample.size ≤ 2 ^ 29 := ⟨isTree_of_check (by decide +kernel), by decide⟩

example : ∃ t, Made sample 0 t ∧ Made sample 0 t := by
  obtain ⟨t, h⟩ := (make_succeeds (g := sample) (r := 0) (isTree_of_check (by decide +kernel)) (by decide) (by decide)).1
  exact ⟨t, Or.inl ⟨rfl, h⟩, Or.inl ⟨rfl, h⟩⟩

example : (make sample >>= fun t => lca t 3 5) = .ok 2 ∧ (make sample >>= fun t => la t 5 2) = .ok (some 2) ∧ (make sample >>= fun t => la t 5 4) = .ok none ∧ (make sample >>= fun t => jump t 1 5 3) = .ok (some 4) ∧
    (makeRoots sample [5] >>= fun t => dist t 1 3) = .ok 3 := by
  refine ⟨?_, ?_, ?_, ?_, ?_⟩ <;> decide +kernel

end HLD
