import Verif.Proof.TreeIso2
import Verif.Proof.TreeCheck

/-! # C100, C101: classification of rooted trees and isomorphism of trees -/

namespace TreeIsoProps
open Cxx Graph Tree TreeIso

/-- The states of a `RootedTreeClassifier` that a user can reach. -/
inductive Reachable : Handler → Prop
  | fresh : Reachable Handler.fresh
  | subtrees {h h' : Handler} {g : Array (List Nat)} {r : Nat} {ids : Array Nat} : Reachable h → IsTree g → r < g.size → classifySubtrees h g r = .ok (h', ids) → Reachable h'
  | key {h h' : Handler} {k : List Nat} {i : Nat} : Reachable h → getId h k = .ok (h', i) → Reachable h'
  | iso {h h' : Handler} {g1 g2 : Array (List Nat)} {o : Option (Nat × Nat)} : Reachable h → IsTree g1 → IsTree g2 → g1.size < 2 ^ 30 → g2.size < 2 ^ 30 → isIsomorphic h g1 g2 = .ok (h', o) → Reachable h'

theorem Reachable.abs {h : Handler} (hr : Reachable h) : ∃ H, Abs h H := by
  induction hr with
  | fresh => exact ⟨_, Abs.fresh⟩
  | subtrees _ hg hr he ih =>
    obtain ⟨H, hA⟩ := ih
    obtain ⟨t, e, H', h1, -⟩ := classifySubtrees_tot hg hr hA
    rw [he] at e
    injection e with e
    subst e
    exact ⟨H', h1⟩
  | key _ he ih =>
    obtain ⟨H, hA⟩ := ih
    obtain ⟨t, e, H', h1, -⟩ := getId_tot hA _
    rw [he] at e
    injection e with e
    subst e
    exact ⟨H', h1⟩
  | iso _ h1 h2 n1 n2 he ih =>
    obtain ⟨H, hA⟩ := ih
    rcases isIsomorphic_outcome h1 h2 n1 n2 hA with ⟨-, h', a, b, e, -, H', h3⟩ | ⟨-, -, h', e, H', h3⟩ | ⟨-, -, e⟩
    · rw [he] at e
      injection e with e
      injection e with e _
      subst e
      exact ⟨H', h3⟩
    · rw [he] at e
      injection e with e
      injection e with e _
      subst e
      exact ⟨H', h3⟩
    · rw [he] at e
      cases e

/-- Consecutive calls of `classify_subtrees` on one classifier. -/
def classifyAll (h : Handler) : List (Array (List Nat) × Nat) → M (Handler × List (Array Nat))
  | [] => return (h, [])
  | (g, r) :: l => do
    let (h, ids) ← classifySubtrees h g r
    let (h, res) ← classifyAll h l
    return (h, ids :: res)

theorem classifyAll_tot (l : List (Array (List Nat) × Nat)) : ∀ {h : Handler} {H : List Nat → Option Nat}, (∀ q ∈ l, IsTree q.1 ∧ q.2 < q.1.size) → Abs h H →
    Tot (classifyAll h l) fun t => ∃ H', Abs t.1 H' ∧ (∀ k j, H k = some j → H' k = some j) ∧ t.2.length = l.length ∧ ∀ (i : Nat) (q : Array (List Nat) × Nat) (ids : Array Nat), l[i]? = some q → t.2[i]? = some ids → Ids q.1 q.2 H' ids := by
  induction l with
  | nil =>
    intro h H _ hA
    exact Tot.pure ⟨H, hA, fun _ _ h => h, rfl, fun i q ids hq => by simp at hq⟩
  | cons q l ih =>
    intro h H hl hA
    obtain ⟨g, r⟩ := q
    have hq := hl (g, r) (by simp)
    rw [classifyAll]
    refine Tot.bind (classifySubtrees_tot hq.1 hq.2 hA) ?_
    rintro ⟨h1, ids⟩ ⟨H1, a1, a2, a3⟩
    dsimp only at a1 a3 ⊢
    refine Tot.bind (ih (fun q hq => hl q (by simp [hq])) a1) ?_
    rintro ⟨h2, res⟩ ⟨H2, b1, b2, b3, b4⟩
    dsimp only at b1 b3 b4 ⊢
    refine Tot.pure ⟨H2, b1, fun k j hk => b2 k j (a2 k j hk), by simp [b3], fun i q ids' hi hr => ?_⟩
    cases i with
    | zero =>
      simp only [List.getElem?_cons_zero, Option.some.injEq] at hi hr
      subst hi; subst hr
      exact a3.mono b2
    | succ i =>
      simp only [List.getElem?_cons_succ] at hi hr
      exact b4 i q ids' hi hr

/-- C100: identifiers handed out by one classifier, over any number of calls of `classify_subtrees` on any trees and after any earlier use, are equal exactly for isomorphic rooted subtrees. -/
theorem classifySubtrees_correct (h : Handler) (hr : Reachable h) (l : List (Array (List Nat) × Nat)) (hl : ∀ q ∈ l, IsTree q.1 ∧ q.2 < q.1.size) : ∃ h' res, classifyAll h l = .ok (h', res) ∧ res.length = l.length ∧
    ∀ (i j : Nat) (g g' : Array (List Nat)) (r r' : Nat) (ids ids' : Array Nat), l[i]? = some (g, r) → l[j]? = some (g', r') → res[i]? = some ids → res[j]? = some ids' →
      ids.size = g.size ∧ ∀ u v, u < g.size → v < g'.size → (ids[u]? = ids'[v]? ↔ SubtreeIso g r u g' r' v) := by
  obtain ⟨H, hA⟩ := hr.abs
  obtain ⟨⟨h', res⟩, e, H', h1, -, h3, h4⟩ := classifyAll_tot l hl hA
  refine ⟨h', res, e, h3, fun i j g g' r r' ids ids' hi hj hri hrj => ?_⟩
  have I1 := h4 i _ _ hi hri
  have I2 := h4 j _ _ hj hrj
  dsimp only at I1 I2
  refine ⟨I1.1, fun u v hu hv => ?_⟩
  have s1 := I1.1
  have s2 := I2.1
  obtain ⟨F, hF, hc⟩ := I1.code
  obtain ⟨G, hG, hc'⟩ := I2.code
  rw [← code_iff h1.inj (hl _ (List.mem_of_getElem? hi)).1 (hl _ (List.mem_of_getElem? hj)).1 hF hG hu hv (hc u hu) (hc' v hv)]
  rw [show ids[u]? = some (at' 0 ids u) by simp [at', show u < ids.size by omega], show ids'[v]? = some (at' 0 ids' v) by simp [at', show v < ids'.size by omega], Option.some.injEq]

/-- C100: `is_isomorphic_rooted` decides isomorphism of rooted trees. -/
theorem isIsomorphicRooted_correct (h : Handler) (hr : Reachable h) (g1 g2 : Array (List Nat)) (hg1 : IsTree g1) (hg2 : IsTree g2) (r1 r2 : Nat) (h1 : r1 < g1.size) (h2 : r2 < g2.size) :
    ∃ h' b, isIsomorphicRooted h g1 r1 g2 r2 = .ok (h', b) ∧ (b = true ↔ RootedIso g1 r1 g2 r2) := by
  obtain ⟨H, hA⟩ := hr.abs
  obtain ⟨⟨ha, ids⟩, e1, H1, a1, a2, a3⟩ := classifySubtrees_tot hg1 h1 hA
  dsimp only at a1 a3
  obtain ⟨⟨hb, ids'⟩, e2, H2, b1, b2, b3⟩ := classifySubtrees_tot hg2 h2 a1
  dsimp only at b1 b3
  have s1 := a3.1
  have s2 := b3.1
  refine ⟨hb, decide (at' 0 ids r1 = at' 0 ids' r2), ?_, ?_⟩
  · have f1 : classify h g1 r1 = .ok (ha, at' 0 ids r1) := by
      rw [classify, e1, ok_bind]
      dsimp only
      rw [rd_at 0 (by omega)]
      rfl
    have f2 : classify ha g2 r2 = .ok (hb, at' 0 ids' r2) := by
      rw [classify, e2, ok_bind]
      dsimp only
      rw [rd_at 0 (by omega)]
      rfl
    rw [isIsomorphicRooted, f1, ok_bind]
    dsimp only
    rw [f2]
    rfl
  · rw [decide_eq_true_eq]
    exact coded_iff b1.inj hg1 hg2 (a3.mono b2).coded b3.coded

/-- C101 (partial): `is_isomorphic` finds an isomorphism if there is one: the result is a pair of corresponding roots. If there is none, it returns nothing when the second tree has two centroids — and has undefined behaviour when the second tree has one centroid, because line 214 reads `cs2[1]`. So the property "returns nothing for trees that are not isomorphic" holds only for second trees with two centroids. -/
theorem isIsomorphic_partial (h : Handler) (hr : Reachable h) (g1 g2 : Array (List Nat)) (hg1 : IsTree g1) (hg2 : IsTree g2) (n1 : g1.size < 2 ^ 30) (n2 : g2.size < 2 ^ 30) :
    (Isomorphic g1 g2 → ∃ h' a b, isIsomorphic h g1 g2 = .ok (h', some (a, b)) ∧ RootedIso g1 a g2 b) ∧
    (¬ Isomorphic g1 g2 → (∃ u v, u ≠ v ∧ IsCentroid g2 u ∧ IsCentroid g2 v) → ∃ h', isIsomorphic h g1 g2 = .ok (h', none)) ∧
    (¬ Isomorphic g1 g2 → (∃! u, IsCentroid g2 u) → isIsomorphic h g1 g2 = .error .ub) := by
  obtain ⟨H, hA⟩ := hr.abs
  rcases isIsomorphic_outcome hg1 hg2 n1 n2 hA with ⟨h1, h', a, b, e, h2, -⟩ | ⟨h1, ⟨u, v, h2, h3, h4⟩, h', e, -⟩ | ⟨h1, h2, e⟩
  · exact ⟨fun _ => ⟨h', a, b, e, h2⟩, fun h => absurd h1 h, fun h => absurd h1 h⟩
  · exact ⟨fun h => absurd h h1, fun _ _ => ⟨h', e⟩, fun _ ⟨w, _, hw⟩ => absurd ((hw u h3).trans (hw v h4).symm) h2⟩
  · refine ⟨fun h => absurd h h1, fun _ ⟨u, v, h3, h4, h5⟩ => ?_, fun _ _ => e⟩
    obtain ⟨w, -, hw⟩ := h2
    exact absurd ((hw u h4).trans (hw v h5).symm) h3

/-- A path with five vertices. -/
def path5 : Array (List Nat) := #[[1], [0, 2], [1, 3], [2, 4], [3]]

/-- A star with five vertices. -/
def star5 : Array (List Nat) := #[[1, 2, 3, 4], [0], [0], [0], [0]]

/-- A path with four vertices. -/
def path4 : Array (List Nat) := #[[2], [2, 3], [0, 1], [1]]

/-- C101 fails: comparing a path with a star, both with five vertices, reads outside of a vector. -/
theorem isIsomorphic_ub : IsTree path5 ∧ IsTree star5 ∧ isIsomorphic Handler.fresh path5 star5 = .error .ub :=
  ⟨isTree_of_check (by decide +kernel), isTree_of_check (by decide +kernel), by decide +kernel⟩

/-- C101: hence `is_isomorphic` is not total on trees. -/
theorem not_isIsomorphic_total : ¬ ∀ g1 g2, IsTree g1 → IsTree g2 → g1.size < 2 ^ 30 → g2.size < 2 ^ 30 → ∃ r, isIsomorphic Handler.fresh g1 g2 = .ok r := by
  intro hall
  obtain ⟨h1, h2, h3⟩ := isIsomorphic_ub
  obtain ⟨r, hr⟩ := hall path5 star5 h1 h2 (by decide) (by decide)
  rw [h3] at hr
  cases hr

example : ∃ h' res, classifyAll Handler.fresh [(path5, 2), (star5, 1)] = .ok (h', res) ∧ res.length = 2 ∧
    ∀ (i j : Nat) (g g' : Array (List Nat)) (r r' : Nat) (ids ids' : Array Nat), [(path5, 2), (star5, 1)][i]? = some (g, r) → [(path5, 2), (star5, 1)][j]? = some (g', r') → res[i]? = some ids → res[j]? = some ids' →
      ids.size = g.size ∧ ∀ u v, u < g.size → v < g'.size → (ids[u]? = ids'[v]? ↔ SubtreeIso g r u g' r' v) :=
  classifySubtrees_correct _ .fresh [(path5, 2), (star5, 1)] (by
    intro q hq
    simp only [List.mem_cons, List.not_mem_nil, or_false] at hq
    rcases hq with rfl | rfl
    · exact ⟨isTree_of_check (by decide +kernel), by decide⟩
    · exact ⟨isTree_of_check (by decide +kernel), by decide⟩)

example : ∃ h' b, isIsomorphicRooted Handler.fresh path5 0 star5 1 = .ok (h', b) ∧ (b = true ↔ RootedIso path5 0 star5 1) :=
  isIsomorphicRooted_correct _ .fresh _ _ (isTree_of_check (by decide +kernel)) (isTree_of_check (by decide +kernel)) _ _ (by decide) (by decide)

example : (isIsomorphic Handler.fresh star5 path4).map Prod.snd = .ok none := by decide +kernel
example : (isIsomorphic Handler.fresh #[[1], [0, 2], [3, 1], [2]] path4).map Prod.snd = .ok (some (2, 1)) := by decide +kernel
example : (classifyAll Handler.fresh [(path5, 2), (star5, 1)]).map Prod.snd = .ok [#[0, 1, 2, 1, 0], #[3, 4, 0, 0, 0]] := by decide +kernel

end TreeIsoProps
