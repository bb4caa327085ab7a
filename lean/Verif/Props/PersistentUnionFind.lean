import Verif.Proof.PersistentUnionFind

/-! # C86: persistent union-find -/

namespace PersistentUnionFindProps
open Cxx PersistentArray PersistentUnionFind

/-- The abstract state of a linear history: the merged pairs, and a bound for the number of pool nodes used. A `merge` takes at most `2 * (depth + 1)` nodes, where `depth` is the depth of the array of `n` elements with branching 16. -/
def next (n : Nat) (s : List (Nat × Nat) × Nat) (op : UnionFind.Op) : List (Nat × Nat) × Nat :=
  (UnionFind.next s.1 op, match op with
    | .merge _ _ => s.2 + 2 * (depth 4 (n - 1) + 1)
    | _ => s.2)

/-- Vertices are in range and a `merge` finds room in the pool. -/
def Pre (n cap : Nat) (s : List (Nat × Nat) × Nat) (op : UnionFind.Op) : Prop :=
  UnionFind.Pre n s.1 op ∧ (next n s op).2 ≤ cap

instance (n cap : Nat) (s : List (Nat × Nat) × Nat) (op : UnionFind.Op) : Decidable (Pre n cap s op) := by
  unfold Pre; infer_instance

/-- The answers are those the merged pairs dictate. -/
def Ans (n : Nat) (s : List (Nat × Nat) × Nat) : UnionFind.Op → UnionFind.Out → Prop := UnionFind.Ans n s.1

/-- Representation of a linear history. -/
def Sim (n cap : Nat) (s : Heap Int × Option Nat) (t : List (Nat × Nat) × Nat) : Prop :=
  ∃ R rk, GI n R rk cap t.2 s.1 s.2 ∧ ∀ x y, x < n → y < n → (R x = R y ↔ UnionFind.Connected t.1 x y)

theorem step_sim (n cap : Nat) (s : Heap Int × Option Nat) (t : List (Nat × Nat) × Nat) (op : UnionFind.Op) (hs : Sim n cap s t) (hp : Pre n cap t op) :
    Tot (stepLast n s op) fun r => Sim n cap r.1 (next n t op) ∧ Ans n t op r.2 := by
  obtain ⟨R, rk, g, hR⟩ := hs
  obtain ⟨dat, lab, hI, -, -⟩ := g.ex
  obtain ⟨hp, hcap⟩ := hp
  unfold stepLast call
  cases op with
  | root x =>
    refine Tot.bind (Tot.bind (root_tot g hp) (Q := fun r => GI n R rk cap t.2 r.1 s.2 ∧ r.2.1 = s.2 ∧ r.2.2 = .vertex (R x)) ?_) ?_
    · rintro ⟨h', r⟩ ⟨h1, h2⟩
      dsimp only at h1 h2 ⊢
      subst h1
      exact Tot.pure ⟨h2, rfl, rfl⟩
    · rintro ⟨h', q, o⟩ ⟨h1, h2, h3⟩
      dsimp only at h1 h2 h3 ⊢
      subst h2 h3
      exact Tot.pure ⟨⟨R, rk, h1, hR⟩, hI.lt x hp, (hR x _ hp (hI.lt x hp)).mp (hI.idem x hp).symm⟩
  | merge x y =>
    obtain ⟨hx, hy⟩ := hp
    refine Tot.bind (Tot.bind (merge_tot g hx hy hcap) (Q := fun r => ∃ b, r.2.2 = .bool b ∧
      (R x = R y → b = false ∧ GI n R rk cap (t.2 + 2 * (depth 4 (n - 1) + 1)) r.1 r.2.1) ∧
      (R x ≠ R y → b = true ∧ ∃ c d rk', (c = R x ∧ d = R y ∨ c = R y ∧ d = R x) ∧
        GI n (UnionFind.link R c d) rk' cap (t.2 + 2 * (depth 4 (n - 1) + 1)) r.1 r.2.1)) ?_) ?_
    · rintro ⟨h', q, b⟩ ⟨h1, h2⟩
      exact Tot.pure ⟨b, rfl, h1, h2⟩
    · rintro ⟨h', q, o⟩ ⟨b, ho, h1, h2⟩
      dsimp only at ho h1 h2 ⊢
      subst ho
      refine Tot.pure ⟨?_, ?_⟩
      · by_cases e : R x = R y
        · exact ⟨R, rk, (h1 e).2, UnionFind.sim_cons_of_connected hx hy hR e⟩
        · obtain ⟨-, a, c, rk', hpc, hI'⟩ := h2 e
          refine ⟨_, _, hI', fun z w hz hw => ?_⟩
          rw [show (next n t (.merge x y)).1 = (x, y) :: t.1 from rfl, UnionFind.connected_cons]
          exact UnionFind.link_iff hx hy hR hpc z w hz hw
      · show b = true ↔ ¬ UnionFind.Connected t.1 x y
        rw [← hR x y hx hy]
        by_cases e : R x = R y
        · simp [(h1 e).1, e]
        · simp [(h2 e).1, e]
  | same x y =>
    obtain ⟨hx, hy⟩ := hp
    refine Tot.bind (Tot.bind (same_tot g hx hy) (Q := fun r => GI n R rk cap t.2 r.1 s.2 ∧ r.2.1 = s.2 ∧ ∃ b, r.2.2 = .bool b ∧ (b = true ↔ R x = R y)) ?_) ?_
    · rintro ⟨h', b⟩ ⟨h1, h2⟩
      exact Tot.pure ⟨h2, rfl, b, rfl, h1⟩
    · rintro ⟨h', q, o⟩ ⟨h1, h2, b, h3, h4⟩
      dsimp only at h1 h2 h3 ⊢
      subst h2 h3
      exact Tot.pure ⟨⟨R, rk, h1, hR⟩, h4.trans (hR x y hx hy)⟩
  | size x =>
    refine Tot.bind (Tot.bind (size_tot g hp) (Q := fun r => GI n R rk cap t.2 r.1 s.2 ∧ r.2.1 = s.2 ∧ ∃ k : Int, r.2.2 = .int k ∧ k = (UnionFind.cls n R (R x)).card) ?_) ?_
    · rintro ⟨h', k⟩ ⟨h1, h2⟩
      exact Tot.pure ⟨h2, rfl, k, rfl, h1⟩
    · rintro ⟨h', q, o⟩ ⟨h1, h2, k, h3, h4⟩
      dsimp only at h1 h2 h3 ⊢
      subst h2 h3
      exact Tot.pure ⟨⟨R, rk, h1, hR⟩, Eq.trans h4 (UnionFind.size_ans hR hp)⟩
  | groups =>
    refine Tot.bind (Tot.bind (groups_tot g) (Q := fun r => GI n R rk cap t.2 r.1 s.2 ∧ r.2.1 = s.2 ∧ ∃ gs, r.2.2 = .groups gs ∧
      gs = ((List.range n).map fun x => (List.range n).filter (R · = x)).filter (· ≠ [])) ?_) ?_
    · rintro ⟨h', gs⟩ ⟨h1, h2⟩
      exact Tot.pure ⟨h1, rfl, gs, rfl, h2⟩
    · rintro ⟨h', q, o⟩ ⟨h1, h2, k, h3, h4⟩
      dsimp only at h1 h2 h3 ⊢
      subst h2 h3
      exact Tot.pure ⟨⟨R, rk, h1, hR⟩, UnionFind.groups_ans hI.lt hR h4⟩

/-- **C86, linear use.** If each call is made on the newest version (`uf = uf.merge(x, y).first`), a history of in-range calls on `PersistentUnionFind(n)` runs without leaving the pool, provided the pool has `n` nodes and `2 * (depth + 1)` more for every `merge`, and the answers are those the merged pairs dictate. -/
theorem persistentUnionFind_linear_partial (n cap : Nat) (hcap : n ≤ cap) (ops : List UnionFind.Op) (hv : ValidOps (Pre n cap) (next n) ([], n) ops) :
    ∃ h p s outs, init (initPool cap) n = .ok (h, p) ∧ runOps (stepLast n) (h, p) ops = .ok (s, outs) ∧ TraceOk (next n) (Ans n) ([], n) ops outs := by
  have w0 : WF 4 (fun _ => (0, 1)) (initPool cap : Heap Int) := by
    constructor <;> · intro q x; simp [initPool]
  obtain ⟨⟨h, p⟩, e, g1, g2, g3, lab', w', g4, g5⟩ := build_tot (init := Array.replicate n (-1 : Int)) w0 (by simpa [initPool] using hcap)
  have hs : Sim n cap (h, p) ([], n) := by
    refine ⟨id, fun _ => 1, ⟨⟨_, lab', UnionFind.inv_init n, w', ?_⟩, g2, by simp [initPool] at g1; dsimp only; omega⟩, fun _ _ _ _ => UnionFind.connected_nil.symm⟩
    rcases g5 with ⟨a, b⟩ | ⟨r, a, b, c, d⟩
    · exact Or.inl ⟨a, b⟩
    · exact Or.inr ⟨r, a, b, c, d⟩
  obtain ⟨⟨s, outs⟩, e', -, ht⟩ := refine (step_sim n cap) hs hv
  exact ⟨h, p, s, outs, e, e', ht⟩

example : ValidOps (Pre 5 40) (next 5) ([], 5) [.merge 1 2, .merge 3 4, .merge 1 3, .root 4, .same 2 4, .size 0, .groups] := by decide +kernel

/-- **C86 fails for older versions.** `root` compresses paths in nodes shared with older versions: with `p1 = p0.merge(1, 2)`, `p2 = p1.merge(3, 4)`, `p3 = p2.merge(1, 3)`, version `p2` answers `same(3, 4) = true` before and `false` after the call `p3.root(4)`. The versions are 0 = `p0`, 1 = `p1`, 2 = `p2`, 3 = `p3`, 4 = `p2`, 5 = `p3`, 6 = `p2`. -/
theorem persistentUnionFind_old_version_wrong :
    (do
      let s ← init (initPool 40) 5
      let r ← runOps (stepAny 5) (s.1, [s.2]) [(0, .merge 1 2), (1, .merge 3 4), (2, .merge 1 3), (2, .same 3 4), (3, .root 4), (2, .same 3 4)]
      return r.2) = .ok [.bool true, .bool true, .bool true, .bool true, .vertex 1, .bool false] := by decide +kernel

end PersistentUnionFindProps
