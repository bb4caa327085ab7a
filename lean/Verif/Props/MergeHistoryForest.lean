import Verif.Proof.MergeHistoryQuery

/-!
# MergeHistoryForest: property C135

Specification: the abstract state is the list of the calls of `merge` and `merge_simultaneously` so far, each with its list of edges. The time `t`
stands for the situation after the first `t` calls (after all of them if there are fewer).
-/

namespace MergeHistory
open Cxx
open UnionFind (Connected)

/-- The operations of the history. -/
inductive Op
  | merge (u v : Nat)
  | mergeSimultaneously (edges : List (Nat × Nat))
  | group (i time : Nat)
  | groups (time : Nat)

/-- The answers: `none` for the two updates. -/
inductive Out
  | none
  | list (l : List Nat)
  | lists (gs : List (List Nat))

/-- One operation of the model. -/
def step (pick : Array Nat → Nat → Nat → Bool) (o : Obj) : Op → M (Obj × Out)
  | .merge u v => do return (← merge pick o u v, .none)
  | .mergeSimultaneously es => do return (← mergeSimultaneously pick o es, .none)
  | .group i t => do return (o, .list (← group o i t))
  | .groups t => do return (o, .lists (← groups o t))

/-- The edges merged by the first `t` calls. -/
def merged (calls : List (List (Nat × Nat))) (t : Nat) : List (Nat × Nat) := (calls.take t).flatten

/-- The vertices are `0 … n - 1`. -/
def Pre (n : Nat) (_ : List (List (Nat × Nat))) : Op → Prop
  | .merge u v => u < n ∧ v < n
  | .mergeSimultaneously es => ∀ e ∈ es, e.1 < n ∧ e.2 < n
  | .group i _ => i < n
  | .groups _ => True

/-- The effect: the two updates are recorded. -/
def next (calls : List (List (Nat × Nat))) : Op → List (List (Nat × Nat))
  | .merge u v => calls ++ [[(u, v)]]
  | .mergeSimultaneously es => calls ++ [es]
  | _ => calls

/-- The answers a user relies on. -/
def Ans (n : Nat) (calls : List (List (Nat × Nat))) : Op → Out → Prop
  | .merge _ _, .none => True
  | .mergeSimultaneously _, .none => True
  | .group i t, .list l => l.Nodup ∧ ∀ j, j ∈ l ↔ j < n ∧ Connected (merged calls t) i j
  | .groups t, .lists gs => (∀ l ∈ gs, l ≠ []) ∧ gs.flatten.Perm (List.range n) ∧
      ∀ l ∈ gs, ∀ i ∈ l, ∀ j < n, (j ∈ l ↔ Connected (merged calls t) i j)
  | _, _ => False

instance : ∀ n calls op, Decidable (Pre n calls op) := fun n _ op => by
  cases op <;> simp only [Pre] <;> infer_instance

/-- `y` is reached from `x` by following `forest_parent`. -/
def Ancestor (o : Obj) (x y : Nat) : Prop := Relation.ReflTransGen (fun a b => forestParent o a = .ok (some b)) x y

/-- The simulation relation. -/
def Sim (n : Nat) (o : Obj) (calls : List (List (Nat × Nat))) : Prop :=
  Inv o calls ∧ o.n = n ∧ ∀ e ∈ calls.flatten, e.1 < n ∧ e.2 < n

theorem ancestor_iff {o : Obj} {x y : Nat} : Ancestor o x y ↔ Anc o x y := by
  have : (fun a b => forestParent o a = .ok (some b)) = (fun a b => par o a = some b) := by
    funext a b
    unfold forestParent rd par at'
    cases h : o.parent[a]? <;> simp
  unfold Ancestor Anc
  rw [this]

theorem step_sim (pick : Array Nat → Nat → Nat → Bool) (n : Nat) (o : Obj) (calls : List (List (Nat × Nat))) (op : Op) (h : Sim n o calls) (hp : Pre n calls op) :
    Tot (step pick o op) fun r => Sim n r.1 (next calls op) ∧ Ans n calls op r.2 := by
  obtain ⟨inv, rfl, he⟩ := h
  have he' : ∀ e ∈ edgesUpTo calls calls.length, e.1 < o.n ∧ e.2 < o.n := by
    unfold edgesUpTo
    rw [List.take_length]
    exact he
  cases op with
  | merge u v =>
    obtain ⟨hu, hv⟩ : u < o.n ∧ v < o.n := hp
    unfold step
    dsimp only
    refine (merge_tot inv hu hv he').bind ?_
    rintro o' ⟨h1, h2⟩
    rw [pure_eq]
    refine tot_ok.mpr ⟨⟨h1, h2, ?_⟩, trivial⟩
    intro e hm
    simp only [next, List.flatten_append, List.mem_append] at hm
    rcases hm with h | h
    · exact he e h
    · simp at h
      subst h
      exact ⟨hu, hv⟩
  | mergeSimultaneously es =>
    unfold step
    dsimp only
    refine (mergeSim_tot inv hp he').bind ?_
    rintro o' ⟨h1, h2⟩
    rw [pure_eq]
    refine tot_ok.mpr ⟨⟨h1, h2, ?_⟩, trivial⟩
    intro e hm
    simp only [next, List.flatten_append, List.mem_append] at hm
    rcases hm with h | h
    · exact he e h
    · exact hp e (by simpa using h)
  | group i t =>
    unfold step
    dsimp only
    refine (group_tot inv (t := t) hp).bind ?_
    intro l hl
    rw [pure_eq]
    exact tot_ok.mpr ⟨⟨inv, rfl, he⟩, hl⟩
  | groups t =>
    unfold step
    dsimp only
    refine (groups_tot inv (t := t)).bind ?_
    intro l hl
    rw [pure_eq]
    exact tot_ok.mpr ⟨⟨inv, rfl, he⟩, hl⟩

theorem new_sim (n : Nat) : Sim n (new n) [] := ⟨new_inv n, rfl, by simp⟩

/-- C135: in every history of `merge`, `merge_simultaneously`, `group` and `groups`, no call fails, `group(i, t)` lists without repetition exactly the
vertices connected to `i` by the edges of the first `t` updates, and `groups(t)` is the partition into these classes. -/
theorem history (pick : Array Nat → Nat → Nat → Bool) (n : Nat) (ops : List Op) (hv : ValidOps (Pre n) next [] ops) :
    Tot (runOps (step pick) (new n) ops) fun r => TraceOk next (Ans n) [] ops r.2 :=
  (Cxx.refine (Sim := Sim n) (Ans := Ans n) (step_sim pick n) (new_sim n) hv).mono fun _ h => h.2

/-- C135: after every history, `same(u, v, t, get_lca)` says whether `u` and `v` were connected by the edges of the first `t` updates, provided that `get_lca`
returns the lowest common ancestor with respect to `forest_parent` when the two vertices have one. -/
theorem same_spec (pick : Array Nat → Nat → Nat → Bool) (n : Nat) (ops : List Op) (hv : ValidOps (Pre n) next [] ops) :
    Tot (runOps (step pick) (new n) ops) fun r => ∀ u v t a, u < n → v < n →
      ((∃ b, Ancestor r.1 u b ∧ Ancestor r.1 v b) → Ancestor r.1 u a ∧ Ancestor r.1 v a ∧ ∀ b, Ancestor r.1 u b → Ancestor r.1 v b → Ancestor r.1 a b) →
      Tot (same r.1 u v t a) fun b => b = true ↔ Connected (merged (ops.foldl next []) t) u v := by
  refine (Cxx.refine (Sim := Sim n) (Ans := Ans n) (step_sim pick n) (new_sim n) hv).mono ?_
  rintro r ⟨⟨inv, rfl, -⟩, -⟩ u v t a hu hv ha
  refine same_tot inv hu hv ?_
  intro hc
  have h1 := inv.top u hu
  have h2 := inv.top v hv
  rw [← (inv.lab u v hu hv).mp hc] at h2
  obtain ⟨a1, a2, a3⟩ := ha ⟨_, ancestor_iff.mpr h1.1, ancestor_iff.mpr h2.1⟩
  exact ⟨ancestor_iff.mp a1, ancestor_iff.mp a2, fun b b1 b2 => ancestor_iff.mp (a3 b (ancestor_iff.mpr b1) (ancestor_iff.mpr b2))⟩

/-- C135: after every history, `forest_root(i)` is an ancestor of the leaf `i` without a parent, it is the same node for two leaves exactly if they are connected, and the
nodes other than the leaves carry the numbers of the updates that created them: two leaves have a common ancestor created at most at the time
`t` exactly if they are connected by the first `t` updates. -/
theorem forest_spec (pick : Array Nat → Nat → Nat → Bool) (n : Nat) (ops : List Op) (hv : ValidOps (Pre n) next [] ops) :
    Tot (runOps (step pick) (new n) ops) fun r =>
      (∀ i, i < n → Tot (forestRoot r.1 i) fun x => Ancestor r.1 i x ∧ forestParent r.1 x = .ok none) ∧
      (∀ i j x y, i < n → j < n → forestRoot r.1 i = .ok x → forestRoot r.1 j = .ok y → (x = y ↔ Connected (ops.foldl next []).flatten i j)) ∧
      (∀ i j t, i < n → j < n → i ≠ j →
        ((∃ p c, Ancestor r.1 i p ∧ Ancestor r.1 j p ∧ createdTime r.1 p = .ok c ∧ c ≤ t) ↔ Connected (merged (ops.foldl next []) t) i j)) := by
  refine (Cxx.refine (Sim := Sim n) (Ans := Ans n) (step_sim pick n) (new_sim n) hv).mono ?_
  rintro ⟨o, outs⟩ ⟨⟨inv, hn, -⟩, -⟩
  dsimp only at inv hn ⊢
  subst hn
  have w := inv.wf
  have nm := w.nm
  have hroot : ∀ i, i < o.n → forestRoot o i = .ok (rt o (lb o i)) := by
    intro i hi
    unfold forestRoot
    rw [leader_ok w.lsz hi, ok_bind, rd_at 0 (by rw [w.rsz]; exact inv.lab_lt i hi)]
    rfl
  refine ⟨?_, ?_, ?_⟩
  · intro i hi
    rw [hroot i hi]
    obtain ⟨h1, h2⟩ := inv.top i hi
    refine tot_ok.mpr ⟨ancestor_iff.mpr h1, ?_⟩
    unfold forestParent
    rw [rd_at none (by rw [w.psz]; exact h1.lt w (by omega))]
    exact congrArg _ h2
  · intro i j x y hi hj hx hy
    rw [hroot i hi] at hx
    rw [hroot j hj] at hy
    obtain rfl := Except.ok.inj hx
    obtain rfl := Except.ok.inj hy
    have hl := inv.lab i j hi hj
    unfold edgesUpTo at hl
    rw [List.take_length] at hl
    rw [hl]
    constructor
    · exact inv.root_inj (inv.lab_lt i hi) (inv.lab_lt j hj) (inv.lab_lab i hi) (inv.lab_lab j hj)
    · intro h
      rw [h]
  · intro i j t hi hj hne
    show _ ↔ Connected (edgesUpTo _ t) i j
    rw [inv.conn t i j hi hj]
    constructor
    · rintro ⟨p, c, h1, h2, h3, h4⟩
      have h1 := ancestor_iff.mp h1
      unfold createdTime at h3
      rw [rd_at 0 (by rw [w.csz]; exact h1.lt w (by omega))] at h3
      refine .inr ⟨p, h1, ancestor_iff.mp h2, ?_⟩
      have := Except.ok.inj h3
      unfold cr
      omega
    · rintro (h | ⟨p, h1, h2, h3⟩)
      · exact absurd h hne
      · refine ⟨p, cr o p, ancestor_iff.mpr h1, ancestor_iff.mpr h2, ?_, h3⟩
        unfold createdTime
        rw [rd_at 0 (by rw [w.csz]; exact h1.lt w (by omega))]
        rfl

/-- A history that meets the precondition: two components of a simultaneous merge, a superfluous edge, and an older time. -/
def demo : List Op := [.merge 0 1, .mergeSimultaneously [(1, 2), (3, 4), (2, 0), (4, 5), (0, 3)], .merge 0 5, .group 0 1, .groups 1, .merge 6 0, .groups 2]

example : ValidOps (Pre 7) next [] demo := by decide

/-- The hypothesis of `same_spec` on `a` can be met for all `u` and `v` after every history. -/
theorem lca_exists (pick : Array Nat → Nat → Nat → Bool) (n : Nat) (ops : List Op) (hv : ValidOps (Pre n) next [] ops) :
    Tot (runOps (step pick) (new n) ops) fun r => ∀ u v, u < n → v < n → ∃ a,
      ((∃ b, Ancestor r.1 u b ∧ Ancestor r.1 v b) → Ancestor r.1 u a ∧ Ancestor r.1 v a ∧ ∀ b, Ancestor r.1 u b → Ancestor r.1 v b → Ancestor r.1 a b) := by
  classical
  refine (Cxx.refine (Sim := Sim n) (Ans := Ans n) (step_sim pick n) (new_sim n) hv).mono ?_
  rintro r ⟨⟨inv, rfl, -⟩, -⟩ u v hu hv
  by_cases h : ∃ b, Ancestor r.1 u b ∧ Ancestor r.1 v b
  · obtain ⟨h1, h2⟩ := Nat.find_spec h
    refine ⟨Nat.find h, fun _ => ⟨h1, h2, ?_⟩⟩
    intro b b1 b2
    rcases (ancestor_iff.mp h1).chain (ancestor_iff.mp b1) with k | k
    · exact ancestor_iff.mpr k
    · have k1 := (k.le inv.wf).1
      have k2 := Nat.find_min' h ⟨b1, b2⟩
      rw [Nat.le_antisymm k1 k2]
      exact .refl
  · exact ⟨0, fun hb => absurd hb h⟩

end MergeHistory
