import Verif.Proof.LinkedUnionFind
import Verif.Proof.ComponentSum

/-!
# LinkedUnionFind, UnionFindComponentSum, UndoUnionFindComponentSum

Specification: as for `UnionFind`, the abstract state is the list of merged pairs.
-/

namespace LinkedUnionFind
open Cxx
open UnionFind (Inv Connected)

/-- Arguments are vertices. -/
def Pre (n : Nat) (_ : List (Nat × Nat)) : Op → Prop
  | .merge x y => x < n ∧ y < n
  | .same x y => x < n ∧ y < n
  | .size x => x < n
  | .component x => x < n

instance : ∀ n es op, Decidable (Pre n es op) := fun n _ op => by
  cases op <;> simp only [Pre] <;> infer_instance

/-- Only `merge` changes the abstract state. -/
def next (es : List (Nat × Nat)) : Op → List (Nat × Nat)
  | .merge x y => (x, y) :: es
  | _ => es

/-- `component x` lists every vertex connected to `x` exactly once. -/
def Ans (n : Nat) (es : List (Nat × Nat)) : Op → Out → Prop
  | .merge x y, .bool b => b = true ↔ ¬ Connected es x y
  | .same x y, .bool b => b = true ↔ Connected es x y
  | .size x, .int k => k = Set.ncard {y | y < n ∧ Connected es x y}
  | .component x, .list l => l.Nodup ∧ ∀ y, y ∈ l ↔ y < n ∧ Connected es x y
  | _, _ => False

/-- Simulation relation. -/
def Sim (n : Nat) (s : State) (es : List (Nat × Nat)) : Prop :=
  ∃ R rk, Inv n R rk s.dat ∧ LInv n R s.link ∧ ∀ x y, x < n → y < n → (R x = R y ↔ Connected es x y)

theorem step_sim (n : Nat) (s : State) (es : List (Nat × Nat)) (op : Op) (hs : Sim n s es)
    (hp : Pre n es op) : Tot (step s op) fun r => Sim n r.1 (next es op) ∧ Ans n es op r.2 := by
  obtain ⟨R, rk, hI, hL, hR⟩ := hs
  cases op with
  | merge x y =>
    obtain ⟨hx, hy⟩ := hp
    simp only [step, merge]
    by_cases e : R x = R y
    · obtain ⟨⟨d, b⟩, he, h1, -⟩ := UnionFind.merge_tot hI hx hy
      obtain ⟨rfl, h1⟩ := h1 e
      simp only [he, ok_bind, Bool.false_eq_true, if_false, pure_eq]
      refine Tot.pure ⟨⟨R, rk, h1, hL, UnionFind.sim_cons_of_connected hx hy hR e⟩, ?_⟩
      show false = true ↔ _
      rw [← hR x y hx hy]; simp [e]
    · obtain ⟨⟨d, b⟩, he, -, h2⟩ := UnionFind.merge_tot hI hx hy
      obtain ⟨rfl, p, c, rk', hpc, h2⟩ := h2 e
      obtain ⟨l', hl, hL'⟩ := linv_swap hL hx hy e hpc
      simp only [he, ok_bind, if_true, hl, pure_eq]
      refine Tot.pure ⟨⟨_, rk', h2, hL', fun z w hz hw => ?_⟩, ?_⟩
      · rw [show next es (.merge x y) = (x, y) :: es from rfl, UnionFind.connected_cons]
        exact UnionFind.link_iff hx hy hR hpc z w hz hw
      · show true = true ↔ _
        rw [← hR x y hx hy]; simp [e]
  | same x y =>
    obtain ⟨hx, hy⟩ := hp
    refine Tot.bind (UnionFind.same_tot hI hx hy) ?_
    rintro ⟨d, b⟩ ⟨h1, h2⟩
    exact Tot.pure ⟨⟨R, rk, h2, hL, hR⟩, h1.trans (hR x y hx hy)⟩
  | size x =>
    refine Tot.bind (UnionFind.size_tot hI hp) ?_
    rintro ⟨d, k⟩ ⟨h1, h2⟩
    exact Tot.pure ⟨⟨R, rk, h2, hL, hR⟩, Eq.trans h1 (UnionFind.size_ans hR hp)⟩
  | component x =>
    refine Tot.bind (component_eq hL hp) ?_
    rintro l ⟨h1, h2⟩
    refine Tot.pure ⟨⟨R, rk, hI, hL, hR⟩, h1, fun y => ?_⟩
    rw [h2]
    constructor
    · rintro ⟨hy, e⟩; exact ⟨hy, (hR x y hp hy).mp e.symm⟩
    · rintro ⟨hy, e⟩; exact ⟨hy, ((hR x y hp hy).mpr e).symm⟩

/-- **C61.** Every history of in-range calls on `LinkedUnionFind(n)` is safe, answers as `UnionFind`, and
`connected_component(x)` lists the vertices connected to `x`, each once. -/
theorem linkedUnionFind_correct (n : Nat) (ops : List Op) (hv : ValidOps (Pre n) next [] ops) :
    ∃ s outs, runOps step (init n) ops = .ok (s, outs) ∧ TraceOk next (Ans n) [] ops outs := by
  have h0 : Sim n (init n) [] := by
    obtain ⟨R, rk, h⟩ := UnionFind.sim_init n
    refine ⟨id, _, UnionFind.inv_init n, linv_init n, fun x y hx hy => ?_⟩
    constructor
    · rintro ⟨⟩; exact .refl _
    · intro h
      have : ∀ x y, Connected [] x y → x = y := by
        intro x y h
        induction h with
        | rel _ _ h => simp at h
        | refl => rfl
        | symm _ _ _ ih => exact ih.symm
        | trans _ _ _ _ _ ih1 ih2 => exact ih1.trans ih2
      exact this x y h
  obtain ⟨⟨s, outs⟩, e, -, h⟩ := refine (step_sim n) h0 hv
  exact ⟨s, outs, e, h⟩

example : ValidOps (Pre 5) next [] [.merge 0 1, .merge 3 1, .component 0, .component 2, .merge 0 3, .size 1] := by decide

example : (runOps step (init 5) [.merge 0 1, .merge 3 1, .component 0, .component 2, .merge 0 3, .size 1]).toOption.map (·.2)
    = some [.bool true, .bool true, .list [0, 1, 3], .list [2], .bool false, .int 3] := by decide

end LinkedUnionFind

namespace UnionFindComponentSum
open Cxx
open UnionFind (Inv Connected)

/-- Arguments are vertices. -/
def Pre (n : Nat) (_ : List (Nat × Nat)) : Op → Prop
  | .merge x y => x < n ∧ y < n
  | .same x y => x < n ∧ y < n
  | .size x => x < n
  | .sum x => x < n

instance : ∀ n es op, Decidable (Pre n es op) := fun n _ op => by
  cases op <;> simp only [Pre] <;> infer_instance

/-- Only `merge` changes the abstract state. -/
def next (es : List (Nat × Nat)) : Op → List (Nat × Nat)
  | .merge x y => (x, y) :: es
  | _ => es

variable {T A : Type} [AddCommMonoid A]

/-- `sum x` is, as seen through `obs`, the sum of the initial values `a y` over all `y` connected to `x`. -/
def Ans (obs : T → A) (a : Array T) (es : List (Nat × Nat)) : Op → Out T → Prop
  | .merge x y, .bool b => b = true ↔ ¬ Connected es x y
  | .same x y, .bool b => b = true ↔ Connected es x y
  | .size x, .int k => k = Set.ncard {y | y < a.size ∧ Connected es x y}
  | .sum x, .val v => obs v = ComponentSum.compSum a.size es (fun y => (a[y]?.map obs).getD 0) x
  | _, _ => False

/-- Simulation relation. -/
def Sim (obs : T → A) (w : Nat → A) (n : Nat) (s : State T) (es : List (Nat × Nat)) : Prop :=
  ∃ R rk, Inv n R rk s.dat ∧ ComponentSum.SInv obs w n R s.sum ∧ ∀ x y, x < n → y < n → (R x = R y ↔ Connected es x y)

theorem step_sim {mergeData : T → T → T} {moved : T → T} {obs : T → A}
    (hf : ∀ a b, obs (mergeData a b) = obs a + obs b) (a : Array T) (s : State T) (es : List (Nat × Nat)) (op : Op)
    (hs : Sim obs (fun y => (a[y]?.map obs).getD 0) a.size s es) (hp : Pre a.size es op) :
    Tot (step mergeData moved s op) fun r =>
      Sim obs (fun y => (a[y]?.map obs).getD 0) a.size r.1 (next es op) ∧ Ans obs a es op r.2 := by
  obtain ⟨R, rk, hI, hL, hR⟩ := hs
  cases op with
  | merge x y =>
    obtain ⟨hx, hy⟩ := hp
    refine Tot.bind (merge_tot hf hI hL hx hy) ?_
    rintro ⟨d, b⟩ ⟨h1, h2⟩
    by_cases e : R x = R y
    · obtain ⟨hb, h1, h1'⟩ := h1 e
      refine Tot.pure ⟨⟨R, rk, h1, h1', UnionFind.sim_cons_of_connected hx hy hR e⟩, ?_⟩
      show b = true ↔ _
      rw [← hR x y hx hy]; simp [e, show b = false from hb]
    · obtain ⟨hb, p, c, rk', hpc, h2, h2'⟩ := h2 e
      refine Tot.pure ⟨⟨_, rk', h2, h2', fun z w hz hw => ?_⟩, ?_⟩
      · rw [show next es (.merge x y) = (x, y) :: es from rfl, UnionFind.connected_cons]
        exact UnionFind.link_iff hx hy hR hpc z w hz hw
      · show b = true ↔ _
        rw [← hR x y hx hy]; simp [e, show b = true from hb]
  | same x y =>
    obtain ⟨hx, hy⟩ := hp
    refine Tot.bind (UnionFind.same_tot hI hx hy) ?_
    rintro ⟨d, b⟩ ⟨h1, h2⟩
    exact Tot.pure ⟨⟨R, rk, h2, hL, hR⟩, h1.trans (hR x y hx hy)⟩
  | size x =>
    refine Tot.bind (UnionFind.size_tot hI hp) ?_
    rintro ⟨d, k⟩ ⟨h1, h2⟩
    exact Tot.pure ⟨⟨R, rk, h2, hL, hR⟩, Eq.trans h1 (UnionFind.size_ans hR hp)⟩
  | sum x =>
    simp only [step, sum]
    obtain ⟨⟨d, r⟩, he, h1, h2⟩ := UnionFind.root_tot hI hp
    simp only at h1 h2; subst h1
    obtain ⟨v, hv, ho⟩ := hL.2 (R x) (hI.lt x hp) (hI.idem x hp)
    simp only [he, ok_bind, rd_some hv, pure_eq]
    refine Tot.pure ⟨⟨R, rk, h2, hL, hR⟩, ?_⟩
    show obs v = _
    rw [ho]; exact ComponentSum.sum_ans hR hp

/-- **C62.** If `merge_data` adds (through an observation `obs` into a commutative monoid), then in every history of
in-range calls `sum(x)` is the sum of the initial values over the component of `x` — whatever `std::move` leaves
behind. -/
theorem unionFindComponentSum_correct {mergeData : T → T → T} {moved : T → T} {obs : T → A}
    (hf : ∀ a b, obs (mergeData a b) = obs a + obs b) (a : Array T) (ops : List Op)
    (hv : ValidOps (Pre a.size) next [] ops) :
    ∃ s outs, runOps (step mergeData moved) (init a) ops = .ok (s, outs) ∧ TraceOk next (Ans obs a) [] ops outs := by
  have h0 : Sim obs (fun y => (a[y]?.map obs).getD 0) a.size (init a) [] := by
    refine ⟨id, _, UnionFind.inv_init a.size, ComponentSum.sinv_init obs a, fun x y hx hy => ?_⟩
    constructor
    · rintro ⟨⟩; exact .refl _
    · intro h
      have : ∀ x y, Connected [] x y → x = y := by
        intro x y h
        induction h with
        | rel _ _ h => simp at h
        | refl => rfl
        | symm _ _ _ ih => exact ih.symm
        | trans _ _ _ _ _ ih1 ih2 => exact ih1.trans ih2
      exact this x y h
  obtain ⟨⟨s, outs⟩, e, -, h⟩ := refine (step_sim hf a) h0 hv
  exact ⟨s, outs, e, h⟩

example : (∀ a b : Int, id (a + b) = id a + id b) ∧
    ValidOps (Pre 4) next [] [.merge 0 1, .merge 2 1, .sum 2, .sum 3, .merge 2 0] :=
  ⟨fun _ _ => rfl, by decide⟩

example : (runOps (step (· + ·) (fun _ => -1000)) (init #[1, 10, 100, (1000 : Int)])
    [.merge 0 1, .merge 2 1, .sum 2, .sum 3, .merge 2 0]).toOption.map (·.2)
    = some [.bool true, .bool true, .val 111, .val 1000, .bool false] := by decide

end UnionFindComponentSum

namespace UndoUnionFindComponentSum
open Cxx
open UnionFind (Inv Connected)

open Classical in
/-- Abstract transition on (pairs before the last snapshot, stack of successful merges since). -/
noncomputable def next (t : List (Nat × Nat) × List (Nat × Nat)) : Op → List (Nat × Nat) × List (Nat × Nat)
  | .merge x y => if Connected (t.2 ++ t.1) x y then t else (t.1, (x, y) :: t.2)
  | .snapshot => (t.2 ++ t.1, [])
  | .undo => (t.1, t.2.tail)
  | .rollback => (t.1, [])
  | _ => t

/-- Vertices are in range; `undo` needs a merge to undo. -/
def Pre (n : Nat) (t : List (Nat × Nat) × List (Nat × Nat)) : Op → Prop
  | .merge x y => x < n ∧ y < n
  | .same x y => x < n ∧ y < n
  | .size x => x < n
  | .sum x => x < n
  | .undo => t.2 ≠ []
  | _ => True

variable {T A : Type} [AddCommMonoid A]

/-- The answers, in terms of the pairs currently in force. -/
def Ans (obs : T → A) (a : Array T) (t : List (Nat × Nat) × List (Nat × Nat)) : Op → Out T → Prop
  | .merge x y, .bool b => b = true ↔ ¬ Connected (t.2 ++ t.1) x y
  | .same x y, .bool b => b = true ↔ Connected (t.2 ++ t.1) x y
  | .size x, .int k => k = Set.ncard {y | y < a.size ∧ Connected (t.2 ++ t.1) x y}
  | .sum x, .val v => obs v = ComponentSum.compSum a.size (t.2 ++ t.1) (fun y => (a[y]?.map obs).getD 0) x
  | .snapshot, .unit => True
  | .undo, .unit => True
  | .rollback, .unit => True
  | _, _ => False

theorem step_sim {mergeData : T → T → T} {undoData : T → T} {obs : T → A}
    (hf : ∀ a b, obs (mergeData a b) = obs a + obs b) (hu : ∀ a b, undoData (mergeData a b) = a) (a : Array T)
    (s : State T) (t : List (Nat × Nat) × List (Nat × Nat)) (op : Op)
    (hs : Hist undoData obs (fun y => (a[y]?.map obs).getD 0) a.size t.1 s t.2) (hp : Pre a.size t op) :
    Tot (step mergeData undoData s op) fun r =>
      Hist undoData obs (fun y => (a[y]?.map obs).getD 0) a.size (next t op).1 r.1 (next t op).2 ∧ Ans obs a t op r.2 := by
  obtain ⟨base, stk⟩ := t
  obtain ⟨R, rk, hI, hR, hS⟩ := hs.sim
  cases op with
  | merge x y =>
    obtain ⟨hx, hy⟩ := hp
    obtain ⟨h1, h2⟩ := merge_eq hf s hI hS hx hy
    by_cases e : R x = R y
    · simp only [step, h1 e, ok_bind]
      refine Tot.pure ⟨?_, ?_⟩
      · simp only [next, if_pos ((hR x y hx hy).mp e)]; exact hs
      · show false = true ↔ _
        rw [← hR x y hx hy]; simp [e]
    · obtain ⟨p, c, rk', dat', vp, vc, sum', hpc, he, hI', hS', hp, hc, hne, hback, va, vb, hva, rfl⟩ := h2 e
      have hps : p < s.sum.size := by rw [hS.1]; exact hp
      simp only [step, he, ok_bind]
      refine Tot.pure ⟨?_, ?_⟩
      · simp only [next, if_neg (mt (hR x y hx hy).mpr e)]
        refine ⟨⟨_, rk', hI', fun z w hz hw => ?_, hS'⟩, c, vc, p, vp, s.base.hist, mergeData va vb, rfl, hc, hp, ?_, ?_⟩
        · rw [List.cons_append, UnionFind.connected_cons]
          exact UnionFind.link_iff hx hy hR hpc z w hz hw
        · simp only; rw [get?_set _ _ _ _ hps, if_pos rfl]
        · simp only
          rw [hback, hu]
          have : (s.sum.setIfInBounds p (mergeData va vb)).setIfInBounds p va = s.sum := by
            apply Array.ext_getElem?
            intro i
            rw [get?_set _ _ _ _ (by simpa using hps), get?_set _ _ _ _ hps]
            split
            · subst_vars; exact hva.symm
            · rfl
          rw [this]; exact hs
      · show true = true ↔ _
        rw [← hR x y hx hy]; simp [e]
  | same x y =>
    obtain ⟨hx, hy⟩ := hp
    simp only [step, UndoUnionFind.same, UndoUnionFind.root_eq hI hx, UndoUnionFind.root_eq hI hy, ok_bind, pure_eq]
    refine Tot.pure ⟨hs, ?_⟩
    show decide _ = true ↔ _
    rw [decide_eq_true_iff]; exact hR x y hx hy
  | size x =>
    simp only [step, UndoUnionFind.size, UndoUnionFind.root_eq hI hp, ok_bind,
      rd_some (hI.root _ (hI.lt x hp) (hI.idem x hp)), pure_eq, neg_neg]
    exact Tot.pure ⟨hs, UnionFind.size_ans hR hp⟩
  | sum x =>
    obtain ⟨v, hv, ho⟩ := hS.2 (R x) (hI.lt x hp) (hI.idem x hp)
    simp only [step, sum, UndoUnionFind.root_eq hI hp, ok_bind, rd_some hv, pure_eq]
    refine Tot.pure ⟨hs, ?_⟩
    show obs v = _
    rw [ho]; exact ComponentSum.sum_ans hR hp
  | snapshot =>
    exact Tot.pure ⟨⟨rfl, hs.sim⟩, trivial⟩
  | undo =>
    obtain ⟨e, stk, rfl⟩ := List.exists_cons_of_ne_nil hp
    obtain ⟨⟨d, hist⟩, sum⟩ := s
    obtain ⟨-, c, vc, p, vp, h, v, rfl, hc, hp', hv, hrest⟩ := hs
    simp only [step, undo_eq (undoData := undoData) (h := h) (vc := vc) (vp := vp) (d := d) (by rw [hI.size]; exact hc)
      (by rw [hI.size]; exact hp') hv, ok_bind]
    exact Tot.pure ⟨hrest, trivial⟩
  | rollback =>
    refine Tot.bind (Hist.rollback stk s hs _ le_rfl) fun s' h' => ?_
    exact Tot.pure ⟨h', trivial⟩

/-- **C63.** If `undo_data` undoes `merge_data`, then in every history the answers, including the component sums, are those
for the pairs still in force. -/
theorem undoUnionFindComponentSum_correct {mergeData : T → T → T} {undoData : T → T} {obs : T → A}
    (hf : ∀ a b, obs (mergeData a b) = obs a + obs b) (hu : ∀ a b, undoData (mergeData a b) = a)
    (a : Array T) (ops : List Op) (hv : ValidOps (Pre a.size) next ([], []) ops) :
    ∃ s outs, runOps (step mergeData undoData) (init a) ops = .ok (s, outs) ∧
      TraceOk next (Ans obs a) ([], []) ops outs := by
  have h0 : Hist undoData obs (fun y => (a[y]?.map obs).getD 0) a.size [] (init a) [] := by
    refine ⟨rfl, id, _, UnionFind.inv_init a.size, fun x y hx hy => ?_, ComponentSum.sinv_init obs a⟩
    constructor
    · rintro ⟨⟩; exact .refl _
    · intro h
      have : ∀ x y, Connected [] x y → x = y := by
        intro x y h
        induction h with
        | rel _ _ h => simp at h
        | refl => rfl
        | symm _ _ _ ih => exact ih.symm
        | trans _ _ _ _ _ ih1 ih2 => exact ih1.trans ih2
      exact this x y h
  obtain ⟨⟨s, outs⟩, e, -, h⟩ := refine (Sim := fun s t => Hist undoData obs _ a.size t.1 s t.2) (step_sim hf hu a)
    (t := ([], [])) h0 hv
  exact ⟨s, outs, e, h⟩

/-- A data type meeting the hypotheses: a stack of added values. -/
example : (∀ a b : List Int, List.sum (b.sum :: a) = a.sum + b.sum) ∧ (∀ a b : List Int, (b.sum :: a).tail = a) ∧
    ValidOps (Pre 3) next ([], []) [.merge 0 1, .sum 0, .undo, .sum 0] := by
  refine ⟨fun a b => by rw [List.sum_cons, add_comm], fun _ _ => rfl, ?_⟩
  have n1 : next ([], []) (.merge 0 1) = ([], [(0, 1)]) := by
    refine if_neg fun h => ?_
    have h01 : ∀ x y, Connected [] x y → x = y := by
      intro x y h
      induction h with
      | rel _ _ h => simp at h
      | refl => rfl
      | symm _ _ _ ih => exact ih.symm
      | trans _ _ _ _ _ ih1 ih2 => exact ih1.trans ih2
    exact absurd (h01 0 1 h) (by decide)
  simp only [ValidOps, n1]
  simp [Pre, next]

example : (runOps (step (fun a b : List Int => b.sum :: a) List.tail) (init #[[1], [10], [100]])
    [.merge 0 1, .sum 0, .merge 1 2, .sum 2, .undo, .sum 1, .sum 2]).toOption.map (·.2)
    = some [.bool true, .val [10, 1], .bool true, .val [100, 10, 1], .unit, .val [10, 1], .val [100]] := by decide

end UndoUnionFindComponentSum
