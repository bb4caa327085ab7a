import Verif.Proof.Kruscal

/-!
# Theorems about `kruscal.hpp`

`Spec/SpanningForest.lean` defines connectivity, acyclicity, spanning forests and total weight of a multiset of edges.
-/

namespace KruscalProps
open Cxx Kruscal
open SpanningForest hiding Edge

/-- The comparison used to sort: `std::less` for the minimum, `std::greater` for the maximum spanning forest. -/
inductive Dir
  | min
  | max

/-- `Comparator()(a, b)`. -/
def Dir.lt : Dir → Int → Int → Prop
  | .min, a, b => a < b
  | .max, a, b => b < a

/-- What `std::sort` with that comparison guarantees: a permutation in which no later edge compares below an earlier one. Ties may be broken in any way. -/
def SortsBy (d : Dir) (srt : List Edge → List Edge) : Prop :=
  ∀ l, (srt l).Perm l ∧ (srt l).Pairwise fun a b => ¬ d.lt b.2.2 a.2.2

/-- `F` is a spanning forest of `E` of least (or greatest) total weight. -/
def Optimal (d : Dir) (E F : List Edge) : Prop :=
  Spans E F ∧ ∀ T, Spans E T → ¬ d.lt (total T) (total F)

/-- The state the user keeps: all edges ever added, and whether `build` was called after the last `add_edge`. -/
abbrev Abs := List Edge × Bool

/-- Preconditions: endpoints are vertices; results are asked for after `build`. -/
def Pre (n : Nat) (t : Abs) : Op → Prop
  | .addEdge e => e.1 < n ∧ e.2.1 < n
  | .build => True
  | .getWeight => t.2 = true
  | .getMst => t.2 = true

instance (n : Nat) (t : Abs) (i : Op) : Decidable (Pre n t i) := by
  cases i <;> unfold Pre <;> infer_instance

/-- The effect of a call. -/
def next (t : Abs) : Op → Abs
  | .addEdge e => (t.1 ++ [e], false)
  | .build => (t.1, true)
  | .getWeight => t
  | .getMst => t

/-- The promised answers: `build` tells whether the graph of **all** edges added so far is connected; `get_mst` is an optimal spanning forest of all edges added so far, in the order of the comparison; `get_weight` is the weight of one. -/
def Ans (n : Nat) (d : Dir) (t : Abs) : Op → Out → Prop
  | .addEdge _, o => o = .unit
  | .build, o => ∃ b, o = .bool b ∧ (b = true ↔ ∀ u v, u < n → v < n → Conn t.1 u v)
  | .getWeight, o => ∃ F, Optimal d t.1 F ∧ o = .weight (total F)
  | .getMst, o => ∃ F, Optimal d t.1 F ∧ o = .edges F ∧ F.Pairwise fun a b => ¬ d.lt b.2.2 a.2.2

/-- The numeric key by which the comparison sorts. -/
def Dir.key : Dir → Int → Int
  | .min, a => a
  | .max, a => -a

theorem lt_key (d : Dir) (a b : Int) : ¬ d.lt b a ↔ d.key a ≤ d.key b := by
  cases d <;> simp only [Dir.lt, Dir.key] <;> omega

theorem sum_key (d : Dir) (F : List Edge) : (F.map fun e => d.key e.2.2).sum = d.key (total F) := by
  cases d with
  | min => rfl
  | max =>
    induction F with
    | nil => rfl
    | cons e F ih =>
      have h1 : total (e :: F) = e.2.2 + total F := by unfold total; simp
      rw [List.map_cons, List.sum_cons, ih, h1]
      simp only [Dir.key]
      omega

theorem sorts (d : Dir) {srt : List Edge → List Edge} (h : SortsBy d srt) : SortSpec d.key srt := fun l =>
  ⟨(h l).1, (h l).2.imp fun hab => (lt_key d _ _).1 hab⟩

/-- The relation between the object and the user's view. -/
structure Sim (n : Nat) (d : Dir) (o : Obj) (t : Abs) : Prop where
  sz : o.sz = n
  validE : Valid n t.1
  valid : Valid n o.edges
  sub : o.edges.Subperm t.1
  thr : Thr d.key t.1 o.edges
  built : o.built = t.2
  done : t.2 = true → Acyclic o.edges ∧ o.weight = total o.edges ∧ o.edges.Pairwise fun a b => d.key a.2.2 ≤ d.key b.2.2

theorem Sim.optimal {n : Nat} {d : Dir} {o : Obj} {t : Abs} (h : Sim n d o t) (ht : t.2 = true) : Optimal d t.1 o.edges := by
  obtain ⟨h1, h2, h3⟩ := h.done ht
  refine ⟨⟨h.sub, h1, h.thr.conn⟩, fun T hT => ?_⟩
  rw [lt_key, ← sum_key, ← sum_key]
  exact h.thr.min h.validE h.sub h1 hT

theorem valid_zero {es : List Edge} (h : Valid 0 es) : es = [] := by
  cases es with
  | nil => rfl
  | cons e es => exact absurd (h e (by simp)).1 (Nat.not_lt_zero _)

theorem step_tot {n : Nat} {d : Dir} {srt : List Edge → List Edge} (hs : SortsBy d srt) {o : Obj} {t : Abs} (h : Sim n d o t) (i : Op) (hp : Pre n t i) :
    Tot (step srt o i) fun r => Sim n d r.1 (next t i) ∧ Ans n d t i r.2 := by
  cases i with
  | addEdge e =>
    refine Tot.pure ⟨⟨h.sz, ?_, ?_, ((List.subperm_append_right [e]).2 h.sub), h.thr.append [e], rfl, by simp [next]⟩, rfl⟩
    · intro e' he'
      rcases List.mem_append.1 he' with he' | he'
      · exact h.validE e' he'
      · rw [List.mem_singleton.1 he']; exact hp
    · intro e' he'
      rcases List.mem_append.1 he' with he' | he'
      · exact h.valid e' he'
      · rw [List.mem_singleton.1 he']; exact hp
  | build =>
    refine Tot.bind (P := fun (r : Obj × Bool) => Sim n d r.1 (t.1, true) ∧ (r.2 = true ↔ ∀ u v, u < n → v < n → Conn t.1 u v)) ?_ fun r hr => ?_
    · unfold build
      split
      · next h0 =>
        have hn : n = 0 := by rw [← h.sz]; exact h0
        subst hn
        have e1 := valid_zero h.validE
        have e2 := valid_zero h.valid
        refine Tot.pure ⟨⟨h.sz, h.validE, h.valid, h.sub, h.thr, rfl, fun _ => ?_⟩, ?_⟩
        · dsimp only
          rw [e2]
          exact ⟨by intro e he; simp at he, rfl, List.Pairwise.nil⟩
        · simp
      · next h0 =>
        refine (buildMain_tot (sorts d hs) (n := n) (by rw [← h.sz]; exact h0) h.sz h.valid).mono ?_
        rintro r ⟨hb, hr⟩
        refine ⟨⟨hb.sz, h.validE, hb.valid, hb.sub.trans h.sub, h.thr.trans hb.thr, hb.built, fun _ => ⟨hb.acyclic, hb.sum, hb.sorted⟩⟩, hr.trans ?_⟩
        exact forall₄_congr fun u v _ _ => h.thr.conn u v
    · exact Tot.pure ⟨hr.1, r.2, rfl, hr.2⟩
  | getWeight =>
    have ht : t.2 = true := hp
    unfold step getWeight
    dsimp only
    rw [h.built, ht, check_true]
    refine Tot.pure ⟨h, o.edges, h.optimal ht, ?_⟩
    rw [(h.done ht).2.1]
  | getMst =>
    have ht : t.2 = true := hp
    unfold step getMst
    dsimp only
    rw [h.built, ht, check_true]
    refine Tot.pure ⟨h, o.edges, h.optimal ht, rfl, ?_⟩
    exact (h.done ht).2.2.imp fun hab => (lt_key d _ _).2 hab

/-- **C91** Every sequence of `add_edge`, `build`, `get_weight`, `get_mst` calls gets the promised answers, for every way `std::sort` may break ties. -/
theorem kruscal_correct (n : Nat) (d : Dir) (srt : List Edge → List Edge) (hs : SortsBy d srt) (ops : List Op) (hv : ValidOps (Pre n) next ([], false) ops) :
    ∃ o os, runOps (step srt) (new n) ops = .ok (o, os) ∧ TraceOk next (Ans n d) ([], false) ops os := by
  obtain ⟨r, e, -, h⟩ := Cxx.refine (Sim := Sim n d) (step := step srt) (Pre := Pre n) (next := next) (Ans := Ans n d) (fun s t i hs' hp => step_tot hs hs' i hp)
    (s := new n) (t := ([], false)) ⟨rfl, by intro e he; simp at he, by intro e he; simp [new] at he, List.Subperm.refl _, fun t x y => Iff.rfl, rfl, by simp⟩ hv
  exact ⟨r.1, r.2, e, h⟩

/-- A triangle with a pendant vertex, extended by a cheaper edge after a first `build`. -/
def sample : List Op :=
  [.addEdge (0, 1, 5), .addEdge (1, 2, 3), .addEdge (0, 2, 4), .build, .getWeight, .addEdge (2, 3, -7), .addEdge (0, 1, 1), .build, .getMst, .getWeight]

example : ValidOps (Pre 4) next ([], false) sample := by decide

/-- Insertion sort, as an instance of the contract of `std::sort`. -/
def isort (d : Dir) (l : List Edge) : List Edge := l.insertionSort fun a b => d.key a.2.2 ≤ d.key b.2.2

theorem isort_sorts (d : Dir) : SortsBy d (isort d) := by
  intro l
  refine ⟨List.perm_insertionSort _ l, ?_⟩
  have : (isort d l).Pairwise fun a b => d.key a.2.2 ≤ d.key b.2.2 :=
    @List.pairwise_insertionSort _ (fun a b : Edge => d.key a.2.2 ≤ d.key b.2.2) _ ⟨fun a b => le_total _ _⟩ ⟨fun a b c => le_trans⟩ l
  exact this.imp fun hab => (lt_key d _ _).2 hab

/-- The answers on the sample: first connected? no (vertex 3 is isolated), weight 7; then connected, weight -3. -/
example : (runOps (step (isort .min)) (new 4) sample).map (fun r => r.2) =
    .ok [.unit, .unit, .unit, .bool false, .weight 7, .unit, .unit, .bool true, .edges [(2, 3, -7), (0, 1, 1), (1, 2, 3)], .weight (-3)] := by decide +kernel

end KruscalProps
