import Verif.Proof.TopSort

/-! # Proofs about `library/graph/single_source_shortest_path_dag.hpp` -/

namespace SSSPDag
open Cxx Graph

/-- The graph without weights. -/
def ug (g : Array (List (Nat × Int))) : Array (List Nat) := g.map fun adj => adj.map (·.1)

theorem adj_ug (g : Array (List (Nat × Int))) (u : Nat) : adj (ug g) u = (adj g u).map (·.1) := by
  unfold adj ug
  rw [Array.getElem?_map]
  cases g[u]? <;> rfl

theorem mem_ug {g : Array (List (Nat × Int))} {u v : Nat} : E (ug g) u v ↔ ∃ c, (v, c) ∈ adj g u := by
  rw [E, adj_ug]
  simp

/-- The hypotheses on the graph. -/
structure Ok (g : Array (List (Nat × Int))) (src : Nat) : Prop where
  lt : ∀ u, ∀ e ∈ adj g u, e.1 < g.size
  acyclic : Acyclic (ug g)
  source : ∀ u, ∀ e ∈ adj g u, e.1 ≠ src
  fits : ∀ u x, IsLeast {x | Cost g src u x} x → ∀ e ∈ adj g u, -2 ^ 63 ≤ x + e.2 ∧ x + e.2 < 2 ^ 63 - 1

/-- Stored distance. -/
abbrev R (res : Array Int) (v : Nat) : Int := at' inf res v

/-- The interleaved loop is the two loops. -/
theorem edges_split (u : Nat) (es : List (Nat × Int)) (res inn : Array Int) (dq : List Nat) {res' : Array Int} {t : Array Int × List Nat}
    (h1 : forEach es res (relax u) = .ok res') (h2 : forEach (es.map (·.1)) (inn, dq) TopSort.decStep = .ok t) :
    forEach es (State.mk res inn dq) (edgeStep u) = .ok ⟨res', t.1, t.2⟩ := by
  induction es generalizing res inn dq with
  | nil =>
    cases h1
    cases h2
    rfl
  | cons e es ih =>
    rw [List.map_cons, forEach] at h2
    rw [forEach] at h1 ⊢
    rw [edgeStep]
    dsimp only
    cases hr : relax u res e with
    | error x => rw [hr] at h1; cases h1
    | ok r =>
      cases hd : TopSort.decStep (inn, dq) e.1 with
      | error x => rw [hd] at h2; cases h2
      | ok d =>
        rw [hr, ok_bind] at h1
        rw [hd, ok_bind] at h2
        simp only [ok_bind, pure_eq]
        exact ih r d.1 d.2 h1 h2

/-- Invariant on the distances: `ord` are the finished vertices. -/
structure Inv (g : Array (List (Nat × Int))) (src : Nat) (ord : List Nat) (u : Nat) (pre : List (Nat × Int)) (res : Array Int) : Prop where
  size : res.size = g.size
  src0 : R res src = 0
  sound : ∀ v, R res v = inf ∨ R res v < inf ∧ Cost g src v (R res v)
  relaxed : ∀ w ∈ ord, R res w ≠ inf → ∀ e ∈ adj g w, (w = u → e ∈ pre) → R res e.1 ≤ R res w + e.2

theorem relax_tot {g : Array (List (Nat × Int))} {src : Nat} (hg : Ok g src) {ord : List Nat} {u : Nat} (hord : ∀ w ∈ ord, ¬ E (ug g) u w)
    {e : Nat × Int} (he : e ∈ adj g u) {pre : List (Nat × Int)} {res : Array Int} (h : Inv g src ord u pre res)
    (hu : R res u ≠ inf → IsLeast {x | Cost g src u x} (R res u)) :
    Tot (relax u res e) fun t => Inv g src ord u (pre ++ [e]) t ∧ R t u = R res u := by
  obtain ⟨v, c⟩ := e
  have hv := hg.lt _ _ he
  have hvs := hg.source _ _ he
  have hEv : E (ug g) u v := mem_ug.2 ⟨c, he⟩
  have huv : u ≠ v := by
    rintro rfl
    exact hg.acyclic u (.single hEv)
  have hvo : v ∉ ord := fun hm => hord v hm hEv
  have hul : u < g.size := by
    by_contra hn
    rw [adj_ge (by omega)] at he
    simp at he
  have hsz := h.size
  dsimp only at hv hvs
  have hI : inf = 2 ^ 63 - 1 := rfl
  rw [relax]
  dsimp only
  rw [rd_at inf (by omega), ok_bind]
  by_cases hd : at' inf res u ≠ inf
  · rw [if_pos hd, rd_at inf (by omega), ok_bind]
    have hl := hu hd
    have hf := hg.fits u _ hl _ he
    dsimp only at hf
    obtain ⟨y, hy⟩ : ∃ y, y = R res u + c := ⟨_, rfl⟩
    rw [← hy] at hf ⊢
    rw [i64_ok (x := y) ⟨by omega, by omega⟩, ok_bind, wr_eq (by omega)]
    obtain ⟨z, hz⟩ : ∃ z, z = min (R res v) y := ⟨_, rfl⟩
    rw [← hz]
    have hset : ∀ x, R (res.setIfInBounds v z) x = if x = v then z else R res x := fun x => at_set' inf (show v < res.size by omega) z x
    have hle : ∀ x, R (res.setIfInBounds v z) x ≤ R res x := by
      intro x
      rw [hset]
      split
      · rename_i e
        rw [e]
        omega
      · exact le_refl _
    refine Tot.pure ⟨⟨by simpa using hsz, ?_, fun x => ?_, ?_⟩, by rw [hset, if_neg huv]⟩
    · rw [hset, if_neg hvs.symm]
      exact h.src0
    · rw [hset]
      split
      · rename_i e
        rw [e]
        right
        rcases min_cases (R res v) y with ⟨h1, h2⟩ | ⟨h1, h2⟩
        · rw [hz, h1]
          rcases h.sound v with h3 | h3
          · omega
          · exact h3
        · rw [hz, h1]
          refine ⟨by omega, ?_⟩
          rw [hy]
          exact Cost.step (show Cost g src u (R res u) from hl.1) he
      · exact h.sound x
    · intro w hw hwf f hf' hwu
      have hwv : w ≠ v := fun e => hvo (e ▸ hw)
      rw [hset w, if_neg hwv] at hwf ⊢
      by_cases e : w = u
      · have := hwu e
        simp only [List.mem_append, List.mem_singleton] at this
        rcases this with h1 | rfl
        · exact le_trans (hle _) (h.relaxed w hw hwf f hf' fun _ => h1)
        · rw [hset, if_pos rfl, e]
          dsimp only
          omega
      · exact le_trans (hle _) (h.relaxed w hw hwf f hf' fun e' => absurd e' e)
  · rw [if_neg hd]
    push_neg at hd
    refine Tot.pure ⟨⟨hsz, h.src0, h.sound, ?_⟩, rfl⟩
    intro w hw hwf f hf hwu
    by_cases e : w = u
    · rw [e] at hwf
      exact absurd hd hwf
    · exact h.relaxed w hw hwf f hf fun e' => absurd e' e

/-- Correct distances. -/
def Correct (g : Array (List (Nat × Int))) (src : Nat) (res : Array Int) : Prop :=
  res.size = g.size ∧ ∀ v < g.size, (res[v]? = some inf ∧ ∀ x, ¬ Cost g src v x) ∨ ∃ x, res[v]? = some x ∧ x < inf ∧ IsLeast {x | Cost g src v x} x

/-- Vertices all of whose predecessors are finished have final distances. -/
theorem final {g : Array (List (Nat × Int))} {src : Nat} (hg : Ok g src) {ord : List Nat} (hclosed : ∀ a v b, ord = a ++ v :: b → ∀ u, E (ug g) u v → u ∈ a)
    {res : Array Int} {last : Nat} {pre : List (Nat × Int)} (hpre : last ∉ ord ∨ pre = adj g last) (h : Inv g src ord last pre res) (k : Nat) :
    ∀ a b, a.length = k → ord = a ++ b → ∀ v, (∀ u, E (ug g) u v → u ∈ a) → ∀ x, Cost g src v x → R res v ≠ inf ∧ R res v ≤ x := by
  have hI : inf = 2 ^ 63 - 1 := rfl
  induction k using Nat.strong_induction_on with
  | _ k ih =>
    intro a b hk e v hv x hc
    cases hc with
    | refl =>
      have := h.src0
      omega
    | @step u _ x c hcu he =>
      have hua := hv u (mem_ug.2 ⟨c, he⟩)
      obtain ⟨a1, a2, ea⟩ := List.append_of_mem hua
      have hau : ∀ w, E (ug g) w u → w ∈ a1 := hclosed a1 u (a2 ++ b) (by rw [e, ea]; simp)
      have hu := ih a1.length (by rw [← hk, ea, List.length_append, List.length_cons]; omega) a1 (u :: a2 ++ b) rfl (by rw [e, ea]; simp) u hau
      have huo : u ∈ ord := by rw [e]; exact List.mem_append_left _ hua
      obtain ⟨h1, h2⟩ := hu x hcu
      have hr := h.relaxed u huo h1 _ he fun e => by
        rcases hpre with hp | hp
        · exact absurd (e ▸ huo) hp
        · rw [hp, ← e]
          exact he
      dsimp only at hr
      have hl : IsLeast {x | Cost g src u x} (R res u) := ⟨((h.sound u).resolve_left h1).2, fun y hy => (hu y hy).2⟩
      have := hg.fits u _ hl _ he
      dsimp only at this
      omega

theorem ug_valid {g : Array (List (Nat × Int))} {src : Nat} (hg : Ok g src) : Valid (ug g) := by
  intro u v h
  obtain ⟨c, hc⟩ := mem_ug.1 h
  simpa [ug] using hg.lt _ _ hc

theorem ug_size (g : Array (List (Nat × Int))) : (ug g).size = g.size := by simp [ug]

theorem run_tot {g : Array (List (Nat × Int))} {src : Nat} (hg : Ok g src) (hs : src < g.size) : Tot (run g src) (Correct g src) := by
  have hI : inf = 2 ^ 63 - 1 := rfl
  have hval := ug_valid hg
  have hsz := ug_size g
  have hno : ∀ u, ¬ E (ug g) u src := by
    intro u hu
    obtain ⟨c, hc⟩ := mem_ug.1 hu
    exact hg.source _ _ hc rfl
  rw [run, wr_eq (by simpa using hs), ok_bind]
  refine Tot.bind (TopSort.indeg_tot (ug g) hval) fun inn ⟨h1, h2⟩ => ?_
  rw [hsz] at h1 h2
  have hdeg0 : TopSort.deg (ug g) [] src = 0 := TopSort.deg_eq_zero.2 fun u hu => absurd hu (hno u)
  rw [rd_some (h2 src hs), ok_bind, hdeg0]
  rw [show check (decide (((0 : Nat) : Int) = 0)) = .ok () from rfl, ok_bind]
  refine Tot.bind (TopSort.init_tot inn _ h2) fun dq hdq => ?_
  refine Tot.bind (P := fun (r : State) => ∃ ord : List Nat, ord.length = g.size ∧ TopSort.Inv (ug g) r.dq ord ∧ Inv g src ord g.size [] r.res) ?_ ?_
  · refine Tot.forUp (P := fun i (r : State) => ∃ ord : List Nat, ord.length = i ∧ TopSort.Inv (ug g) r.dq ord ∧ Inv g src ord g.size [] r.res ∧
      r.inn.size = g.size ∧ ∀ v < g.size, r.inn[v]? = some (TopSort.deg (ug g) ord v : Int)) (Nat.zero_le _) ⟨[], rfl, ?_, ⟨by simp, ?_, ?_, by simp⟩, h1, h2⟩ ?_ |>.mono ?_
    · subst hdq
      refine ⟨by simpa using List.nodup_range.filter _, ?_, ?_, ?_⟩
      · intro v hv
        simp at hv
        rw [hsz]
        exact hv.1
      · intro v hv
        rw [hsz] at hv
        simp [hv]
      · intro a v b h
        simp at h
    · rw [R, at_set' inf (by simpa using hs), if_pos rfl]
    · intro v
      rw [R, at_set' inf (by simpa using hs)]
      split
      · rename_i e
        subst e
        exact Or.inr ⟨by omega, .refl⟩
      · left
        by_cases h : v < g.size <;> simp [at', h]
    · rintro i ⟨res, inn, dq⟩ - hi ⟨ord, k1, k2, k3, k4, k5⟩
      dsimp only at k2 k3 k4 k5
      rw [step]
      cases dq with
      | nil =>
        exfalso
        have := (TopSort.acyclic_iff hval k2).2 hg.acyclic
        omega
      | cons u dq =>
        dsimp only
        have hu : u < g.size := by rw [← hsz]; exact k2.lt u (by simp)
        have huo : u ∉ ord := fun hm => (List.nodup_append.1 k2.nodup).2.2 u hm u (by simp) rfl
        have hpu : ∀ w, E (ug g) w u → w ∈ ord := TopSort.deg_eq_zero.1 ((k2.zero u (by omega)).1 (by simp))
        have hord : ∀ w ∈ ord ++ [u], ¬ E (ug g) u w := by
          intro w hw he
          simp only [List.mem_append, List.mem_singleton] at hw
          rcases hw with hw | rfl
          · obtain ⟨a, b, e⟩ := List.append_of_mem hw
            apply huo
            rw [e]
            exact List.mem_append_left _ (k2.before a w b e u he)
          · exact hg.acyclic w (.single he)
        rw [rd_some (adj_eq hu), ok_bind]
        have hlast : g.size ∉ ord := fun hm => by
          have := k2.lt g.size (by simp [hm])
          omega
        have hleast : R res u ≠ inf → IsLeast {x | Cost g src u x} (R res u) := fun hf =>
          ⟨((k3.sound u).resolve_left hf).2, fun x hx => (final hg k2.before (Or.inl hlast) k3 _ ord [] rfl (by simp) u hpu x hx).2⟩
        have hrel : Tot (forEach (adj g u) res (relax u)) fun t => Inv g src (ord ++ [u]) u (adj g u) t ∧ R t u = R res u := by
          refine Tot.forEach (P := fun pre (t : Array Int) => Inv g src (ord ++ [u]) u pre t ∧ R t u = R res u) ⟨⟨k3.size, k3.src0, k3.sound, ?_⟩, rfl⟩ ?_
          · intro w hw hwf e he hwu
            simp only [List.mem_append, List.mem_singleton] at hw
            rcases hw with hw | rfl
            · exact k3.relaxed w hw hwf e he fun e' => absurd (e' ▸ hw) hlast
            · simpa using hwu rfl
          · rintro pre e post t he ⟨j1, j2⟩
            refine (relax_tot hg hord (by rw [he]; simp) j1 ?_).mono ?_
            · rw [j2]
              exact hleast
            · rintro t' ⟨l1, l2⟩
              exact ⟨l1, by rw [l2, j2]⟩
        obtain ⟨res', hr1, hr2, -⟩ := hrel
        obtain ⟨t, ht1, ht2, ht3, ht4⟩ := TopSort.dec_tot hval k2 (by rw [hsz]; exact k4) (by rw [hsz]; exact k5)
        rw [adj_ug] at ht1
        rw [edges_split u (adj g u) res inn dq hr1 ht1]
        rw [hsz] at ht2 ht3
        refine Tot.pure ⟨ord ++ [u], by simp [k1], ht4, ⟨hr2.size, hr2.src0, hr2.sound, ?_⟩, ht2, ht3⟩
        intro w hw hwf e he _
        exact hr2.relaxed w hw hwf e he fun e' => by rw [← e']; exact he
    · rintro r ⟨ord, k1, k2, k3, -⟩
      exact ⟨ord, k1, k2, k3⟩
  · rintro ⟨res, inn', dq'⟩ ⟨ord, k1, k2, k3⟩
    dsimp only at k2 k3 ⊢
    refine Tot.pure ⟨k3.size, fun v hv => ?_⟩
    have hall : ∀ v < g.size, v ∈ ord := by
      intro v hv
      have hnd : ord.Nodup := (List.nodup_append.1 k2.nodup).1
      have hsub : ord ⊆ List.range g.size := fun v hv => List.mem_range.2 (by rw [← hsz]; exact k2.lt v (by simp [hv]))
      have hp : ord.Perm (List.range g.size) := (List.subperm_of_subset hnd hsub).perm_of_length_le (by simp [k1])
      exact hp.mem_iff.2 (List.mem_range.2 hv)
    have hget : res[v]? = some (R res v) := by
      rw [R, at', Array.getElem?_eq_getElem (by rw [k3.size]; exact hv)]
      rfl
    have hlast : g.size ∉ ord := fun hm => by
      have := k2.lt g.size (by simp [hm])
      omega
    have hf := final hg k2.before (Or.inl hlast) k3 _ ord [] rfl (by simp) v fun u hu => hall u (by rw [← hsz]; exact hu.lt)
    rcases k3.sound v with h | ⟨h, hc⟩
    · exact Or.inl ⟨by rw [hget, h], fun x hx => (hf x hx).1 h⟩
    · exact Or.inr ⟨R res v, hget, h, hc, fun x hx => (hf x hx).2⟩

end SSSPDag
