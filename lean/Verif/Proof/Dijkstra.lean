import Verif.Proof.GraphBasic
import Mathlib.Data.List.Perm.Subperm

/-! # Proofs about `library/graph/dijkstra.hpp` -/

namespace Dijkstra
open Cxx Graph

/-- The hypotheses on the graph: heads are vertices, costs are nonnegative, and shortest costs do not overflow. -/
structure Ok (g : Array (List (Nat × Int))) (src : Nat) : Prop where
  lt : ∀ u, ∀ e ∈ adj g u, e.1 < g.size
  nonneg : ∀ u, ∀ e ∈ adj g u, 0 ≤ e.2
  fits : ∀ u x, IsLeast {x | Cost g src u x} x → ∀ e ∈ adj g u, x + e.2 < top

theorem insert_perm (e : Int × Nat) (l : List (Int × Nat)) : (insert e l).Perm (e :: l) := by
  induction l with
  | nil => exact List.Perm.refl _
  | cons a l ih =>
    rw [insert]
    split
    · exact (ih.cons a).trans (List.Perm.swap _ _ _)
    · exact List.Perm.refl _

theorem insert_sorted (e : Int × Nat) {l : List (Int × Nat)} (h : l.Pairwise fun a b => a.1 ≤ b.1) : (insert e l).Pairwise fun a b => a.1 ≤ b.1 := by
  induction l with
  | nil => simp [insert]
  | cons a l ih =>
    rw [List.pairwise_cons] at h
    rw [insert]
    split
    · rename_i hlt
      rw [List.pairwise_cons]
      refine ⟨fun b hb => ?_, ih h.2⟩
      have := (insert_perm e l).mem_iff.1 hb
      simp only [List.mem_cons] at this
      rcases this with rfl | hb'
      · simp only [lt, Bool.or_eq_true, Bool.and_eq_true, decide_eq_true_eq] at hlt
        omega
      · exact h.1 b hb'
    · rename_i hlt
      have hea : e.1 ≤ a.1 := by
        simp only [lt, Bool.or_eq_true, Bool.and_eq_true, decide_eq_true_eq] at hlt
        omega
      rw [List.pairwise_cons, List.pairwise_cons]
      refine ⟨fun b hb => ?_, h⟩
      simp only [List.mem_cons] at hb
      rcases hb with rfl | hb
      · exact hea
      · exact le_trans hea (h.1 b hb)

/-- Stored distance. -/
abbrev D (s : State) (v : Nat) : Int := at' top s.dist v

/-- Stored predecessor. -/
abbrev par (s : State) (v : Nat) : Nat := at' 0 s.par v

/-- Invariant: `S` are the settled vertices in order, the edges `todo` of the vertex `last` are not relaxed yet. -/
structure Inv (g : Array (List (Nat × Int))) (src : Nat) (S : List Nat) (last : Nat) (todo : List (Nat × Int)) (s : State) : Prop where
  size : s.dist.size = g.size
  sizep : s.par.size = g.size
  src0 : D s src = 0
  cost : ∀ v, D s v = top ∨ D s v < top ∧ Cost g src v (D s v)
  nodup : S.Nodup
  lt : ∀ v ∈ S, v < g.size
  least : ∀ v ∈ S, IsLeast {x | Cost g src v x} (D s v)
  relaxed : ∀ w ∈ S, ∀ e ∈ adj g w, (w = last ∧ e ∈ todo) ∨ D s e.1 ≤ D s w + e.2
  inpq : ∀ v < g.size, v ∉ S → D s v ≠ top → (D s v, v) ∈ s.pq
  pq : ∀ e ∈ s.pq, e.2 < g.size ∧ D s e.2 ≤ e.1 ∧ (e.2 ∈ S → D s e.2 < e.1) ∧ ∀ w ∈ S, D s w ≤ e.1
  fin : ∀ e ∈ s.pq, e.1 < top
  sorted : s.pq.Pairwise fun a b => a.1 ≤ b.1
  nodupq : s.pq.Nodup
  par : ∀ v < g.size, v ≠ src → D s v ≠ top → ∃ c, par s v ∈ S ∧ (v, c) ∈ adj g (par s v) ∧ D s v = D s (par s v) + c
  order : ∀ a v b, S = a ++ v :: b → v ≠ src → Dijkstra.par s v ∈ a

theorem relax_tot {g : Array (List (Nat × Int))} {src : Nat} (hg : Ok g src) {S : List Nat} {u : Nat} (huS : u ∈ S) {e : Nat × Int} (he : e ∈ adj g u) {todo : List (Nat × Int)} {s : State}
    (h : Inv g src S u (e :: todo) s) (hmax : ∀ w ∈ S, D s w ≤ D s u) :
    Tot (relax u (D s u) s e) fun t => Inv g src S u todo t ∧ (∀ w ∈ S, D t w = D s w) ∧ t.pq.length ≤ s.pq.length + 1 := by
  obtain ⟨v, c⟩ := e
  have hv : v < g.size := hg.lt _ _ he
  have hu := h.lt u huS
  have hc : 0 ≤ c := hg.nonneg _ _ he
  have hfit := hg.fits u _ (h.least u huS) _ he
  have hcu : Cost g src u (D s u) := (h.least u huS).1
  have hu0 := hcu.nonneg hg.nonneg
  have hsz := h.size
  have hszp := h.sizep
  dsimp only at hfit
  have htop : top = 2 ^ 63 - 1 := rfl
  obtain ⟨y, hy⟩ : ∃ y, y = D s u + c := ⟨_, rfl⟩
  rw [relax]
  dsimp only
  rw [← hy, i64_ok (x := y) ⟨by omega, by omega⟩, ok_bind, rd_at top (by omega), ok_bind]
  by_cases hlt : y < D s v
  · rw [if_pos hlt, wr_eq (by omega), ok_bind, wr_eq (by omega), ok_bind]
    have hvS : v ∉ S := fun hm => by have := hmax v hm; omega
    have hvs : v ≠ src := by
      rintro rfl
      have := h.src0
      omega
    have huv : u ≠ v := fun e => hvS (e ▸ huS)
    have hDv : D s v ≤ top := by rcases h.cost v with h1 | h1 <;> omega
    obtain ⟨t, ht⟩ : ∃ t : State, t = ⟨s.dist.setIfInBounds v y, s.par.setIfInBounds v u, insert (y, v) s.pq⟩ := ⟨_, rfl⟩
    have hD : ∀ w, D t w = if w = v then y else D s w := fun w => by rw [ht]; exact at_set' top (by omega) y w
    have hP : ∀ w, Dijkstra.par t w = if w = v then u else Dijkstra.par s w := fun w => by rw [ht]; exact at_set' 0 (by omega) u w
    have hDS : ∀ w ∈ S, D t w = D s w := fun w hw => by
      have hwv : w ≠ v := fun e => hvS (e ▸ hw)
      rw [hD, if_neg hwv]
    have hpqm : ∀ x, x ∈ t.pq ↔ x = (y, v) ∨ x ∈ s.pq := fun x => by rw [ht]; dsimp only; rw [(insert_perm _ _).mem_iff]; simp
    rw [pure_eq, ← ht]
    refine Tot.pure ⟨⟨by rw [ht]; simpa using hsz, by rw [ht]; simpa using hszp, ?_, ?_, h.nodup, h.lt, ?_, ?_, ?_, ?_, ?_, ?_, ?_, ?_, ?_⟩, hDS, ?_⟩
    · rw [hD, if_neg (Ne.symm hvs)]; exact h.src0
    · intro w
      rw [hD]
      split
      · rename_i ew
        rw [ew]
        right
        refine ⟨by omega, ?_⟩
        rw [hy]
        exact hcu.step he
      · exact h.cost w
    · intro w hw
      rw [hDS w hw]
      exact h.least w hw
    · intro w hw e hew
      rw [hDS w hw]
      by_cases hev : e.1 = v
      · rw [hD, if_pos hev]
        rcases h.relaxed w hw e hew with ⟨h1, h2⟩ | h2
        · simp only [List.mem_cons] at h2
          rcases h2 with rfl | h2
          · right
            rw [h1]
            dsimp only
            omega
          · exact Or.inl ⟨h1, h2⟩
        · right
          rw [hev] at h2
          omega
      · rw [hD, if_neg hev]
        rcases h.relaxed w hw e hew with ⟨h1, h2⟩ | h2
        · simp only [List.mem_cons] at h2
          rcases h2 with rfl | h2
          · exact absurd rfl hev
          · exact Or.inl ⟨h1, h2⟩
        · exact Or.inr h2
    · intro w hw hwS hwt
      rw [hpqm]
      rw [hD] at hwt ⊢
      by_cases hwv : w = v
      · rw [if_pos hwv, hwv]
        exact Or.inl rfl
      · rw [if_neg hwv] at hwt ⊢
        exact Or.inr (h.inpq w hw hwS hwt)
    · intro x hx
      rw [hpqm] at hx
      rcases hx with rfl | hx
      · refine ⟨hv, ?_, fun hm => absurd hm hvS, fun w hw => ?_⟩
        · dsimp only
          rw [hD, if_pos rfl]
        · rw [hDS w hw]
          have := hmax w hw
          dsimp only
          omega
      · obtain ⟨h1, h2, h3, h4⟩ := h.pq x hx
        refine ⟨h1, ?_, ?_, fun w hw => ?_⟩
        · rw [hD]
          split
          · rename_i e
            rw [e] at h2
            omega
          · exact h2
        · intro hm
          rw [hDS _ hm]
          exact h3 hm
        · rw [hDS w hw]
          exact h4 w hw
    · intro x hx
      rw [hpqm] at hx
      rcases hx with rfl | hx
      · dsimp only
        omega
      · exact h.fin x hx
    · rw [ht]
      exact insert_sorted _ h.sorted
    · rw [ht]
      dsimp only
      rw [(insert_perm _ _).nodup_iff, List.nodup_cons]
      refine ⟨fun hm => ?_, h.nodupq⟩
      have := (h.pq _ hm).2.1
      dsimp only at this
      omega
    · intro w hw hws hwt
      rw [hP]
      by_cases hwv : w = v
      · rw [if_pos hwv, hD, if_pos hwv]
        refine ⟨c, huS, ?_, ?_⟩
        · rw [hwv]; exact he
        · rw [hDS u huS, hy]
      · rw [hD, if_neg hwv] at hwt
        rw [if_neg hwv, hD, if_neg hwv]
        obtain ⟨c', g1, g2, g3⟩ := h.par w hw hws hwt
        exact ⟨c', g1, g2, by rw [hDS _ g1]; exact g3⟩
    · intro a w b e hws
      rw [hP, if_neg (fun ew => hvS (by rw [e, ew]; simp))]
      exact h.order a w b e hws
    · rw [ht]
      dsimp only
      rw [(insert_perm _ _).length_eq]
      simp
  · rw [if_neg hlt]
    refine Tot.pure ⟨⟨hsz, hszp, h.src0, h.cost, h.nodup, h.lt, h.least, ?_, h.inpq, h.pq, h.fin, h.sorted, h.nodupq, h.par, h.order⟩, fun _ _ => rfl, by omega⟩
    intro w hw e hew
    rcases h.relaxed w hw e hew with ⟨h1, h2⟩ | h2
    · simp only [List.mem_cons] at h2
      rcases h2 with rfl | h2
      · right
        rw [h1]
        dsimp only
        omega
      · exact Or.inl ⟨h1, h2⟩
    · exact Or.inr h2

/-- Every walk either stays settled or leaves the settled set through a vertex of the queue. -/
theorem frontier {g : Array (List (Nat × Int))} {src : Nat} (hg : Ok g src) (hs : src < g.size) {S : List Nat} {last : Nat} {s : State} (h : Inv g src S last [] s)
    {v : Nat} {x : Int} (hc : Cost g src v x) : (v ∈ S ∧ D s v ≤ x) ∨ ∃ y, y < g.size ∧ y ∉ S ∧ D s y ≤ x ∧ D s y < top := by
  have htop : top = 2 ^ 63 - 1 := rfl
  induction hc with
  | refl =>
    have := h.src0
    by_cases hm : src ∈ S
    · exact Or.inl ⟨hm, by omega⟩
    · exact Or.inr ⟨src, hs, hm, by omega, by omega⟩
  | @step u v x c hcu he ih =>
    have hc : 0 ≤ c := hg.nonneg _ _ he
    rcases ih with ⟨h1, h2⟩ | ⟨y, h1, h2, h3, h4⟩
    · have hr := (h.relaxed u h1 _ he).resolve_left (by simp)
      have hf := hg.fits u _ (h.least u h1) _ he
      dsimp only at hr hf
      by_cases hm : v ∈ S
      · exact Or.inl ⟨hm, by omega⟩
      · exact Or.inr ⟨v, hg.lt _ _ he, hm, by omega, by omega⟩
    · exact Or.inr ⟨y, h1, h2, by omega, h4⟩

/-- Total degree outside `S`. -/
def rest (g : Array (List (Nat × Int))) (S : List Nat) : Nat := ∑ w ∈ (Finset.range g.size).filter (· ∉ S), (adj g w).length

theorem rest_snoc (g : Array (List (Nat × Int))) (S : List Nat) {u : Nat} (hu : u < g.size) (hS : u ∉ S) :
    rest g S = (adj g u).length + rest g (S ++ [u]) := by
  unfold rest
  rw [← Finset.add_sum_erase _ _ (show u ∈ (Finset.range g.size).filter (· ∉ S) by simp [hu, hS])]
  congr 1
  apply Finset.sum_congr _ fun _ _ => rfl
  ext w
  simp only [Finset.mem_erase, Finset.mem_filter, Finset.mem_range, List.mem_append, List.mem_singleton]
  constructor
  · rintro ⟨h1, h2, h3⟩
    exact ⟨h2, fun h => h.elim h3 h1⟩
  · rintro ⟨h1, h2⟩
    exact ⟨fun h => h2 (Or.inr h), h1, fun h => h2 (Or.inl h)⟩

theorem sum_lengths {ε : Type} (l : List (List ε)) : (l.map List.length).sum = ∑ w ∈ Finset.range l.length, (l[w]?.getD []).length := by
  induction l with
  | nil => simp
  | cons a l ih =>
    rw [List.map_cons, List.sum_cons, ih, List.length_cons, Finset.sum_range_succ']
    simp
    omega

theorem rest_nil (g : Array (List (Nat × Int))) : rest g [] = (g.toList.map List.length).sum := by
  rw [sum_lengths, rest]
  simp [adj]

/-- The run: the settled vertices at the end. -/
theorem run_tot {g : Array (List (Nat × Int))} {src : Nat} (hg : Ok g src) (hs : src < g.size) :
    Tot (run g src) fun s => ∃ S last, Inv g src S last [] s ∧ s.pq = [] := by
  have htop : top = 2 ^ 63 - 1 := rfl
  rw [run, wr_eq (by simpa using hs), ok_bind]
  refine Tot.loopG (P := fun k s => ∃ S last, Inv g src S last [] s ∧ k = s.pq.length + rest g S) (k := 1 + rest g []) ?_ ⟨[], src, ?_, rfl⟩ (by rw [rest_nil])
  · rintro k ⟨dist, par', pq⟩ ⟨S, last, h, hk⟩
    rw [step]
    cases pq with
    | nil => exact Tot.pure ⟨S, last, h, rfl⟩
    | cons p pq =>
      obtain ⟨du, u⟩ := p
      obtain ⟨hu, hDu, hDS, hmax⟩ := h.pq (du, u) (by simp)
      have hsz := h.size
      have hso := h.sorted
      have hnd := h.nodupq
      dsimp only at hsz hso hnd hu hDu hDS hmax hk ⊢
      rw [List.pairwise_cons] at hso
      rw [List.nodup_cons] at hnd
      rw [visit]
      dsimp only
      rw [rd_at top (by omega), ok_bind]
      by_cases hdu : du = at' top dist u
      · subst hdu
        rw [if_pos rfl, rd_some (adj_eq hu), ok_bind]
        have huS : u ∉ S := fun hm => by
          have := hDS hm
          dsimp only [D] at this
          omega
        have hfin : at' top dist u < top := h.fin _ (by simp : (at' top dist u, u) ∈ (at' top dist u, u) :: pq)
        have hleast : IsLeast {x | Cost g src u x} (at' top dist u) := by
          refine ⟨?_, fun x hx => ?_⟩
          · rcases h.cost u with h1 | h1
            · dsimp only [D] at h1
              omega
            · exact h1.2
          · rcases frontier hg hs h hx with ⟨h1, _⟩ | ⟨y, h1, h2, h3, h4⟩
            · exact absurd h1 huS
            · have hm := h.inpq y h1 h2 (by omega)
              dsimp only [D] at hm h3
              simp only [List.mem_cons, Prod.mk.injEq] at hm
              rcases hm with ⟨hm, -⟩ | hm
              · omega
              · have := hso.1 _ hm
                dsimp only at this
                omega
        have h0 : Inv g src (S ++ [u]) u (adj g u) ⟨dist, par', pq⟩ := by
          refine ⟨hsz, h.sizep, h.src0, h.cost, ?_, ?_, ?_, ?_, ?_, ?_, fun e he => h.fin e (by simp [he]), hso.2, hnd.2, ?_, ?_⟩
          · rw [List.nodup_append]
            exact ⟨h.nodup, by simp, fun x hx y hy e => by simp at hy; subst hy; subst e; exact huS hx⟩
          · intro v hv
            simp only [List.mem_append, List.mem_singleton] at hv
            rcases hv with hv | rfl
            · exact h.lt v hv
            · exact hu
          · intro v hv
            simp only [List.mem_append, List.mem_singleton] at hv
            rcases hv with hv | rfl
            · exact h.least v hv
            · exact hleast
          · intro w hw e he
            simp only [List.mem_append, List.mem_singleton] at hw
            rcases hw with hw | rfl
            · exact Or.inr ((h.relaxed w hw e he).resolve_left (by simp))
            · exact Or.inl ⟨rfl, he⟩
          · intro v hv hvS hvt
            simp only [List.mem_append, List.mem_singleton, not_or] at hvS
            have := h.inpq v hv hvS.1 hvt
            dsimp only [D] at this ⊢
            simp only [List.mem_cons, Prod.mk.injEq] at this
            exact this.resolve_left fun e => hvS.2 e.2
          · intro e he
            obtain ⟨g1, g2, g3, g4⟩ := h.pq e (by simp [he])
            have hle := hso.1 e he
            dsimp only at hle
            refine ⟨g1, g2, fun hm => ?_, fun w hw => ?_⟩
            · simp only [List.mem_append, List.mem_singleton] at hm
              rcases hm with hm | hm
              · exact g3 hm
              · have hne : e.1 ≠ at' top dist u := by
                  intro e1
                  apply hnd.1
                  rw [← e1, ← hm]
                  exact he
                dsimp only [D]
                rw [hm]
                omega
            · simp only [List.mem_append, List.mem_singleton] at hw
              rcases hw with hw | rfl
              · exact g4 w hw
              · exact hle
          · intro v hv hvs hvt
            obtain ⟨c, g1, g2, g3⟩ := h.par v hv hvs hvt
            exact ⟨c, by simp [g1], g2, g3⟩
          · intro a v b e hvs
            rcases List.eq_nil_or_concat' b with rfl | ⟨b', z, rfl⟩
            · obtain ⟨e1, e2⟩ := List.append_inj' e rfl
              cases e2
              rw [← e1]
              obtain ⟨c, g1, -, -⟩ := h.par u hu hvs (ne_of_lt hfin)
              exact g1
            · rw [← List.cons_append, ← List.append_assoc] at e
              obtain ⟨e1, -⟩ := List.append_inj' e rfl
              exact h.order a v b' e1 hvs
        refine Tot.bind (P := fun (t : State) => Inv g src (S ++ [u]) u [] t ∧ t.pq.length ≤ pq.length + (adj g u).length) ?_ ?_
        · refine (Tot.forEach (P := fun pre (t : State) => (∃ suf, adj g u = pre ++ suf ∧ Inv g src (S ++ [u]) u suf t) ∧
            (∀ w ∈ S ++ [u], D t w = at' top dist w) ∧ t.pq.length ≤ pq.length + pre.length) ⟨⟨adj g u, rfl, h0⟩, fun _ _ => rfl, by simp⟩ ?_).mono ?_
          · rintro pre e post t he ⟨⟨suf, g1, g2⟩, g3, g4⟩
            rw [he] at g1
            obtain rfl := List.append_cancel_left g1
            rw [← g3 u (by simp)]
            refine (relax_tot hg (by simp) (by rw [he]; simp) g2 ?_).mono ?_
            · intro w hw
              rw [g3 w hw, g3 u (by simp)]
              simp only [List.mem_append, List.mem_singleton] at hw
              rcases hw with hw | rfl
              · exact hmax w hw
              · exact le_refl _
            · rintro t' ⟨k1, k2, k3⟩
              refine ⟨⟨post, by rw [he]; simp, k1⟩, fun w hw => by rw [k2 w hw, g3 w hw], ?_⟩
              rw [List.length_append, List.length_singleton]
              omega
          · rintro t ⟨⟨suf, g1, g2⟩, -, g4⟩
            obtain rfl : suf = [] := by simpa using g1
            exact ⟨g2, g4⟩
        · rintro t ⟨g1, g2⟩
          refine Tot.pure ⟨t.pq.length + rest g (S ++ [u]), ?_, S ++ [u], u, g1, rfl⟩
          have := rest_snoc g S hu huS
          rw [hk, List.length_cons]
          omega
      · rw [if_neg hdu]
        refine Tot.pure ⟨pq.length + rest g S, by rw [hk]; simp, S, last, ⟨hsz, h.sizep, h.src0, h.cost, h.nodup, h.lt, h.least, h.relaxed, ?_, fun e he => h.pq e (by simp [he]), fun e he => h.fin e (by simp [he]), hso.2, hnd.2, h.par, h.order⟩, rfl⟩
        intro v hv hvS hvt
        have := h.inpq v hv hvS hvt
        dsimp only [D] at this ⊢
        simp only [List.mem_cons, Prod.mk.injEq] at this
        rcases this with ⟨h1, h2⟩ | h1
        · subst h2
          exact absurd h1.symm hdu
        · exact h1
  · have hD : ∀ v, at' top ((Array.replicate g.size top).setIfInBounds src 0) v = if v = src then 0 else top := by
      intro v
      rw [at_set' top (by simpa using hs)]
      split
      · rfl
      · by_cases h : v < g.size <;> simp [at', h]
    refine ⟨by simp, by simp, ?_, ?_, by simp, by simp, by simp, by simp, ?_, ?_, ?_, by simp, by simp, ?_, by simp⟩
    · dsimp only [D]
      rw [hD, if_pos rfl]
    · intro v
      dsimp only [D]
      rw [hD]
      split
      · rename_i e
        subst e
        exact Or.inr ⟨by omega, .refl⟩
      · exact Or.inl rfl
    · intro v hv _ hvt
      dsimp only [D] at hvt ⊢
      rw [hD] at hvt ⊢
      by_cases e : v = src
      · rw [if_pos e, e]
        simp
      · rw [if_neg e] at hvt
        exact absurd rfl hvt
    · intro e he
      simp only [List.mem_singleton] at he
      subst he
      refine ⟨hs, ?_, by simp, by simp⟩
      dsimp only [D]
      rw [hD, if_pos rfl]
    · intro e he
      simp only [List.mem_singleton] at he
      subst he
      dsimp only
      omega
    · intro v hv hvs hvt
      dsimp only [D] at hvt
      rw [hD, if_neg hvs] at hvt
      exact absurd rfl hvt

/-- At the end every vertex is settled or unreachable. -/
theorem final {g : Array (List (Nat × Int))} {src : Nat} (hg : Ok g src) (hs : src < g.size) {S : List Nat} {last : Nat} {s : State} (h : Inv g src S last [] s) (hq : s.pq = [])
    (v : Nat) (hv : v < g.size) : (v ∈ S ∧ D s v < top ∧ IsLeast {x | Cost g src v x} (D s v)) ∨ (D s v = top ∧ ∀ x, ¬ Cost g src v x) := by
  have hS : ∀ v < g.size, v ∉ S → D s v = top := by
    intro v hv hvS
    by_contra hn
    have := h.inpq v hv hvS hn
    rw [hq] at this
    simp at this
  have hcost : ∀ v x, Cost g src v x → v ∈ S := by
    intro v x hx
    rcases frontier hg hs h hx with ⟨h1, _⟩ | ⟨y, h1, h2, _, h4⟩
    · exact h1
    · have := hS y h1 h2
      omega
  by_cases hvS : v ∈ S
  · have hl := h.least v hvS
    refine Or.inl ⟨hvS, ?_, hl⟩
    obtain ⟨z, hz⟩ : ∃ z, z = D s v := ⟨_, rfl⟩
    have hc0 : Cost g src v z := by rw [hz]; exact hl.1
    cases hc0 with
    | refl =>
      rw [← hz]
      decide
    | @step u _ x c hc he =>
      have huS := hcost _ _ hc
      have hr := (h.relaxed u huS _ he).resolve_left (by simp)
      have hf := hg.fits u _ (h.least u huS) _ he
      dsimp only at hr hf
      omega
  · exact Or.inr ⟨hS v hv hvS, fun x hx => hvS (hcost v x hx)⟩

theorem path_tot {g : Array (List (Nat × Int))} {src : Nat} {S : List Nat} {last : Nat} {s : State} (h : Inv g src S last [] s)
    {t : Nat} (ht : t ∈ S) (hfin : ∀ v ∈ S, D s v < top) :
    Tot (pathTo s src t) fun p => p.head? = some src ∧ p.getLast? = some t ∧ PathCost g p (D s t) := by
  have hsz := h.size
  have htn := h.lt t ht
  have hft := hfin t ht
  rw [pathTo, rd_at top (by omega), ok_bind, decide_eq_true (show at' top s.dist t ≠ top from ne_of_lt hft), check_true, ok_bind]
  refine Tot.loopG (P := fun k (p : List Nat) => ∃ v r a b, p = v :: r ∧ S = a ++ v :: b ∧ k = a.length ∧ p.getLast? = some t ∧ PathCost g p (D s t - D s v)) (k := (S.idxOf t)) ?_ ?_ ?_
  · rintro k p ⟨v, r, a, b, rfl, hS, hk, hl, hp⟩
    rw [pathStep]
    have hvS : v ∈ S := by rw [hS]; simp
    by_cases hv : v = src
    · rw [if_pos hv]
      refine Tot.pure ⟨by rw [hv]; rfl, hl, ?_⟩
      have := h.src0
      rw [hv, this] at hp
      rw [hv]
      simpa using hp
    · have hvn := h.lt v hvS
      rw [if_neg hv, rd_at 0 (by rw [h.sizep]; omega), ok_bind]
      have hpa := h.order a v b hS hv
      obtain ⟨c, -, g2, g3⟩ := h.par v hvn hv (ne_of_lt (hfin v hvS))
      obtain ⟨a1, a2, ha⟩ := List.append_of_mem hpa
      refine Tot.pure ⟨a1.length, ?_, par s v, v :: r, a1, a2 ++ v :: b, rfl, ?_, rfl, ?_, ?_⟩
      · rw [hk, ha, List.length_append, List.length_cons]
        omega
      · rw [hS, ha]
        simp
      · rw [List.getLast?_cons, hl]
        rfl
      · exact ⟨c, _, g2, hp, by omega⟩
  · obtain ⟨a, b, e⟩ := List.append_of_mem ht
    have hn := h.nodup
    rw [e, List.nodup_append] at hn
    refine ⟨t, [], a, b, rfl, e, ?_, rfl, ?_⟩
    · rw [e, List.idxOf_append_of_notMem (fun hm => hn.2.2 t hm t (by simp) rfl)]
      simp
    · show _ = _
      omega
  · have h1 := List.idxOf_lt_length_of_mem ht
    have hsub : S ⊆ List.range g.size := fun v hv => List.mem_range.2 (h.lt v hv)
    have := (List.subperm_of_subset h.nodup hsub).length_le
    rw [List.length_range] at this
    omega

end Dijkstra
