import Verif.Proof.GraphBasic
import Mathlib.Algebra.Order.BigOperators.Group.Finset

/-! # Proofs about `library/graph/bfs01.hpp` -/

namespace BFS01
open Cxx Graph

/-- The cost of an edge. -/
def w (b : Bool) : Int := if b then 1 else 0

/-- The graph with integer costs. -/
def wg (g : Array (List (Nat × Bool))) : Array (List (Nat × Int)) := g.map fun l => l.map fun e => (e.1, w e.2)

theorem mem_wg {g : Array (List (Nat × Bool))} {u v : Nat} {c : Int} : (v, c) ∈ adj (wg g) u ↔ ∃ b, (v, b) ∈ adj g u ∧ c = w b := by
  unfold adj wg
  rw [Array.getElem?_map]
  cases g[u]? with
  | none => simp
  | some l =>
    simp only [Option.map_some, Option.getD_some, List.mem_map, Prod.mk.injEq, Prod.exists]
    constructor
    · rintro ⟨a, b, h, rfl, rfl⟩
      exact ⟨b, h, rfl⟩
    · rintro ⟨b, h, rfl⟩
      exact ⟨v, b, h, rfl, rfl⟩

/-- The graph without costs. -/
def ug (g : Array (List (Nat × Bool))) : Array (List Nat) := g.map fun l => l.map (·.1)

theorem mem_ug {g : Array (List (Nat × Bool))} {u v : Nat} : E (ug g) u v ↔ ∃ b, (v, b) ∈ adj g u := by
  unfold E adj ug
  rw [Array.getElem?_map]
  cases g[u]? with
  | none => simp
  | some l => simp

theorem walk_cost {g : Array (List (Nat × Bool))} {k s v : Nat} (h : Walk (ug g) k s v) : ∃ x : Int, x ≤ k ∧ Cost (wg g) s v x := by
  induction k generalizing v with
  | zero => cases h; exact ⟨0, by simp, .refl⟩
  | succ k ih =>
    obtain ⟨u, h1, h2⟩ := h
    obtain ⟨x, hx, hc⟩ := ih h1
    obtain ⟨b, hb⟩ := mem_ug.1 h2
    refine ⟨x + w b, ?_, hc.step (mem_wg.2 ⟨b, hb, rfl⟩)⟩
    unfold w
    push_cast
    split <;> omega

theorem cost_reach {g : Array (List (Nat × Bool))} {s v : Nat} {x : Int} (h : Cost (wg g) s v x) : Reach (ug g) s v := by
  induction h with
  | refl => exact .refl
  | step _ he ih =>
    obtain ⟨b, hb, _⟩ := mem_wg.1 he
    exact ih.tail (mem_ug.2 ⟨b, hb⟩)

theorem nonneg {g : Array (List (Nat × Bool))} : ∀ u, ∀ e ∈ adj (wg g) u, 0 ≤ e.2 := by
  rintro u ⟨v, c⟩ he
  obtain ⟨b, -, rfl⟩ := mem_wg.1 he
  show 0 ≤ w b
  unfold w
  split <;> omega

/-- Stored distance. -/
abbrev D (dist : Array Int) (v : Nat) : Int := at' INF dist v

/-- The sum of the stored distances. -/
def total (dist : Array Int) : Nat := ∑ v ∈ Finset.range dist.size, (D dist v).toNat

theorem total_set {dist : Array Int} {v : Nat} (hv : v < dist.size) {x : Int} (h0 : 0 ≤ x) (hx : x < D dist v) : total (dist.setIfInBounds v x) + 1 ≤ total dist := by
  have hm : v ∈ Finset.range dist.size := Finset.mem_range.2 hv
  unfold total
  rw [Array.size_setIfInBounds, ← Finset.add_sum_erase _ _ hm, ← Finset.add_sum_erase _ _ hm]
  have e : ∑ u ∈ (Finset.range dist.size).erase v, (D (dist.setIfInBounds v x) u).toNat = ∑ u ∈ (Finset.range dist.size).erase v, (D dist u).toNat := by
    refine Finset.sum_congr rfl fun u hu => ?_
    rw [D, at_set' INF hv, if_neg (Finset.ne_of_mem_erase hu)]
  rw [e, D, at_set' INF hv, if_pos rfl]
  omega

theorem total_le {dist : Array Int} (h : ∀ v < dist.size, D dist v ≤ INF) : total dist ≤ dist.size * INF.toNat := by
  unfold total
  have := Finset.sum_le_card_nsmul (Finset.range dist.size) (fun v => (D dist v).toNat) INF.toNat fun v hv => by
    have := h v (Finset.mem_range.1 hv)
    omega
  simpa using this

/-- Invariant: the edges of the vertices of `todo` may be unrelaxed. -/
structure Inv (g : Array (List (Nat × Bool))) (src : List Nat) (s : Array Int × List Nat) (R : Nat → Nat × Bool → Prop) : Prop where
  size : s.1.size = g.size
  sound : ∀ v, D s.1 v = INF ∨ D s.1 v < INF ∧ ∃ r ∈ src, Cost (wg g) r v (D s.1 v)
  src : ∀ v ∈ src, D s.1 v ≤ 0
  q : ∀ v ∈ s.2, v < g.size ∧ D s.1 v < INF
  relaxed : ∀ u, u ∉ s.2 → ∀ e ∈ adj g u, R u e → D s.1 e.1 ≤ D s.1 u + w e.2

theorem visit_tot {g : Array (List (Nat × Bool))} (hg : ∀ u, ∀ e ∈ adj g u, e.1 < g.size) {src : List Nat} {u : Nat} {e : Nat × Bool} (he : e ∈ adj g u) {pre : List (Nat × Bool)}
    {s : Array Int × List Nat} (h : Inv g src s fun x f => x = u → f ∈ pre) (hu : D s.1 u < INF) :
    Tot (visit u s e) fun t => Inv g src t (fun x f => x = u → f ∈ pre ++ [e]) ∧ D t.1 u < INF ∧ t.2.length + total t.1 ≤ s.2.length + total s.1 := by
  obtain ⟨a, q⟩ := s
  obtain ⟨v, b⟩ := e
  have hv := hg _ _ he
  have hul : u < g.size := by
    by_contra hn
    rw [adj_ge (by omega)] at he
    simp at he
  have hsz := h.size
  have hI : INF = 2 ^ 31 - 1 := rfl
  dsimp only at hv hsz hu
  obtain ⟨r, hr, hc⟩ : ∃ r ∈ src, Cost (wg g) r u (D a u) := by
    rcases h.sound u with h1 | h1
    · dsimp only at h1
      omega
    · exact h1.2
  have hu0 := hc.nonneg nonneg
  have hw0 : 0 ≤ w b ∧ w b ≤ 1 := by unfold w; split <;> omega
  rw [visit]
  dsimp only
  rw [rd_at INF (by omega), ok_bind, rd_at INF (by omega), ok_bind]
  have hwb : (if b = true then (1 : Int) else 0) = w b := rfl
  rw [hwb]
  obtain ⟨y, hy⟩ : ∃ y, y = D a u + w b := ⟨_, rfl⟩
  rw [← hy, i32_ok (x := y) ⟨by omega, by omega⟩, ok_bind]
  by_cases hlt : y < D a v
  · rw [if_pos hlt, wr_eq (by omega), ok_bind]
    have huv : u ≠ v := by
      rintro rfl
      omega
    have hset : ∀ x, D (a.setIfInBounds v y) x = if x = v then y else D a x := fun x => at_set' INF (show v < a.size by omega) y x
    have hle : ∀ x, D (a.setIfInBounds v y) x ≤ D a x := by
      intro x
      rw [hset]
      split
      · rename_i e
        rw [e]
        omega
      · exact le_refl _
    have hDv : D a v ≤ INF := by rcases h.sound v with h1 | h1 <;> dsimp only at h1 <;> omega
    have hq' : ∀ x, x ∈ (if b = true then q ++ [v] else v :: q) ↔ x = v ∨ x ∈ q := by
      intro x
      split <;> simp [or_comm]
    refine Tot.pure ⟨⟨by simpa using hsz, fun x => ?_, fun x hx => ?_, fun x hx => ?_, ?_⟩, ?_, ?_⟩
    · dsimp only
      rw [hset]
      split
      · rename_i ex
        rw [ex]
        right
        refine ⟨by omega, r, hr, ?_⟩
        rw [hy]
        exact hc.step (mem_wg.2 ⟨b, he, rfl⟩)
      · exact h.sound x
    · exact le_trans (hle x) (h.src x hx)
    · dsimp only at hx
      rw [hq'] at hx
      rcases hx with rfl | hx
      · refine ⟨hv, ?_⟩
        dsimp only
        rw [hset, if_pos rfl]
        omega
      · obtain ⟨h1, h2⟩ := h.q x hx
        exact ⟨h1, lt_of_le_of_lt (hle x) h2⟩
    · intro x hx f hf hxu
      dsimp only at hx ⊢
      rw [hq'] at hx
      push_neg at hx
      rw [hset x, if_neg hx.1]
      by_cases hxu' : x = u
      · subst hxu'
        have := hxu rfl
        simp only [List.mem_append, List.mem_singleton] at this
        rcases this with h1 | rfl
        · exact le_trans (hle _) (h.relaxed x hx.2 f hf fun _ => h1)
        · rw [hset, if_pos rfl, hy]
      · exact le_trans (hle _) (h.relaxed x hx.2 f hf fun e => absurd e hxu')
    · dsimp only
      exact lt_of_le_of_lt (hle u) hu
    · have := total_set (dist := a) (v := v) (by omega) (x := y) (by omega) hlt
      have hl : (if b = true then q ++ [v] else v :: q).length = q.length + 1 := by split <;> simp
      dsimp only
      rw [hl]
      omega
  · rw [if_neg hlt]
    refine Tot.pure ⟨⟨hsz, h.sound, h.src, h.q, ?_⟩, hu, le_refl _⟩
    intro x hx f hf hxu
    by_cases hxu' : x = u
    · subst hxu'
      have := hxu rfl
      simp only [List.mem_append, List.mem_singleton] at this
      rcases this with h1 | rfl
      · exact h.relaxed x hx f hf fun _ => h1
      · dsimp only
        omega
    · exact h.relaxed x hx f hf fun e => absurd e hxu'

/-- Distances are right. -/
def Correct (g : Array (List (Nat × Bool))) (src : List Nat) (dist : Array Int) : Prop :=
  dist.size = g.size ∧ ∀ v < g.size, (dist[v]? = some INF ∧ ∀ s ∈ src, ∀ x, ¬ Cost (wg g) s v x) ∨
    ∃ x, dist[v]? = some x ∧ x < INF ∧ IsLeast {x | ∃ s ∈ src, Cost (wg g) s v x} x

theorem distance_tot (g : Array (List (Nat × Bool))) (hg : ∀ u, ∀ e ∈ adj g u, e.1 < g.size) (hn : g.size < 2 ^ 31) (src : List Nat) (hs : ∀ s ∈ src, s < g.size) :
    Tot (distance g src) (Correct g src) := by
  have hI : INF = 2 ^ 31 - 1 := rfl
  rw [distance]
  refine Tot.bind (P := fun (a : Array Int) => a.size = g.size ∧ ∀ v, D a v = if v ∈ src then 0 else INF) ?_ fun a ⟨h1, h2⟩ => ?_
  · refine Tot.forEach (P := fun pre (a : Array Int) => a.size = g.size ∧ ∀ v, D a v = if v ∈ pre then 0 else INF) ⟨by simp, fun v => ?_⟩ ?_
    · by_cases h : v < g.size <;> simp [at', h]
    · rintro pre v post a he ⟨h1, h2⟩
      have hv := hs v (by simp [he])
      rw [wr_eq (by omega)]
      refine Tot.pure ⟨by simpa using h1, fun x => ?_⟩
      rw [D, at_set' INF (by omega)]
      have := h2 x
      by_cases hx : x = v
      · simp [hx]
      · rw [if_neg hx]
        simpa [hx] using this
  refine Tot.bind (P := fun (r : Array Int × List Nat) => Inv g src r (fun _ _ => True) ∧ r.2 = []) ?_ fun r hr => Tot.pure ?_
  · refine Tot.loop (P := fun r => Inv g src r fun _ _ => True) (fun s => s.2.length + total s.1) ?_ ?_ ?_
    · rintro ⟨a, dq⟩ h
      rw [step]
      cases dq with
      | nil => exact Tot.pure ⟨h, rfl⟩
      | cons u dq =>
        dsimp only
        obtain ⟨hu, huf⟩ := h.q u (by simp)
        rw [rd_some (adj_eq hu), ok_bind]
        refine Tot.bind (P := fun (t : Array Int × List Nat) => Inv g src t (fun x f => x = u → f ∈ adj g u) ∧ t.2.length + total t.1 ≤ dq.length + total a) ?_ ?_
        · refine (Tot.forEach (P := fun pre (t : Array Int × List Nat) => Inv g src t (fun x f => x = u → f ∈ pre) ∧ D t.1 u < INF ∧ t.2.length + total t.1 ≤ dq.length + total a) ?_ ?_).mono ?_
          · refine ⟨⟨h.size, h.sound, h.src, fun v hv => h.q v (by simp [hv]), ?_⟩, huf, le_refl _⟩
            intro x hx e he hxu
            have hxu' : x ≠ u := fun e => by simpa using hxu e
            exact h.relaxed x (by simp [hx, hxu']) e he trivial
          · rintro pre e post t he ⟨k1, k2, k3⟩
            refine (visit_tot hg (by rw [he]; simp) k1 k2).mono ?_
            rintro t' ⟨j1, j2, j3⟩
            exact ⟨j1, j2, by omega⟩
          · rintro t ⟨k1, k2, k3⟩
            exact ⟨k1, k3⟩
        · rintro t ⟨k1, k2⟩
          refine Tot.pure ⟨⟨k1.size, k1.sound, k1.src, k1.q, fun x hx e he _ => k1.relaxed x hx e he fun e' => by rw [← e']; exact he⟩, ?_⟩
          simp only [List.length_cons]
          omega
    · refine ⟨h1, fun v => ?_, fun v hv => ?_, fun v hv => ?_, fun u hu e he _ => ?_⟩
      · dsimp only
        rw [h2]
        split
        · rename_i hv
          exact Or.inr ⟨by omega, v, hv, .refl⟩
        · exact Or.inl rfl
      · dsimp only
        rw [h2, if_pos hv]
      · dsimp only at hv ⊢
        rw [h2, if_pos hv]
        exact ⟨hs v hv, by omega⟩
      · dsimp only at hu ⊢
        rw [h2, h2 u, if_neg hu]
        have : 0 ≤ w e.2 := by unfold w; split <;> omega
        split <;> omega
    · dsimp only
      have := total_le (dist := a) fun v _ => by
        rw [h2]
        split <;> omega
      rw [h1] at this
      omega
  · obtain ⟨h, hq⟩ := hr
    obtain ⟨a, q⟩ := r
    dsimp only at hq
    subst hq
    have hle : ∀ s ∈ src, ∀ v x, Cost (wg g) s v x → D a v ≤ x := by
      intro s hs v x hc
      induction hc with
      | refl => exact h.src s hs
      | step _ he ih =>
        obtain ⟨b, hb, rfl⟩ := mem_wg.1 he
        have := h.relaxed _ (by simp) _ hb trivial
        dsimp only at this
        omega
    have hsz := h.size
    dsimp only at hsz
    refine ⟨hsz, fun v hv => ?_⟩
    have hget : a[v]? = some (D a v) := by
      rw [D, at', Array.getElem?_eq_getElem (by omega)]
      rfl
    dsimp only
    rcases h.sound v with h0 | ⟨h0, hw⟩
    · left
      dsimp only at h0
      refine ⟨by rw [hget, h0], fun s hs' x hc => ?_⟩
      have hne : {k | ∃ r ∈ src, Walk (ug g) k r v}.Nonempty := by
        obtain ⟨k, hk⟩ := reach_walk (cost_reach hc)
        exact ⟨k, s, hs', hk⟩
      classical
      have hl : IsLeast {k | ∃ r ∈ src, Walk (ug g) k r v} (Nat.find hne) := ⟨Nat.find_spec hne, fun k hk => Nat.find_min' hne hk⟩
      have hlt := least_lt (g := ug g) (by
        intro x y hxy
        obtain ⟨b, hb⟩ := mem_ug.1 hxy
        simpa [ug] using hg _ _ hb) (S := (· ∈ src)) (fun r hr => by simpa [ug] using hs r hr) hl
      obtain ⟨r, hr, hw⟩ := hl.1
      obtain ⟨y, hy, hcy⟩ := walk_cost hw
      have := hle r hr v y hcy
      have hszu : (ug g).size = g.size := by simp [ug]
      omega
    · right
      refine ⟨D a v, hget, h0, hw, ?_⟩
      rintro x ⟨s, hs', hc⟩
      exact hle s hs' v x hc

end BFS01
