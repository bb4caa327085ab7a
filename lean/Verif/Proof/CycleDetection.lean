import Verif.Model.CycleDetection
import Verif.Spec.CycleDetection
import Mathlib.Data.List.Nodup
import Mathlib.Data.List.Range
import Mathlib.Data.Fintype.Card

namespace CycleDetection
open Cxx

variable {W : Type} [Inhabited W]

/-- The edges of finished vertices lead to vertices finished before. -/
def Topo (g : Array (List (Nat × W))) (F : List Nat) : Prop := ∀ A v B, F = A ++ v :: B → ∀ e ∈ adj g v, e.1 ∈ A

/-- The state when the vertices `P` are being visited and the vertices `F` are finished. -/
structure Inv (g : Array (List (Nat × W))) (P F : List Nat) (s : St W) : Prop where
  stk : s.stk.size = g.size
  possz : s.pos.size = g.size
  vissz : s.vis.size = g.size
  nodup : (P ++ F).Nodup
  lt : ∀ v ∈ P ++ F, v < g.size
  vis : ∀ v, v < g.size → (at' false s.vis v = true ↔ v ∈ P ++ F)
  pos : ∀ i (h : i < P.length), at' 0 s.pos P[i] = i
  posn : ∀ v, v < g.size → v ∉ P → at' 0 s.pos v = g.size
  ptr : s.ptr = P.length - 1
  chain : ∀ i (h : i + 1 < P.length), at' default s.stk i ∈ adj g P[i] ∧ (at' default s.stk i).1 = P[i + 1]
  topo : Topo g F

theorem length_le {n : Nat} {l : List Nat} (h : l.Nodup) (hl : ∀ v ∈ l, v < n) : l.length ≤ n := by
  have := (h.subperm (l₂ := List.range n) fun v hv => List.mem_range.mpr (hl v hv)).length_le
  simpa using this

theorem walk_append {g : Array (List (Nat × W))} : ∀ {es fs : List (Nat × W)} {u v w : Nat}, Walk g u es v → Walk g v fs w → Walk g u (es ++ fs) w
  | [], fs, u, v, w, h1, h2 => by
    have : u = v := h1
    rw [this]
    exact h2
  | e :: es, fs, u, v, w, h1, h2 => ⟨h1.1, walk_append h1.2 h2⟩

/-- The edges on the stack are a walk along the path. -/
theorem walk_stk {g : Array (List (Nat × W))} {P : List Nat} {st : Array (Nat × W)} (hst : P.length ≤ st.size)
    (hc : ∀ i (h : i + 1 < P.length), at' default st i ∈ adj g P[i] ∧ (at' default st i).1 = P[i + 1]) :
    ∀ k i (h : i + k < P.length), Walk g P[i] ((st.toList.drop i).take k) P[i + k] ∧ ((st.toList.drop i).take k).map (·.1) = (P.drop (i + 1)).take k := by
  intro k
  induction k with
  | zero =>
    intro i h
    exact ⟨by simp [Walk], by simp⟩
  | succ k ih =>
    intro i h
    have h1 := hc i (by omega)
    obtain ⟨w, m⟩ := ih (i + 1) (by omega)
    have hd : st.toList.drop i = at' default st i :: st.toList.drop (i + 1) := by
      rw [List.drop_eq_getElem_cons (by rw [Array.length_toList]; omega)]
      congr 1
      unfold at'
      rw [Array.getElem?_eq_getElem (by omega)]
      rfl
    rw [hd, List.take_succ_cons, List.map_cons, m, List.drop_eq_getElem_cons (show i + 1 < P.length by omega), List.take_succ_cons]
    refine ⟨⟨h1.1, ?_⟩, by rw [h1.2]⟩
    rw [h1.2]
    have e : i + (k + 1) = i + 1 + k := by omega
    simp only [e]
    exact w

theorem cycle_found {g : Array (List (Nat × W))} {P F : List Nat} {s : St W} (h : Inv g P F s) {u : Nat} (hu : P.getLast? = some u) {e : Nat × W} (he : e ∈ adj g u) {p : Nat} (hp : p < P.length)
    (hv : P[p] = e.1) : IsCycle g (((s.stk.setIfInBounds s.ptr e).toList.drop p).take (s.ptr + 1 - p)) := by
  have hlen : P.length ≤ g.size := length_le (List.nodup_append.mp h.nodup).1 fun v hv => h.lt v (List.mem_append_left _ hv)
  have hptr := h.ptr
  have hs := h.stk
  have hset : ∀ i, i + 1 < P.length → at' default (s.stk.setIfInBounds s.ptr e) i = at' default s.stk i := fun i hi => by
    rw [at_set _ (by omega), if_neg (by omega)]
  obtain ⟨w, m⟩ := walk_stk (g := g) (P := P) (st := s.stk.setIfInBounds s.ptr e) (by simp; omega) (fun i hi => by rw [hset i hi]; exact h.chain i hi) (s.ptr - p) p (by omega)
  have hlast : P[p + (s.ptr - p)] = u := by
    rw [List.getLast?_eq_getElem?] at hu
    have e1 : p + (s.ptr - p) = P.length - 1 := by omega
    simp only [e1]
    rw [List.getElem?_eq_getElem (by omega)] at hu
    simpa using hu
  rw [hlast] at w
  have hsplit : ((s.stk.setIfInBounds s.ptr e).toList.drop p).take (s.ptr + 1 - p) = ((s.stk.setIfInBounds s.ptr e).toList.drop p).take (s.ptr - p) ++ [e] := by
    rw [show s.ptr + 1 - p = s.ptr - p + 1 by omega, List.take_add_one, List.getElem?_drop, show p + (s.ptr - p) = s.ptr by omega, Array.toList_setIfInBounds,
      List.getElem?_set_self (by rw [Array.length_toList]; omega)]
    rfl
  rw [hsplit]
  refine ⟨by simp, ?_, P[p], walk_append w ⟨he, ?_⟩⟩
  · rw [List.map_append, m, List.map_cons, List.map_nil, List.take_of_length_le (by rw [List.length_drop]; omega), ← hv]
    have hn : (P.drop p).Nodup := (List.nodup_append.mp h.nodup).1.sublist (List.drop_sublist _ _)
    rw [List.drop_eq_getElem_cons hp] at hn
    exact (List.perm_append_singleton _ _).nodup_iff.mpr hn
  · exact hv.symm

/-- What a recursive call promises. -/
def DfsSpec (g : Array (List (Nat × W))) (rec : Nat → St W → M (Bool × St W)) (f : Nat) : Prop :=
  ∀ P F u (s : St W), g.size ≤ f + P.length + F.length → Inv g (P ++ [u]) F { s with pos := s.pos.setIfInBounds u s.ptr } → s.pos.size = g.size →
    Tot (rec u s) (fun r => (r.1 = true → IsCycle g r.2.res) ∧ (r.1 = false → ∃ G, u ∈ F ++ G ∧ r.2.ptr = P.length ∧ Inv g P (F ++ G) { r.2 with ptr := r.2.ptr - 1 }))

theorem scan_tot {g : Array (List (Nat × W))} (hg : WF g) {rec : Nat → St W → M (Bool × St W)} {f : Nat} (hrec : DfsSpec g rec f) {P : List Nat} {u : Nat} (hu : P.getLast? = some u) :
    ∀ (es : List (Nat × W)) (F : List Nat) (s : St W), (∀ e ∈ es, e ∈ adj g u) → g.size ≤ f + P.length + F.length → Inv g P F s →
      Tot (scan g.size rec es s) (fun r => (r.1 = true → IsCycle g r.2.res) ∧ (r.1 = false → ∃ G, Inv g P (F ++ G) r.2 ∧ ∀ e ∈ es, e.1 ∈ F ++ G)) := by
  intro es
  induction es with
  | nil =>
    intro F s _ _ h
    exact tot_ok.mpr ⟨fun h' => (by cases h'), fun _ => ⟨[], by rw [List.append_nil]; exact h, fun e he => (by cases he)⟩⟩
  | cons e es ih =>
    intro F s hes hf h
    have he := hes e (List.mem_cons_self ..)
    have hv := hg u e he
    have hPne : 0 < P.length := by
      rcases P with _ | ⟨x, P⟩
      · simp at hu
      · simp
    have h1 := h.stk
    have h2 := h.possz
    have h3 := h.vissz
    have hlen := length_le h.nodup h.lt
    rw [List.length_append] at hlen
    have hptr := h.ptr
    unfold scan
    rw [rd_at false (by omega), ok_bind]
    by_cases hb : at' false s.vis e.1 = true
    · rw [hb]
      simp only [Bool.not_true, Bool.false_eq_true, if_false]
      rw [rd_at 0 (by omega), ok_bind]
      have hmem := (h.vis _ hv).mp hb
      by_cases hP : e.1 ∈ P
      · obtain ⟨p, hp, hpe⟩ := List.mem_iff_getElem.mp hP
        have hpos := h.pos p hp
        rw [hpe] at hpos
        rw [hpos, if_pos (by omega), wr_eq (by omega), ok_bind]
        exact tot_ok.mpr ⟨fun _ => cycle_found h hu he hp hpe, fun h' => (by cases h')⟩
      · rw [h.posn _ hv hP, if_neg (by simp)]
        refine (ih F s (fun e' he' => hes e' (List.mem_cons_of_mem _ he')) hf h).mono ?_
        rintro r ⟨r1, r2⟩
        refine ⟨r1, fun hr => ?_⟩
        obtain ⟨G, g1, g2⟩ := r2 hr
        refine ⟨G, g1, ?_⟩
        intro e' he'
        rcases List.mem_cons.mp he' with rfl | he'
        · rcases List.mem_append.mp hmem with hm | hm
          · exact absurd hm hP
          · exact List.mem_append_left _ hm
        · exact g2 e' he'
    · have hb' : at' false s.vis e.1 = false := by simpa using hb
      rw [hb']
      simp only [Bool.not_false, if_true]
      have hnot : e.1 ∉ P ++ F := fun hm => hb ((h.vis _ hv).mpr hm)
      have hnP : e.1 ∉ P := fun hm => hnot (List.mem_append_left _ hm)
      have hnF : e.1 ∉ F := fun hm => hnot (List.mem_append_right _ hm)
      have hnd' : ((P ++ [e.1]) ++ F).Nodup := by
        have : (e.1 :: (P ++ F)).Nodup := List.nodup_cons.mpr ⟨hnot, h.nodup⟩
        refine (List.Perm.nodup_iff ?_).mpr this
        rw [List.append_assoc]
        exact List.perm_middle
      have hlt' : ∀ v ∈ (P ++ [e.1]) ++ F, v < g.size := by
        intro v hv'
        simp only [List.mem_append, List.mem_singleton] at hv'
        rcases hv' with (hv' | hv') | hv'
        · exact h.lt v (List.mem_append_left _ hv')
        · rw [hv']; exact hv
        · exact h.lt v (List.mem_append_right _ hv')
      have hlen' := length_le hnd' hlt'
      simp only [List.length_append, List.length_singleton] at hlen'
      rw [wr_eq (by omega), ok_bind, wr_eq (by omega), ok_bind]
      refine (hrec P F e.1 { s with vis := s.vis.setIfInBounds e.1 true, stk := s.stk.setIfInBounds s.ptr e, ptr := s.ptr + 1 } hf ?_ h2).bind ?_
      · refine ⟨by simpa using h1, by simpa using h2, by simpa using h3, hnd', hlt', ?_, ?_, ?_, ?_, ?_, h.topo⟩
        · intro v hv'
          dsimp only
          rw [at_set _ (by omega)]
          by_cases c : e.1 = v
          · rw [if_pos c]
            simp [c]
          · rw [if_neg c, h.vis v hv']
            have c' : ¬ v = e.1 := fun h' => c h'.symm
            simp [c']
        · intro i hi
          dsimp only
          rw [at_set _ (by omega)]
          by_cases c : i < P.length
          · rw [List.getElem_append_left c, if_neg, h.pos i c]
            intro h'
            exact hnP (h' ▸ List.getElem_mem c)
          · simp only [List.length_append, List.length_singleton] at hi
            have hi' : i = P.length := by omega
            subst hi'
            rw [List.getElem_concat_length rfl, if_pos rfl]
            omega
        · intro v hv' hvP
          dsimp only
          simp only [List.mem_append, List.mem_singleton, not_or] at hvP
          rw [at_set _ (by omega), if_neg (fun h' => hvP.2 h'.symm)]
          exact h.posn v hv' hvP.1
        · simp
          omega
        · intro i hi
          dsimp only
          simp only [List.length_append, List.length_singleton] at hi
          rw [at_set _ (by omega)]
          by_cases c : s.ptr = i
          · rw [if_pos c]
            have e1 : i + 1 = P.length := by omega
            constructor
            · rw [List.getElem_append_left (by omega)]
              have : P[i]'(by omega) = u := by
                rw [List.getLast?_eq_getElem?, show P.length - 1 = i by omega, List.getElem?_eq_getElem (by omega)] at hu
                simpa using hu
              rw [this]
              exact he
            · simp only [e1]
              rw [List.getElem_concat_length rfl]
          · rw [if_neg c, List.getElem_append_left (by omega), List.getElem_append_left (by omega)]
            exact h.chain i (by omega)
      · rintro ⟨b, t⟩ ⟨r1, r2⟩
        dsimp only at r1 r2 ⊢
        cases b with
        | true =>
          rw [if_pos rfl]
          exact tot_ok.mpr ⟨fun _ => r1 rfl, fun h' => (by cases h')⟩
        | false =>
          simp only [Bool.false_eq_true, if_false]
          obtain ⟨G, g1, -, g2⟩ := r2 rfl
          refine (ih (F ++ G) _ (fun e' he' => hes e' (List.mem_cons_of_mem _ he')) (by rw [List.length_append]; omega) g2).mono ?_
          rintro r ⟨q1, q2⟩
          refine ⟨q1, fun hr => ?_⟩
          obtain ⟨H, g3, g4⟩ := q2 hr
          refine ⟨G ++ H, by rw [← List.append_assoc]; exact g3, ?_⟩
          intro e' he'
          rw [← List.append_assoc]
          rcases List.mem_cons.mp he' with rfl | he'
          · exact List.mem_append_left _ g1
          · exact g4 e' he'

theorem dfs_spec {g : Array (List (Nat × W))} (hg : WF g) : ∀ f, DfsSpec g (dfs g f) f := by
  intro f
  induction f with
  | zero =>
    intro P F u s hf h hs
    have hlen := length_le h.nodup h.lt
    simp only [List.length_append, List.length_singleton] at hlen
    omega
  | succ f ih =>
    intro P F u s hf h hs
    have hu : u < g.size := h.lt u (by simp)
    unfold dfs
    rw [wr_eq (by omega), ok_bind]
    have hr : rd g u = .ok (adj g u) := by
      unfold adj
      rw [Array.getElem?_eq_getElem hu]
      exact rd_eq hu
    rw [hr, ok_bind]
    refine (scan_tot hg ih (P := P ++ [u]) (u := u) (by simp) (adj g u) F _ (fun e he => he) (by rw [List.length_append, List.length_singleton]; omega) h).bind ?_
    rintro ⟨b, t⟩ ⟨r1, r2⟩
    dsimp only at r1 r2 ⊢
    cases b with
    | true =>
      rw [if_pos rfl]
      exact tot_ok.mpr ⟨fun _ => r1 rfl, fun h' => (by cases h')⟩
    | false =>
      simp only [Bool.false_eq_true, if_false]
      obtain ⟨G, g1, g2⟩ := r2 rfl
      have k2 := g1.possz
      rw [wr_eq (by omega), ok_bind]
      have hnd := g1.nodup
      have hperm : (P ++ (F ++ (G ++ [u]))).Perm ((P ++ [u]) ++ (F ++ G)) := by
        rw [List.append_assoc P [u], ← List.append_assoc F G]
        exact (List.perm_append_comm).append_left P
      refine tot_ok.mpr ⟨fun h' => (by cases h'), fun _ => ⟨G ++ [u], by simp, ?_, ?_⟩⟩
      · have := g1.ptr
        simp only [List.length_append, List.length_singleton] at this
        dsimp only
        omega
      refine ⟨g1.stk, by simpa using k2, g1.vissz, hperm.nodup_iff.mpr hnd, fun v hv => g1.lt v (hperm.mem_iff.mp hv), ?_, ?_, ?_, ?_, ?_, ?_⟩
      · intro v hv
        rw [hperm.mem_iff]
        exact g1.vis v hv
      · intro i hi
        dsimp only
        have hne : u ≠ P[i] := by
          intro h'
          have h4 := (List.nodup_append.mp hnd).1
          rw [List.nodup_append] at h4
          exact h4.2.2 P[i] (List.getElem_mem hi) u (by simp) h'.symm
        rw [at_set _ (by omega), if_neg hne]
        have := g1.pos i (by rw [List.length_append]; omega)
        rwa [List.getElem_append_left hi] at this
      · intro v hv hvP
        dsimp only
        rw [at_set _ (by omega)]
        by_cases c : u = v
        · rw [if_pos c]
        · rw [if_neg c]
          exact g1.posn v hv (by simp only [List.mem_append, List.mem_singleton, not_or]; exact ⟨hvP, fun h' => c h'.symm⟩)
      · have := g1.ptr
        simp only [List.length_append, List.length_singleton] at this
        dsimp only
        omega
      · intro i hi
        have := g1.chain i (by rw [List.length_append]; omega)
        rw [List.getElem_append_left (by omega), List.getElem_append_left hi] at this
        exact this
      · intro A v B hAB e he
        rw [← List.append_assoc] at hAB
        rcases List.eq_nil_or_concat B with hB | ⟨B', x, hB⟩
        · subst hB
          obtain ⟨h5, h6⟩ := List.append_inj' hAB rfl
          cases h6
          rw [← h5]
          exact g2 e he
        · rw [List.concat_eq_append] at hB
          subst hB
          rw [show A ++ v :: (B' ++ [x]) = (A ++ v :: B') ++ [x] by simp] at hAB
          obtain ⟨h5, h6⟩ := List.append_inj' hAB rfl
          exact g1.topo A v B' h5 e he

theorem outer_tot {g : Array (List (Nat × W))} (hg : WF g) : ∀ (is F : List Nat) (s : St W), (∀ i ∈ is, i < g.size) → Inv g [] F s →
    Tot (outer g is s) (fun r => (∀ es, r = some es → IsCycle g es) ∧ (r = none → ∃ G, Topo g (F ++ G) ∧ (F ++ G).Nodup ∧ ∀ i ∈ is, i ∈ F ++ G)) := by
  intro is
  induction is with
  | nil =>
    intro F s _ h
    exact tot_ok.mpr ⟨fun es h' => (by cases h'), fun _ => ⟨[], by rw [List.append_nil]; exact h.topo, by rw [List.append_nil]; exact h.nodup, fun e he => (by cases he)⟩⟩
  | cons i is ih =>
    intro F s his h
    have hi := his i (List.mem_cons_self ..)
    have h2 := h.possz
    have h3 := h.vissz
    unfold outer
    rw [rd_at false (by omega), ok_bind]
    by_cases hb : at' false s.vis i = true
    · rw [hb]
      simp only [Bool.not_true, Bool.false_eq_true, if_false]
      refine (ih F s (fun j hj => his j (List.mem_cons_of_mem _ hj)) h).mono ?_
      rintro r ⟨r1, r2⟩
      refine ⟨r1, fun hr => ?_⟩
      obtain ⟨G, g1, g0, g2⟩ := r2 hr
      refine ⟨G, g1, g0, ?_⟩
      intro j hj
      rcases List.mem_cons.mp hj with rfl | hj
      · exact List.mem_append_left _ ((h.vis _ hi).mp hb)
      · exact g2 j hj
    · have hb' : at' false s.vis i = false := by simpa using hb
      rw [hb']
      simp only [Bool.not_false, if_true]
      have hnot : i ∉ F := fun hm => hb ((h.vis _ hi).mpr hm)
      rw [wr_eq (by omega), ok_bind]
      refine (dfs_spec hg g.size [] F i { s with vis := s.vis.setIfInBounds i true } (by simp) ?_ h2).bind ?_
      · refine ⟨h.stk, by simpa using h2, by simpa using h3, List.nodup_cons.mpr ⟨hnot, h.nodup⟩, ?_, ?_, ?_, ?_, ?_, ?_, h.topo⟩
        · intro v hv
          rcases List.mem_cons.mp hv with rfl | hv
          · exact hi
          · exact h.lt v hv
        · intro v hv'
          dsimp only
          rw [at_set _ (by omega)]
          by_cases c : i = v
          · rw [if_pos c]
            simp [c]
          · rw [if_neg c, h.vis v hv']
            have c' : ¬ v = i := fun h' => c h'.symm
            simp [c']
        · intro j hj
          have hj0 : j = 0 := by simpa using hj
          subst hj0
          dsimp only
          show at' 0 _ i = 0
          rw [at_set _ (by omega), if_pos rfl]
          exact h.ptr
        · intro v hv' hvP
          have hvi : v ≠ i := by simpa using hvP
          dsimp only
          rw [at_set _ (by omega), if_neg (fun h' => hvi h'.symm)]
          exact h.posn v hv' (by simp)
        · exact h.ptr
        · intro j hj
          simp at hj
      · rintro ⟨b, t⟩ ⟨r1, r2⟩
        dsimp only at r1 r2 ⊢
        cases b with
        | true =>
          rw [if_pos rfl]
          refine tot_ok.mpr ⟨fun es hes => ?_, fun h' => (by cases h')⟩
          cases hes
          exact r1 rfl
        | false =>
          simp only [Bool.false_eq_true, if_false]
          obtain ⟨G, g1, g0, g2⟩ := r2 rfl
          have hinv : Inv g [] (F ++ G) t := ⟨g2.stk, g2.possz, g2.vissz, g2.nodup, g2.lt, g2.vis, g2.pos, g2.posn, g0, g2.chain, g2.topo⟩
          refine (ih (F ++ G) t (fun j hj => his j (List.mem_cons_of_mem _ hj)) hinv).mono ?_
          rintro r ⟨q1, q2⟩
          refine ⟨q1, fun hr => ?_⟩
          obtain ⟨H, g3, g5, g4⟩ := q2 hr
          refine ⟨G ++ H, by rw [← List.append_assoc]; exact g3, by rw [← List.append_assoc]; exact g5, ?_⟩
          intro j hj
          rw [← List.append_assoc]
          rcases List.mem_cons.mp hj with rfl | hj
          · exact List.mem_append_left _ g1
          · exact g4 j hj

/-- Along a walk the position in the finishing order falls. -/
theorem walk_down {g : Array (List (Nat × W))} {F : List Nat} (h : Topo g F) : ∀ (es : List (Nat × W)) (A : List Nat) (u : Nat) (B : List Nat) (w : Nat), F = A ++ u :: B → Walk g u es w → es ≠ [] → w ∈ A := by
  intro es
  induction es with
  | nil =>
    intro A u B w _ _ h'
    exact absurd rfl h'
  | cons e es ih =>
    intro A u B w hF hw _
    obtain ⟨w1, w2⟩ := hw
    have hm := h A u B hF e w1
    by_cases c : es = []
    · subst c
      have : e.1 = w := w2
      rwa [← this]
    · obtain ⟨A1, A2, rfl⟩ := List.append_of_mem hm
      have := ih A1 e.1 (A2 ++ u :: B) w (by rw [hF]; simp) w2 c
      exact List.mem_append_left _ this

theorem acyclic_of_topo {g : Array (List (Nat × W))} (hg : WF g) {F : List Nat} (h : Topo g F) (hd : F.Nodup) (hall : ∀ v, v < g.size → v ∈ F) : Acyclic g := by
  intro v es hw
  by_contra hne
  have hv : v < g.size := by
    rcases es with _ | ⟨e, es⟩
    · exact absurd rfl hne
    · by_contra hc
      have := hw.1
      unfold adj at this
      rw [Array.getElem?_eq_none (by omega)] at this
      cases this
  obtain ⟨A, B, rfl⟩ := List.append_of_mem (hall v hv)
  have := walk_down h es A v B v rfl hw hne
  rw [List.nodup_append] at hd
  exact hd.2.2 v this v (List.mem_cons_self ..) rfl

theorem init_inv (g : Array (List (Nat × W))) : Inv g [] [] ⟨[], Array.replicate g.size default, 0, Array.replicate g.size g.size, Array.replicate g.size false⟩ := by
  refine ⟨by simp, by simp, by simp, by simp, fun v hv => (by cases hv), ?_, fun i hi => absurd hi (by simp), ?_, rfl, fun i hi => absurd hi (by simp), ?_⟩
  · intro v hv
    simp [at', hv]
  · intro v hv _
    simp [at', hv]
  · intro A v B h
    simp at h

end CycleDetection
