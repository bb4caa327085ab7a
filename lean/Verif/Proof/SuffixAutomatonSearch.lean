import Verif.Proof.SuffixAutomatonQuery

/-! First occurrences, all occurrences and longest common factors. -/

namespace SuffixAutomaton
open Cxx Spec

variable {α : Type} [DecidableEq α]

/-- `e` is the first position at which `t` ends. -/
def IsE (s t : List α) (e : Nat) : Prop := e ∈ ends s t ∧ ∀ e', e' ∈ ends s t → e ≤ e'

theorem isE_exists {s t : List α} (h : t <:+: s) : ∃ e, IsE s t e := by
  classical
  obtain ⟨p, p1, p2⟩ := occ_of h
  have hex : ∃ e, e ∈ ends s t := ⟨p.length, mem_ends.2 ⟨p1.length_le, by rw [← List.prefix_iff_eq_take.1 p1]; exact p2⟩⟩
  exact ⟨Nat.find hex, Nat.find_spec hex, fun e' h' => Nat.find_min' hex h'⟩

section
variable {s : List α} {st : State α} {L : Nat → List α}

theorem Inv.firstTable (h : Inv s st L) (hbig : s.length ≤ 2147483647) : Tot (firstTable st) fun dp => dp.size = st.nodes.size ∧
    ∀ u, u < st.nodes.size → ∃ e : Nat, at' 0 dp u = e ∧ IsE s (L u) e := by
  have hE : ∀ u, ∃ e, u < st.nodes.size → IsE s (L u) e := by
    intro u
    by_cases hu : u < st.nodes.size
    · obtain ⟨e, he⟩ := isE_exists (h.isCan hu).1
      exact ⟨e, fun _ => he⟩
    · exact ⟨0, fun h => absurd h hu⟩
  choose E hE using hE
  unfold SuffixAutomaton.firstTable
  refine Tot.bind (topologicalOrder_tot h.graded true) ?_
  intro rl ⟨hp, hs⟩
  rw [if_pos rfl] at hs
  refine Tot.mono (Tot.forEach (P := fun pre (dp : Array Int) => dp.size = st.nodes.size ∧ (∀ j, j ∈ pre → at' 0 dp j = (E j : Int)) ∧
    ∀ j, j < st.nodes.size → j ∉ pre → (at' d0 st.nodes j).cloned = true → (∀ v, v ∈ pre → (at' d0 st.nodes v).link = some j → at' 0 dp j ≤ (E v : Int)) ∧
      (at' 0 dp j = 2147483647 ∨ ∃ v, v ∈ pre ∧ (at' d0 st.nodes v).link = some j ∧ at' 0 dp j = (E v : Int))) ?_ ?_) ?_
  · refine ⟨by simp, fun j hj => by simp at hj, fun j hj _ _ => ⟨fun v hv => by simp at hv, Or.inl ?_⟩⟩
    simp [at', hj]
  · intro pre u post dp e ⟨hsz, hdone, hopen⟩
    obtain ⟨hu, hun, hbg, hpre⟩ := order_split hp hs e
    have hd : u < dp.size := by omega
    have key : Tot (if (at' d0 st.nodes u).cloned = true then pure dp else wr dp u ((at' d0 st.nodes u).len : Int)) fun dp1 =>
        dp1.size = st.nodes.size ∧ at' 0 dp1 u = (E u : Int) ∧ ∀ j, j ≠ u → at' 0 dp1 j = at' 0 dp j := by
      cases hc : (at' d0 st.nodes u).cloned with
      | false =>
        rw [if_neg (by simp), wr_eq hd]
        refine ⟨_, rfl, by simpa using hsz, ?_, fun j hj => ?_⟩
        · rw [at_set 0 hd, if_pos rfl, h.len u hu]
          have hpf := (h.cl u hu).1 hc
          have h1 : (L u).length ∈ ends s (L u) := mem_ends.2 ⟨hpf.length_le, by rw [← List.prefix_iff_eq_take.1 hpf]⟩
          have h2 := (hE u hu).2 _ h1
          have h3 := (mem_ends.1 (hE u hu).1).2.length_le
          rw [List.length_take] at h3
          have : (L u).length = E u := by omega
          rw [this]
        · rw [at_set 0 hd, if_neg (Ne.symm hj)]
      | true =>
        rw [if_pos rfl]
        refine ⟨_, rfl, hsz, ?_, fun _ _ => rfl⟩
        obtain ⟨h1, h2⟩ := hopen u hu hun hc
        obtain ⟨e1, e2⟩ := mem_ends.1 (hE u hu).1
        have hup : ∀ v, v < st.nodes.size → (at' d0 st.nodes v).link = some u → E u ≤ E v := by
          intro v hv hl
          obtain ⟨f1, f2⟩ := mem_ends.1 (hE v hv).1
          exact (hE u hu).2 _ (mem_ends.2 ⟨f1, (h.linkOf hv hl).2.1.trans f2⟩)
        rcases (h.kids hu (List.take_prefix _ s)).1 e2 with h4 | ⟨v, v1, v2, v3⟩
        · have := (h.cl u hu).2 (by rw [← h4]; exact List.take_prefix _ _)
          rw [hc] at this
          exact absurd this (by simp)
        · have h5 := (hE v v1).2 _ (mem_ends.2 ⟨e1, v3⟩)
          have h6 := h1 v (hbg v v1 (h.linkOf v1 v2).2.lt) v2
          rcases h2 with h2 | ⟨w, w1, w2, w3⟩
          · omega
          · have := hup w (hpre w w1).2 w2
            omega
    unfold firstStep
    rw [rd_at d0 hu, ok_bind]
    refine Tot.bind key ?_
    intro dp1 ⟨g1, g2, g3⟩
    have hne : ∀ j, j ∈ pre → j ≠ u := fun j hj e => hun (by rw [← e]; exact hj)
    cases hl : (at' d0 st.nodes u).link with
    | none =>
      refine ⟨_, rfl, g1, fun j hj => ?_, fun j hj hjn hjc => ?_⟩
      · rw [List.mem_append, List.mem_singleton] at hj
        rcases hj with hj | hj
        · rw [g3 j (hne j hj)]; exact hdone j hj
        · rw [hj]; exact g2
      · rw [List.mem_append, List.mem_singleton, not_or] at hjn
        rw [g3 j hjn.2]
        obtain ⟨h1, h2⟩ := hopen j hj hjn.1 hjc
        refine ⟨fun v hv hvl => ?_, ?_⟩
        · rw [List.mem_append, List.mem_singleton] at hv
          rcases hv with hv | hv
          · exact h1 v hv hvl
          · rw [hv, hl] at hvl; exact absurd hvl (by simp)
        · rcases h2 with h2 | ⟨v, v1, v2⟩
          · exact Or.inl h2
          · exact Or.inr ⟨v, by simp [v1], v2⟩
    | some p =>
      obtain ⟨p1, p2⟩ := h.linkOf hu hl
      have hpu : p ≠ u := by
        rintro rfl
        have := p2.lt
        omega
      have hpp : p ∉ pre := fun hm => by
        have := (hpre p hm).1
        have := p2.lt
        omega
      dsimp only
      rw [rd_at d0 p1, ok_bind]
      have hp1 : p < dp1.size := by omega
      cases hc : (at' d0 st.nodes p).cloned with
      | false =>
        rw [if_neg (by simp)]
        refine ⟨_, rfl, g1, fun j hj => ?_, fun j hj hjn hjc => ?_⟩
        · rw [List.mem_append, List.mem_singleton] at hj
          rcases hj with hj | hj
          · rw [g3 j (hne j hj)]; exact hdone j hj
          · rw [hj]; exact g2
        · rw [List.mem_append, List.mem_singleton, not_or] at hjn
          rw [g3 j hjn.2]
          obtain ⟨h1, h2⟩ := hopen j hj hjn.1 hjc
          refine ⟨fun v hv hvl => ?_, ?_⟩
          · rw [List.mem_append, List.mem_singleton] at hv
            rcases hv with hv | hv
            · exact h1 v hv hvl
            · rw [hv, hl] at hvl
              obtain rfl : p = j := by simpa using hvl
              rw [hc] at hjc
              exact absurd hjc (by simp)
          · rcases h2 with h2 | ⟨v, v1, v2⟩
            · exact Or.inl h2
            · exact Or.inr ⟨v, by simp [v1], v2⟩
      | true =>
        rw [if_pos rfl, rd_at 0 hp1, ok_bind, rd_at 0 (by omega), ok_bind, wr_eq hp1, g2, g3 p hpu]
        refine ⟨_, rfl, by simpa using g1, fun j hj => ?_, fun j hj hjn hjc => ?_⟩
        · rw [List.mem_append, List.mem_singleton] at hj
          rcases hj with hj | hj
          · rw [at_set 0 hp1, if_neg (fun e => hpp (by rw [e]; exact hj)), g3 j (hne j hj)]; exact hdone j hj
          · rw [hj, at_set 0 hp1, if_neg hpu]; exact g2
        · rw [List.mem_append, List.mem_singleton, not_or] at hjn
          obtain ⟨h1, h2⟩ := hopen j hj hjn.1 hjc
          rw [at_set 0 hp1]
          by_cases e : p = j
          · subst e
            rw [if_pos rfl]
            refine ⟨fun v hv hvl => ?_, ?_⟩
            · rw [List.mem_append, List.mem_singleton] at hv
              rcases hv with hv | hv
              · have := h1 v hv hvl; omega
              · rw [hv]; omega
            · rcases Int.le_total (at' 0 dp p) (E u : Int) with hle | hle
              · rw [Int.min_eq_left hle]
                rcases h2 with h2 | ⟨v, v1, v2⟩
                · exact Or.inl h2
                · exact Or.inr ⟨v, by simp [v1], v2⟩
              · rw [Int.min_eq_right hle]
                exact Or.inr ⟨u, by simp, hl, rfl⟩
          · rw [if_neg e, g3 j hjn.2]
            refine ⟨fun v hv hvl => ?_, ?_⟩
            · rw [List.mem_append, List.mem_singleton] at hv
              rcases hv with hv | hv
              · exact h1 v hv hvl
              · rw [hv, hl] at hvl
                exact absurd (by simpa using hvl) e
            · rcases h2 with h2 | ⟨v, v1, v2⟩
              · exact Or.inl h2
              · exact Or.inr ⟨v, by simp [v1], v2⟩
  · rintro dp ⟨hsz, hdone, -⟩
    refine ⟨hsz, fun u hu => ⟨E u, hdone u ?_, hE u hu⟩⟩
    rw [hp.mem_iff, List.mem_range]; exact hu

theorem Inv.linkTree (h : Inv s st L) : Tot (linkTree st) fun g => g.size = st.nodes.size ∧
    ∀ u, u < st.nodes.size → (at' [] g u).Nodup ∧ ∀ v, v ∈ at' [] g u ↔ v < st.nodes.size ∧ (at' d0 st.nodes v).link = some u := by
  unfold SuffixAutomaton.linkTree
  refine Tot.mono (Tot.forUp (P := fun i (g : Array (List Nat)) => g.size = st.nodes.size ∧
    ∀ u, u < st.nodes.size → (at' [] g u).Nodup ∧ ∀ v, v ∈ at' [] g u ↔ v < i ∧ (at' d0 st.nodes v).link = some u) h.pos ?_ ?_) ?_
  · refine ⟨by simp, fun u hu => ?_⟩
    have e : at' [] (Array.replicate st.nodes.size ([] : List Nat)) u = [] := by simp [at', hu]
    rw [e]
    refine ⟨List.nodup_nil, fun v => ?_⟩
    constructor
    · intro h; simp at h
    · rintro ⟨a, b⟩
      rw [show v = 0 by omega, h.link0] at b
      exact absurd b (by simp)
  · intro i g hi1 hi ⟨hs, hg⟩
    obtain ⟨p, p1, p2, p3⟩ := h.link i hi (by omega)
    have hp : p < g.size := by omega
    rw [rd_at d0 hi, ok_bind, p1]
    dsimp only
    rw [rd_at [] hp, ok_bind, wr_eq hp]
    refine ⟨_, rfl, by simpa using hs, fun u hu => ?_⟩
    obtain ⟨g1, g2⟩ := hg u hu
    rw [at_set [] hp]
    by_cases e : p = u
    · subst e
      rw [if_pos rfl]
      refine ⟨?_, fun v => ?_⟩
      · rw [List.nodup_append]
        refine ⟨g1, by simp, ?_⟩
        intro a ha b hb
        rintro rfl
        rw [List.mem_singleton] at hb
        have := ((g2 a).1 ha).1
        omega
      · rw [List.mem_append, List.mem_singleton, g2]
        constructor
        · rintro (⟨a, b⟩ | rfl)
          · exact ⟨by omega, b⟩
          · exact ⟨by omega, p1⟩
        · rintro ⟨a, b⟩
          by_cases e : v = i
          · exact Or.inr e
          · exact Or.inl ⟨by omega, b⟩
    · rw [if_neg e]
      refine ⟨g1, fun v => ?_⟩
      rw [g2]
      constructor
      · rintro ⟨a, b⟩; exact ⟨by omega, b⟩
      · rintro ⟨a, b⟩
        refine ⟨?_, b⟩
        by_contra hcon
        rw [show v = i by omega, p1] at b
        exact e (by simpa using b)
  · exact fun g hg => hg

theorem Inv.dfs (h : Inv s st L) {g : Array (List Nat)} (hs : g.size = st.nodes.size)
    (hg : ∀ u, u < st.nodes.size → (at' [] g u).Nodup ∧ ∀ v, v ∈ at' [] g u ↔ v < st.nodes.size ∧ (at' d0 st.nodes v).link = some u) (l : Nat) :
    ∀ (fuel u : Nat) (res : List Int), u < st.nodes.size → s.length < fuel + (L u).length →
    Tot (dfs st.nodes g l fuel u res) fun r => ∃ R : List Nat, r = res ++ R.map (fun e : Nat => (e : Int) - l) ∧ R.Nodup ∧
      ∀ e, e ∈ R ↔ e ≤ s.length ∧ L u <:+ s.take e := by
  intro fuel
  induction fuel with
  | zero =>
    intro u res hu hf
    have := (h.isCan hu).1.length_le
    omega
  | succ fuel ih =>
    intro u res hu hf
    obtain ⟨g1, g2⟩ := hg u hu
    unfold SuffixAutomaton.dfs
    rw [rd_at d0 hu, ok_bind, rd_at [] (by omega), ok_bind]
    refine Tot.mono (Tot.forEach (P := fun pre (r : List Int) => ∃ R : List Nat, r = res ++ R.map (fun e : Nat => (e : Int) - l) ∧ R.Nodup ∧
      ∀ e, e ∈ R ↔ e ≤ s.length ∧ (s.take e = L u ∨ ∃ v, v ∈ pre ∧ L v <:+ s.take e)) ?_ ?_) ?_
    · cases hc : (at' d0 st.nodes u).cloned with
      | true =>
        rw [if_pos rfl]
        refine ⟨[], by simp, List.nodup_nil, fun e => ?_⟩
        constructor
        · intro h; simp at h
        · rintro ⟨-, he | ⟨v, hv, -⟩⟩
          · have := (h.cl u hu).2 (by rw [← he]; exact List.take_prefix _ _)
            rw [hc] at this
            exact absurd this (by simp)
          · simp at hv
      | false =>
        rw [if_neg (by simp)]
        have hpf := (h.cl u hu).1 hc
        refine ⟨[(L u).length], by rw [h.len u hu]; simp, by simp, fun e => ?_⟩
        rw [List.mem_singleton]
        constructor
        · rintro rfl
          exact ⟨hpf.length_le, Or.inl (List.prefix_iff_eq_take.1 hpf).symm⟩
        · rintro ⟨h1, he | ⟨v, hv, -⟩⟩
          · rw [← he, List.length_take]; omega
          · simp at hv
    · rintro pre v post r e ⟨R, r1, r2, r3⟩
      have hv := (g2 v).1 (by rw [e]; simp)
      have hlt := (h.linkOf hv.1 hv.2).2.lt
      refine Tot.mono (ih v r hv.1 (by omega)) ?_
      rintro r' ⟨R', q1, q2, q3⟩
      refine ⟨R ++ R', by rw [q1, r1]; simp, ?_, fun e' => ?_⟩
      · rw [List.nodup_append]
        refine ⟨r2, q2, ?_⟩
        intro a ha b hb
        rintro rfl
        obtain ⟨a1, a2⟩ := (r3 a).1 ha
        obtain ⟨b1, b2⟩ := (q3 a).1 hb
        rcases a2 with a2 | ⟨w, w1, w2⟩
        · rw [a2] at b2
          exact h.kid_excl hv.1 hv.2 b2
        · have hw := (g2 w).1 (by rw [e]; simp [w1])
          have := h.kid_uniq hw.1 hv.1 hw.2 hv.2 w2 b2
          subst this
          rw [e] at g1
          exact (List.nodup_append.1 g1).2.2 w w1 w (by simp) rfl
      · rw [List.mem_append, r3, q3]
        constructor
        · rintro (⟨a, b | ⟨w, w1, w2⟩⟩ | ⟨a, b⟩)
          · exact ⟨a, Or.inl b⟩
          · exact ⟨a, Or.inr ⟨w, by simp [w1], w2⟩⟩
          · exact ⟨a, Or.inr ⟨v, by simp, b⟩⟩
        · rintro ⟨a, b | ⟨w, w1, w2⟩⟩
          · exact Or.inl ⟨a, Or.inl b⟩
          · rw [List.mem_append, List.mem_singleton] at w1
            rcases w1 with w1 | w1
            · exact Or.inl ⟨a, Or.inr ⟨w, w1, w2⟩⟩
            · exact Or.inr ⟨a, by rw [← w1]; exact w2⟩
    · rintro r ⟨R, r1, r2, r3⟩
      refine ⟨R, r1, r2, fun e => ?_⟩
      rw [r3, h.kids hu (List.take_prefix e s)]
      constructor
      · rintro ⟨a, b | ⟨w, w1, w2⟩⟩
        · exact ⟨a, Or.inl b⟩
        · have := (g2 w).1 w1
          exact ⟨a, Or.inr ⟨w, this.1, this.2, w2⟩⟩
      · rintro ⟨a, b | ⟨w, w1, w2, w3⟩⟩
        · exact ⟨a, Or.inl b⟩
        · exact ⟨a, Or.inr ⟨w, (g2 w).2 ⟨w1, w2⟩, w3⟩⟩

/-- The link's word is shorter than the words of the state, and what lies between has the state's occurrences. -/
theorem Inv.between (h : Inv s st L) {v p : Nat} (hv : v < st.nodes.size) (hl : (at' d0 st.nodes v).link = some p) {z : List α}
    (hz : z <:+ L v) (hlt : (L p).length < z.length) : Cl s z (L v) := by
  obtain ⟨hp, hk⟩ := h.linkOf hv hl
  have hzi : z <:+: s := hz.isInfix.trans (h.isCan hv).1
  obtain ⟨y, hy⟩ := cl_ex hzi
  obtain ⟨t, t1, t2⟩ := occ_of (h.isCan hv).1
  have hyt := hy.2.2.2 t t1 (hz.trans t2)
  rcases Nat.lt_or_ge y.length (L v).length with hlt' | hge
  · have h1 := suf_le hyt t2 hlt'.le
    have h2 := hk.2.2 y hy.2.1 h1 (by rintro rfl; omega)
    have h3 := hy.2.2.1.length_le
    omega
  · have h1 := suf_le t2 hyt hge
    have h2 := can_max (h.isCan hv) h1 fun t t1 t2 => hy.2.2.2 t t1 (hz.trans t2)
    rw [h2]; exact hy

theorem Inv.link_short (h : Inv s st L) {v p : Nat} (hv : v < st.nodes.size) (hl : (at' d0 st.nodes v).link = some p) {y : List α}
    (hy : Cl s y (L v)) : (L p).length < y.length := by
  obtain ⟨hp, hk⟩ := h.linkOf hv hl
  by_contra hcon
  have h1 : y <:+ L p := suf_le hy.2.2.1 hk.1 (by omega)
  exact hk.2.1 (can_max (h.isCan hp) hk.1 fun t t1 t2 => hy.2.2.2 t t1 (h1.trans t2))

/-- `y` is a suffix of `T` in the class of `v`, as long as the suffixes of `T` before `c` in `s`. -/
structure BackInv (s : List α) (st : State α) (L : Nat → List α) (T : List α) (c : α) (x : Nat × Nat) (y : List α) : Prop where
  lt : x.1 < st.nodes.size
  suf : y <:+ T
  len : y.length = x.2
  cl : Cl s y (L x.1)
  max : ∀ z, z <:+ T → z ++ [c] <:+: s → z.length ≤ y.length

theorem Inv.lcsBack (h : Inv s st L) {T : List α} {c : α} {v l : Nat} {y : List α} (h0 : BackInv s st L T c (v, l) y) :
    Tot (loop (lcsBack st.nodes c) st.nodes.size (v, l)) fun x => ∃ y, BackInv s st L T c x y ∧
      ((at' d0 st.nodes x.1).link = none ∨ ∃ u, (at' d0 st.nodes x.1).nxt.lookup c = some u) := by
  refine Tot.loop (P := fun (x : Nat × Nat) => ∃ y, BackInv s st L T c x y) (fun x => (L x.1).length) ?_ ⟨y, h0⟩ ?_
  · rintro ⟨v, l⟩ ⟨y, hy⟩
    have hv := hy.lt
    dsimp only at hv
    unfold SuffixAutomaton.lcsBack
    dsimp only
    rw [rd_at d0 hv, ok_bind]
    cases hl : (at' d0 st.nodes v).link with
    | none => exact ⟨_, rfl, y, hy, Or.inl rfl⟩
    | some p =>
      cases hn : (at' d0 st.nodes v).nxt.lookup c with
      | some u => exact ⟨_, rfl, y, hy, Or.inr ⟨u, rfl⟩⟩
      | none =>
        obtain ⟨hp, hk⟩ := h.linkOf hv hl
        have hcl := hy.cl
        dsimp only at hcl
        have hsh := h.link_short hv hl hcl
        have hsuf : L p <:+ y := suf_le hk.1 hcl.2.2.1 hsh.le
        dsimp only
        rw [rd_at d0 hp, ok_bind]
        refine ⟨_, rfl, ⟨L p, hp, hsuf.trans hy.suf, (h.len p hp).symm, cl_self (h.isCan hp), ?_⟩, ?_⟩
        · intro z z1 z2
          by_contra hcon
          have z3 := suf_le z1 hy.suf (hy.max z z1 z2)
          have z4 := h.between hv hl (z3.trans hcl.2.2.1) (by omega)
          obtain ⟨t, t1, t2⟩ := occ_of z2
          obtain ⟨r, e, r1, r2⟩ := snoc_occ t1 t2
          refine h.nnone v hv c hn (occ_to t1 ?_)
          rw [e]
          exact snoc_suf (z4.2.2.2 r r1 r2)
        · exact hk.lt
  · have := (h.isCan h0.lt).1.length_le
    have := h.many
    omega

/-- The state of `longest_common_substring` after the symbols of `T`. -/
structure LInv (s : List α) (st : State α) (L : Nat → List α) (T : List α) (x : Lcs) : Prop where
  lt : x.v < st.nodes.size
  cur : ∃ y, y <:+ T ∧ y.length = x.l ∧ Cl s y (L x.v) ∧ ∀ z, z <:+ T → z <:+: s → z.length ≤ y.length
  best : ∀ z, z <:+: T → z <:+: s → z.length ≤ x.maxLen
  pos : x.maxLen = 0 ∨ ∃ (w : List α) (e f : Nat), w.length = x.maxLen ∧ x.sEnd = (e : Int) - 1 ∧ e ≤ s.length ∧ w <:+ s.take e ∧
    x.tEnd = (f : Int) - 1 ∧ f ≤ T.length ∧ w <:+ T.take f

theorem Inv.lcsStep (h : Inv s st L) {t : Array α} {i : Nat} (hi : i < t.size) {x : Lcs} (hx : LInv s st L (t.toList.take i) x) :
    Tot (lcsStep st.nodes t i x) fun x' => LInv s st L (t.toList.take (i + 1)) x' := by
  have hil : i < t.toList.length := by simpa using hi
  have eT : t.toList.take (i + 1) = t.toList.take i ++ [t[i]] := by
    rw [List.take_succ_eq_append_getElem hil]; simp
  obtain ⟨c, ec⟩ : ∃ c, c = t[i] := ⟨_, rfl⟩
  rw [← ec] at eT
  have hrd : rd t i = .ok c := by rw [ec]; exact rd_some (by simp [hi])
  unfold SuffixAutomaton.lcsStep
  rw [hrd, ok_bind]
  obtain ⟨y, y1, y2, y3, y4⟩ := hx.cur
  refine Tot.bind (h.lcsBack (T := t.toList.take i) (c := c) (y := y) ⟨hx.lt, y1, y2, y3, fun z z1 z2 =>
    y4 z z1 ((List.prefix_append z [c]).isInfix.trans z2)⟩) ?_
  rintro ⟨v, l⟩ ⟨y, hy, hstop⟩
  have hv := hy.lt
  dsimp only at hv hstop ⊢
  rw [rd_at d0 hv, ok_bind]
  -- the new state
  have key : ∃ y', y' <:+ t.toList.take (i + 1) ∧
      y'.length = (lcsNext (at' d0 st.nodes v).nxt c v l).2 ∧
      (lcsNext (at' d0 st.nodes v).nxt c v l).1 < st.nodes.size ∧
      Cl s y' (L (lcsNext (at' d0 st.nodes v).nxt c v l).1) ∧
      ∀ z, z <:+ t.toList.take (i + 1) → z <:+: s → z.length ≤ y'.length := by
    have hlen := hy.len
    have hcl := hy.cl
    dsimp only at hlen hcl
    unfold lcsNext
    cases hn : (at' d0 st.nodes v).nxt.lookup c with
    | some u =>
      obtain ⟨a, b⟩ := h.nsome v hv c u hn
      refine ⟨y ++ [c], ?_, by simp [hlen], a, cl_snoc (fun t t1 t2 _ => hcl.2.2.2 t t1 t2) hcl.2.2.1 b, ?_⟩
      · rw [eT]; exact snoc_suf hy.suf
      · intro z z1 z2
        rw [eT] at z1
        rcases List.suffix_concat_iff.1 z1 with e | ⟨z', e, hz'⟩
        · rw [e]; simp
        · rw [e] at z2 ⊢
          have := hy.max z' hz' z2
          simp only [List.length_append, List.length_singleton]
          omega
    | none =>
      have hnone := h.nnone v hv c hn
      have hv0 : v = 0 := by
        by_contra hne
        obtain ⟨p, p1, -⟩ := h.link v hv hne
        rcases hstop with hs | ⟨u, hu⟩
        · rw [p1] at hs; exact absurd hs (by simp)
        · rw [hn] at hu; exact absurd hu (by simp)
      have hy0 : y = [] := by
        have := hcl.2.2.1
        rw [hv0, h.L0] at this
        exact List.suffix_nil.1 this
      refine ⟨y, by rw [hy0]; exact List.nil_suffix, hlen, hv, hcl, ?_⟩
      intro z z1 z2
      rw [eT] at z1
      rcases List.suffix_concat_iff.1 z1 with e | ⟨z', e, hz'⟩
      · rw [e]; simp
      · exfalso
        rw [e] at z2
        have := hy.max z' hz' z2
        rw [hy0] at this
        have ez : z' = [] := List.length_eq_zero_iff.1 (by simpa using this)
        rw [ez] at z2
        rw [hv0, h.L0] at hnone
        exact hnone z2
  generalize (lcsNext (at' d0 st.nodes v).nxt c v l) = vl at key ⊢
  obtain ⟨v', l'⟩ := vl
  obtain ⟨y', k1, k2, k3, k4, k5⟩ := key
  dsimp only at k2 k3 k4 ⊢
  have hlT : (t.toList.take (i + 1)).length = i + 1 := by rw [List.length_take]; omega
  have hbest : ∀ z, z <:+: t.toList.take (i + 1) → z <:+: s → z.length ≤ max x.maxLen l' := by
    intro z z1 z2
    rw [eT] at z1
    rcases List.infix_concat_iff.1 z1 with z1 | z1
    · rw [← eT] at z1
      have := k5 z z1 z2
      omega
    · have := hx.best z z1 z2
      omega
  split
  · rename_i hgt
    rw [rd_at d0 k3, ok_bind]
    obtain ⟨e, e1, e2, e3, -⟩ := h.idx v' k3
    refine ⟨_, rfl, k3, ⟨y', k1, k2, k4, k5⟩, fun z z1 z2 => ?_, Or.inr ⟨y', e, i + 1, k2, e1, e3, k4.2.2.1.trans e2, ?_, by omega, ?_⟩⟩
    · have := hbest z z1 z2
      dsimp only; omega
    · dsimp only; push_cast; omega
    · rw [List.take_of_length_le (by omega)]; exact k1
  · rename_i hgt
    refine ⟨_, rfl, k3, ⟨y', k1, k2, k4, k5⟩, fun z z1 z2 => ?_, ?_⟩
    · have := hbest z z1 z2
      dsimp only; omega
    · rcases hx.pos with hp | ⟨w, e, f, w1, w2, w3, w4, w5, w6, w7⟩
      · exact Or.inl hp
      · have hlT' : (t.toList.take i).length = i := by rw [List.length_take]; omega
        refine Or.inr ⟨w, e, f, w1, w2, w3, w4, w5, by omega, ?_⟩
        rw [List.take_take] at w7 ⊢
        rw [show min f (i + 1) = min f i by omega]
        exact w7

theorem at_end {s w : List α} {e : Nat} (he : e ≤ s.length) (h : w <:+ s.take e) : w.length ≤ e ∧ (s.drop (e - w.length)).take w.length = w := by
  have hl := h.length_le
  rw [List.length_take] at hl
  have hle : w.length ≤ e := by omega
  refine ⟨hle, ?_⟩
  have : e - w.length ∈ occs s w := mem_occs.2 ⟨by omega, by rw [show e - w.length + w.length = e by omega]; exact h⟩
  unfold occs at this
  rw [List.mem_filter, decide_eq_true_iff] at this
  exact (List.prefix_iff_eq_take.1 this.2).symm

theorem Inv.lcs (h : Inv s st L) (t : Array α) : Tot (longestCommonSubstring st t) fun r => ∃ a b m : Nat, r = ((a : Int), (b : Int), (m : Int)) ∧
    a + m ≤ s.length ∧ b + m ≤ t.size ∧ (s.drop a).take m = (t.toList.drop b).take m ∧ ∀ z, z <:+: s → z <:+: t.toList → z.length ≤ m := by
  unfold longestCommonSubstring
  by_cases h0 : t.size = 0
  · rw [if_pos h0]
    refine ⟨_, rfl, 0, 0, 0, rfl, by omega, by omega, by simp, fun z _ hz => ?_⟩
    have := hz.length_le
    simp at this
    omega
  rw [if_neg h0]
  refine Tot.bind (Tot.forUp (P := fun i (x : Lcs) => LInv s st L (t.toList.take i) x) (Nat.zero_le _) ?_ ?_) ?_
  · refine ⟨h.pos, ⟨[], by simp, rfl, ?_, fun z hz _ => ?_⟩, fun z hz _ => ?_, Or.inl rfl⟩
    · have := cl_self (h.isCan h.pos)
      rw [h.L0] at this
      dsimp only
      rw [h.L0]
      exact this
    · have := hz.length_le
      simpa using this
    · have := hz.length_le
      simpa using this
  · exact fun i x _ hi hx => h.lcsStep hi hx
  intro x hx
  rw [List.take_of_length_le (by simp)] at hx
  have hb : ∀ z, z <:+: s → z <:+: t.toList → z.length ≤ x.maxLen := fun z z1 z2 => hx.best z z2 z1
  by_cases h1 : x.maxLen = 0
  · rw [if_pos h1]
    rw [h1] at hb
    exact ⟨_, rfl, 0, 0, 0, rfl, by omega, by omega, by simp, hb⟩
  · rw [if_neg h1]
    rcases hx.pos with hp | ⟨w, e, f, w1, w2, w3, w4, w5, w6, w7⟩
    · exact absurd hp h1
    · obtain ⟨a1, a2⟩ := at_end w3 w4
      obtain ⟨b1, b2⟩ := at_end w6 w7
      have hsz : t.toList.length = t.size := by simp
      refine ⟨_, rfl, e - w.length, f - w.length, w.length, ?_, by omega, by omega, by rw [a2, b2], by rw [w1]; exact hb⟩
      rw [w2, w5, ← w1, Int.ofNat_sub a1, Int.ofNat_sub b1]
      refine Prod.ext ?_ (Prod.ext ?_ rfl)
      · dsimp only; omega
      · dsimp only; omega

end

end SuffixAutomaton
