import Verif.Model.SuffixAutomaton
import Verif.Spec.SuffixAutomaton
import Verif.Proof.SuffixAutomatonWords

namespace SuffixAutomaton
open Cxx Spec

variable {α : Type}

/-- The default node. -/
def d0 : Node α := ⟨[], none, 0, false, 0⟩

/-- `y` is the longest canonical proper suffix of `w`. -/
def IsLink (s w y : List α) : Prop := y <:+ w ∧ y ≠ w ∧ ∀ x, Can s x → x <:+ w → x ≠ w → x.length ≤ y.length

/-- Equal but for the transitions. -/
def Eqv (a b : Node α) : Prop := a.link = b.link ∧ a.len = b.len ∧ a.cloned = b.cloned ∧ a.index = b.index

theorem Eqv.refl (a : Node α) : Eqv a a := ⟨rfl, rfl, rfl, rfl⟩

variable [DecidableEq α]

theorem lookup_put (c : α) (x : Nat) (m : List (α × Nat)) (e : α) : (put c x m).lookup e = if e = c then some x else m.lookup e := by
  induction m with
  | nil =>
    unfold put
    rw [List.lookup_cons]
    by_cases h : e = c
    · rw [if_pos h, h, beq_self_eq_true]
    · rw [if_neg h, beq_false_of_ne h]
  | cons p m ih =>
    unfold put
    obtain ⟨k, y⟩ := p
    dsimp only
    by_cases hk : k = c
    · rw [if_pos hk, List.lookup_cons]
      by_cases h : e = c
      · rw [if_pos h, h, beq_self_eq_true]
      · rw [if_neg h, beq_false_of_ne h, List.lookup_cons, beq_false_of_ne (by rw [hk]; exact h)]
    · rw [if_neg hk, List.lookup_cons, List.lookup_cons, ih]
      by_cases h : e = k
      · rw [h, beq_self_eq_true]
        dsimp only
        rw [if_neg hk]
      · rw [beq_false_of_ne h]

theorem put_keys (c : α) (x : Nat) (m : List (α × Nat)) : ∀ e, e ∈ (put c x m).map Prod.fst → e = c ∨ e ∈ m.map Prod.fst := by
  induction m with
  | nil => intro e; simp [put]
  | cons p m ih =>
    intro e he
    unfold put at he
    split at he
    · simp only [List.map_cons, List.mem_cons] at he ⊢
      tauto
    · simp only [List.map_cons, List.mem_cons] at he ⊢
      rcases he with h | h
      · exact Or.inr (Or.inl h)
      · rcases ih e h with h | h
        · exact Or.inl h
        · exact Or.inr (Or.inr h)

theorem put_nodup (c : α) (x : Nat) (m : List (α × Nat)) (h : (m.map Prod.fst).Nodup) : ((put c x m).map Prod.fst).Nodup := by
  induction m with
  | nil => simp [put]
  | cons p m ih =>
    rw [List.map_cons, List.nodup_cons] at h
    unfold put
    split
    · rename_i e
      rw [List.map_cons, List.nodup_cons]
      exact ⟨by dsimp only; rw [← e]; exact h.1, h.2⟩
    · rename_i e
      rw [List.map_cons, List.nodup_cons]
      refine ⟨fun hm => ?_, ih h.2⟩
      rcases put_keys c x m _ hm with h' | h'
      · exact e h'
      · exact h.1 h'

/-- The nodes are the canonical words `L v` of `s`. -/
structure Inv (s : List α) (st : State α) (L : Nat → List α) : Prop where
  pos : 0 < st.nodes.size
  L0 : L 0 = []
  can : ∀ w, Can s w ↔ ∃ v, v < st.nodes.size ∧ L v = w
  inj : ∀ u v, u < st.nodes.size → v < st.nodes.size → L u = L v → u = v
  len : ∀ v, v < st.nodes.size → (at' d0 st.nodes v).len = (L v).length
  link0 : (at' d0 st.nodes 0).link = none
  link : ∀ v, v < st.nodes.size → v ≠ 0 → ∃ u, (at' d0 st.nodes v).link = some u ∧ u < st.nodes.size ∧ IsLink s (L v) (L u)
  nsome : ∀ v, v < st.nodes.size → ∀ e u, (at' d0 st.nodes v).nxt.lookup e = some u → u < st.nodes.size ∧ Cl s (L v ++ [e]) (L u)
  nnone : ∀ v, v < st.nodes.size → ∀ e, (at' d0 st.nodes v).nxt.lookup e = none → ¬ L v ++ [e] <:+: s
  last : st.last < st.nodes.size ∧ L st.last = s
  cl : ∀ v, v < st.nodes.size → ((at' d0 st.nodes v).cloned = false ↔ L v <+: s)
  idx : ∀ v, v < st.nodes.size → ∃ e : Nat, (at' d0 st.nodes v).index = (e : Int) - 1 ∧ L v <:+ s.take e ∧ e ≤ s.length ∧
    ((at' d0 st.nodes v).cloned = false → e = (L v).length)
  keys : ∀ v, v < st.nodes.size → ((at' d0 st.nodes v).nxt.map Prod.fst).Nodup

section
variable {s : List α} {st : State α} {L : Nat → List α}

theorem Inv.node (h : Inv s st L) {w : List α} (hw : Can s w) : ∃ v, v < st.nodes.size ∧ L v = w := (h.can w).1 hw

theorem Inv.isCan (h : Inv s st L) {v : Nat} (hv : v < st.nodes.size) : Can s (L v) := (h.can _).2 ⟨v, hv, rfl⟩

theorem Inv.zero (h : Inv s st L) {v : Nat} (hv : v < st.nodes.size) (e : L v = []) : v = 0 :=
  h.inj v 0 hv h.pos (by rw [e, h.L0])

/-- The next node on the chain of links. -/
theorem Inv.up (h : Inv s st L) {p v : Nat} (hp : p < st.nodes.size) (hv : v < st.nodes.size) (hvp : L v <:+ L p) (hne : v ≠ p) :
    ∃ u, (at' d0 st.nodes p).link = some u ∧ u < st.nodes.size ∧ L v <:+ L u ∧ L u <:+ L p := by
  have hne' : L v ≠ L p := fun e => hne (h.inj _ _ hv hp e)
  have hp0 : p ≠ 0 := by
    rintro rfl
    rw [h.L0] at hvp hne'
    exact hne' (List.suffix_nil.1 hvp)
  obtain ⟨u, u1, u2, u3⟩ := h.link p hp hp0
  exact ⟨u, u1, u2, suf_le hvp u3.1 (u3.2.2 _ (h.isCan hv) hvp hne'), u3.1⟩

/-- The nodes whose transition the first loop sets before `p`. -/
def U (s : List α) (L : Nat → List α) (p : Option Nat) (v : Nat) : Prop := L v <:+ s ∧ ∀ p', p = some p' → (L p').length < (L v).length

theorem walk1_tot (h : Inv s st L) (c : α) {N0 : Array (Node α)} (hs : N0.size = st.nodes.size + 1)
    (h0 : ∀ v, v < st.nodes.size → at' d0 N0 v = at' d0 st.nodes v) :
    Tot (loop (walk1 c st.nodes.size) (s.length + 2) (N0, some st.last)) fun r =>
      r.1.size = st.nodes.size + 1 ∧ at' d0 r.1 st.nodes.size = at' d0 N0 st.nodes.size ∧
      (∀ v, v < st.nodes.size → Eqv (at' d0 r.1 v) (at' d0 st.nodes v)) ∧
      (∀ v, v < st.nodes.size → U s L r.2 v → (at' d0 st.nodes v).nxt.lookup c = none ∧
        (at' d0 r.1 v).nxt = put c st.nodes.size (at' d0 st.nodes v).nxt) ∧
      (∀ v, v < st.nodes.size → ¬ U s L r.2 v → (at' d0 r.1 v).nxt = (at' d0 st.nodes v).nxt) ∧
      ∀ p, r.2 = some p → p < st.nodes.size ∧ L p <:+ s ∧ ∃ q, (at' d0 st.nodes p).nxt.lookup c = some q := by
  obtain ⟨k, hk⟩ : ∃ k, k = st.nodes.size := ⟨_, rfl⟩
  rw [← hk]
  rw [← hk] at hs
  refine Tot.loop (P := fun r : Array (Node α) × Option Nat =>
      r.1.size = k + 1 ∧ at' d0 r.1 k = at' d0 N0 k ∧
      (∀ v, v < k → Eqv (at' d0 r.1 v) (at' d0 st.nodes v)) ∧
      (∀ v, v < k → U s L r.2 v → (at' d0 st.nodes v).nxt.lookup c = none ∧
        (at' d0 r.1 v).nxt = put c k (at' d0 st.nodes v).nxt) ∧
      (∀ v, v < k → ¬ U s L r.2 v → (at' d0 r.1 v).nxt = (at' d0 st.nodes v).nxt) ∧
      ∀ p, r.2 = some p → p < k ∧ L p <:+ s) (μ := fun r => match r.2 with | none => 0 | some p => (L p).length + 1) ?_ ?_ ?_
  · rintro ⟨N, p⟩ ⟨n1, n2, n3, n4, n5, n6⟩
    dsimp only at n1 n2 n3 n4 n5 n6 ⊢
    unfold walk1
    cases p with
    | none => exact Tot.pure ⟨n1, n2, n3, n4, n5, fun p e => absurd e (by simp)⟩
    | some p =>
      dsimp only
      obtain ⟨p1, p2⟩ := n6 p rfl
      have hnu : ¬ U s L (some p) p := fun hu => absurd (hu.2 p rfl) (by omega)
      have hpx := n5 p p1 hnu
      rw [rd_at d0 (by omega), ok_bind, hpx]
      cases hl : (at' d0 st.nodes p).nxt.lookup c with
      | some q =>
        refine Tot.pure ⟨n1, n2, n3, n4, n5, fun p' e => ?_⟩
        injection e with e
        subst e
        exact ⟨p1, p2, q, hl⟩
      | none =>
        dsimp only
        rw [wr_eq (by omega), ok_bind]
        have hlk : (at' d0 N p).link = (at' d0 st.nodes p).link := (n3 p p1).1
        rw [hlk]
        have hU : ∀ v, v < k → (U s L (at' d0 st.nodes p).link v ↔ v = p ∨ U s L (some p) v) := by
          intro v hv
          constructor
          · rintro ⟨a, b⟩
            by_cases e : v = p
            · exact Or.inl e
            · right
              refine ⟨a, fun p' e' => ?_⟩
              injection e' with e'
              subst e'
              by_contra hlt
              obtain ⟨u, u1, u2, u3, _⟩ := h.up (hk ▸ p1) (hk ▸ hv) (suf_le a p2 (by omega)) e
              have := b u u1
              have := u3.length_le
              omega
          · rintro (e | ⟨a, b⟩)
            · subst e
              refine ⟨p2, fun p' e' => ?_⟩
              by_cases e0 : v = 0
              · rw [e0, h.link0] at e'; exact absurd e' (by simp)
              · obtain ⟨u, u1, u2, u3⟩ := h.link v (hk ▸ hv) e0
                rw [u1] at e'
                injection e' with e'
                subst e'
                exact suf_lt u3.1 u3.2.1
            · refine ⟨a, fun p' e' => ?_⟩
              have := b p rfl
              by_cases e0 : p = 0
              · rw [e0, h.link0] at e'; exact absurd e' (by simp)
              · obtain ⟨u, u1, u2, u3⟩ := h.link p (hk ▸ p1) e0
                rw [u1] at e'
                injection e' with e'
                subst e'
                have := u3.1.length_le
                omega
        refine Tot.pure ⟨⟨by simp [n1], ?_, ?_, ?_, ?_, ?_⟩, ?_⟩
        all_goals dsimp only
        · rw [at_set d0 (by omega), if_neg (by omega)]; exact n2
        · intro v hv
          rw [at_set d0 (by omega)]
          split
          · rename_i e; subst e; exact ⟨rfl, (n3 p p1).2⟩
          · exact n3 v hv
        · intro v hv hu
          rw [at_set d0 (by omega)]
          rcases (hU v hv).1 hu with e | e
          · subst e
            rw [if_pos rfl]
            exact ⟨hl, rfl⟩
          · have hne : p ≠ v := by rintro rfl; exact hnu e
            rw [if_neg hne]
            exact n4 v hv e
        · intro v hv hu
          have : p ≠ v := by rintro rfl; exact hu ((hU p hv).2 (Or.inl rfl))
          rw [at_set d0 (by omega), if_neg this]
          exact n5 v hv fun h => hu ((hU v hv).2 (Or.inr h))
        · intro p' e'
          by_cases e0 : p = 0
          · rw [e0, h.link0] at e'; exact absurd e' (by simp)
          · obtain ⟨u, u1, u2, u3⟩ := h.link p (hk ▸ p1) e0
            rw [u1] at e'
            injection e' with e'
            subst e'
            exact ⟨by omega, u3.1.trans p2⟩
        · by_cases e0 : p = 0
          · subst e0; rw [h.link0]; dsimp only; omega
          · obtain ⟨u, u1, u2, u3⟩ := h.link p (hk ▸ p1) e0
            rw [u1]
            dsimp only
            have := suf_lt u3.1 u3.2.1
            omega
  · have hl := h.last
    refine ⟨hs, rfl, fun v hv => by rw [h0 v (by omega)]; exact Eqv.refl _, fun v hv hu => ?_, fun v hv _ => by rw [h0 v (by omega)], fun p e => ?_⟩
    · have h1 := hu.2 _ rfl
      have h2 := hu.1.length_le
      rw [hl.2] at h1
      omega
    · injection e with e
      subst e
      exact ⟨by omega, by rw [hl.2]⟩
  · dsimp only
    rw [h.last.2]
    omega

/-- What is known after the first loop. -/
structure Stop (s : List α) (st : State α) (L : Nat → List α) (c : α) (p : Option Nat) (z : List α) : Prop where
  lng : Lng s c z
  pn : p = none → z = []
  ps : ∀ p', p = some p' → p' < st.nodes.size ∧ L p' <:+ s ∧ z = L p' ++ [c] ∧ ∃ q, (at' d0 st.nodes p').nxt.lookup c = some q
  new : ∀ v, v < st.nodes.size → U s L p v → (at' d0 st.nodes v).nxt.lookup c = none

theorem stop (h : Inv s st L) {c : α} {p : Option Nat}
    (hu : ∀ v, v < st.nodes.size → U s L p v → (at' d0 st.nodes v).nxt.lookup c = none)
    (hp : ∀ p', p = some p' → p' < st.nodes.size ∧ L p' <:+ s ∧ ∃ q, (at' d0 st.nodes p').nxt.lookup c = some q) :
    ∃ z, Stop s st L c p z := by
  obtain ⟨z, hz, hz'⟩ := lng_exists s c
  have key : ∀ x, z = x ++ [c] → x <:+ s → Can s x → ∃ v p', v < st.nodes.size ∧ L v = x ∧ p = some p' ∧ (L v).length ≤ (L p').length := by
    intro x e hx hc
    obtain ⟨v, v1, v2⟩ := h.node hc
    have : ¬ U s L p v := by
      intro hu'
      have := h.nnone v v1 c (hu v v1 hu')
      rw [v2, ← e] at this
      exact this hz.2.1
    by_contra hcon
    apply this
    refine ⟨v2 ▸ hx, fun p' e' => ?_⟩
    by_contra hlt
    exact hcon ⟨v, p', v1, v2, e', by omega⟩
  refine ⟨z, hz, fun e => ?_, fun p' e => ?_, hu⟩
  · rcases hz' with h | ⟨x, e1, hx, hc⟩
    · exact h
    · obtain ⟨v, p', _, _, e2, _⟩ := key x e1 hx hc
      rw [e] at e2; exact absurd e2 (by simp)
  · obtain ⟨p1, p2, q, p3⟩ := hp p' e
    refine ⟨p1, p2, ?_, q, p3⟩
    have h1 := hz.2.2 _ (snoc_suf p2) (h.nsome p' p1 c q p3).2.1
    rcases hz' with h | ⟨x, e1, hx, hc⟩
    · rw [h] at h1; simp at h1
    · obtain ⟨v, p'', v1, v2, e2, v3⟩ := key x e1 hx hc
      rw [e] at e2
      injection e2 with e2
      subst e2
      rw [e1] at h1 ⊢
      simp at h1
      rw [suf_eq hx p2 (by rw [v2] at v3; omega)]

theorem Stop.step1 (_h : Inv s st L) {c : α} {p : Option Nat} {z : List α} (hS : Stop s st L c p z) {v : Nat} (hv : v < st.nodes.size)
    (hu : U s L p v) : Cl (s ++ [c]) (L v ++ [c]) (s ++ [c]) :=
  cl_new (snoc_suf hu.1) (_h.nnone v hv c (hS.new v hv hu))

theorem Stop.short (_h : Inv s st L) {c : α} {p : Option Nat} {z : List α} (hS : Stop s st L c p z) {v : Nat} {e : α}
    (hs : L v ++ [e] <:+ s ++ [c]) (hu : ¬ (U s L p v ∧ e = c)) : e = c ∧ L v <:+ s ∧ ∃ p', p = some p' ∧ L v <:+ L p' := by
  obtain ⟨rfl, hs'⟩ := suf_snoc.1 hs
  clear hs
  rename' hs' => hs
  refine ⟨rfl, hs, ?_⟩
  by_contra hcon
  refine hu ⟨⟨hs, fun p' e => ?_⟩, rfl⟩
  by_contra hlt
  exact hcon ⟨p', e, suf_le hs (hS.ps p' e).2.1 (by omega)⟩

theorem Stop.step2 (h : Inv s st L) {c : α} {p : Option Nat} {z : List α} (hS : Stop s st L c p z) {v : Nat} (hv : v < st.nodes.size) {e : α}
    (hu : ¬ (U s L p v ∧ e = c)) (hl : (at' d0 st.nodes v).nxt.lookup e = none) : ¬ L v ++ [e] <:+: s ++ [c] := by
  intro hi
  have hn := h.nnone v hv e hl
  rcases List.infix_concat_iff.1 hi with hi | hi
  · obtain ⟨rfl, h1, p', e1, h2⟩ := hS.short h hi hu
    apply hn
    have h3 := (hS.ps p' e1).2.2.1
    have h4 := hS.lng.2.1
    rw [h3] at h4
    exact (snoc_suf h2).isInfix.trans h4
  · exact hn hi

theorem walk2_tot (h : Inv s st L) {c : α} {p q clone : Nat} {z : List α} (hS : Stop s st L c (some p) z) (hq : q < st.nodes.size)
    (hzq : Cl s z (L q)) {N0 : Array (Node α)} (hs : N0.size = st.nodes.size + 2)
    (h0 : ∀ v, v < st.nodes.size → ¬ U s L (some p) v → (at' d0 N0 v).nxt = (at' d0 st.nodes v).nxt)
    (h1 : ∀ v, v < st.nodes.size → Eqv (at' d0 N0 v) (at' d0 st.nodes v)) :
    Tot (loop (walk2 c q clone) (s.length + 2) (N0, some p)) fun r =>
      r.1.size = st.nodes.size + 2 ∧ (∀ v, st.nodes.size ≤ v → at' d0 r.1 v = at' d0 N0 v) ∧
      (∀ v, v < st.nodes.size → Eqv (at' d0 r.1 v) (at' d0 st.nodes v)) ∧
      (∀ v, v < st.nodes.size → (L v <:+ L p ∧ (at' d0 st.nodes v).nxt.lookup c = some q) → (at' d0 r.1 v).nxt = put c clone (at' d0 st.nodes v).nxt) ∧
      (∀ v, v < st.nodes.size → ¬ (L v <:+ L p ∧ (at' d0 st.nodes v).nxt.lookup c = some q) → (at' d0 r.1 v).nxt = (at' d0 N0 v).nxt) := by
  obtain ⟨k, hk⟩ : ∃ k, k = st.nodes.size := ⟨_, rfl⟩
  rw [← hk]
  rw [← hk] at hs
  obtain ⟨p1, p2, p3, -⟩ := hS.ps p rfl
  have hUf : ∀ v, L v <:+ L p → ¬ U s L (some p) v := fun v a b => by
    have := b.2 p rfl
    have := a.length_le
    omega
  refine Tot.loop (P := fun r : Array (Node α) × Option Nat =>
      r.1.size = k + 2 ∧ (∀ v, k ≤ v → at' d0 r.1 v = at' d0 N0 v) ∧
      (∀ v, v < k → Eqv (at' d0 r.1 v) (at' d0 st.nodes v)) ∧
      (∀ v, v < k → (L v <:+ L p ∧ (at' d0 st.nodes v).nxt.lookup c = some q) → (∀ p', r.2 = some p' → (L p').length < (L v).length) →
        (at' d0 r.1 v).nxt = put c clone (at' d0 st.nodes v).nxt) ∧
      (∀ v, v < k → (¬ (L v <:+ L p ∧ (at' d0 st.nodes v).nxt.lookup c = some q) ∨ ∃ p', r.2 = some p' ∧ (L v).length ≤ (L p').length) →
        (at' d0 r.1 v).nxt = (at' d0 N0 v).nxt) ∧
      ∀ p', r.2 = some p' → p' < k ∧ L p' <:+ L p) (μ := fun r => match r.2 with | none => 0 | some p => (L p).length + 1) ?_ ?_ ?_
  · rintro ⟨N, o⟩ ⟨n1, n2, n3, n4, n5, n6⟩
    dsimp only at n1 n2 n3 n4 n5 n6 ⊢
    unfold walk2
    cases o with
    | none => exact Tot.pure ⟨n1, n2, n3, fun v hv hR => n4 v hv hR fun p' e => absurd e (by simp), fun v hv hR => n5 v hv (Or.inl hR)⟩
    | some u =>
      dsimp only
      obtain ⟨u1, u2⟩ := n6 u rfl
      have hx : (at' d0 N u).nxt = (at' d0 st.nodes u).nxt := by
        rw [n5 u u1 (Or.inr ⟨u, rfl, Nat.le_refl _⟩), h0 u (by omega) (hUf u u2)]
      rw [rd_at d0 (by omega), ok_bind, hx]
      have huz : L u ++ [c] <:+ z := by rw [p3]; exact snoc_suf u2
      unfold get
      cases hl : (at' d0 st.nodes u).nxt.lookup c with
      | none =>
        exact absurd (huz.isInfix.trans hS.lng.2.1) (h.nnone u (by omega) c hl)
      | some y =>
        simp only [pure_eq, ok_bind]
        obtain ⟨y1, y2⟩ := h.nsome u (by omega) c y hl
        by_cases hy : y = q
        · subst hy
          rw [if_pos rfl, wr_eq (by omega), ok_bind, (n3 u u1).1]
          have hlt : ∀ p', (at' d0 st.nodes u).link = some p' → p' < k ∧ L p' <:+ L u ∧ (L p').length < (L u).length := by
            intro p' e'
            by_cases e0 : u = 0
            · rw [e0, h.link0] at e'; exact absurd e' (by simp)
            · obtain ⟨u', w1, w2, w3⟩ := h.link u (by omega) e0
              rw [w1] at e'
              injection e' with e'
              subst e'
              exact ⟨by omega, w3.1, suf_lt w3.1 w3.2.1⟩
          refine Tot.pure ⟨⟨by simp [n1], ?_, ?_, ?_, ?_, ?_⟩, ?_⟩
          all_goals dsimp only
          · intro v hv; rw [at_set d0 (by omega), if_neg (by omega)]; exact n2 v hv
          · intro v hv
            rw [at_set d0 (by omega)]
            split
            · rename_i e; subst e; exact ⟨rfl, (n3 u u1).2⟩
            · exact n3 v hv
          · intro v hv hR hb
            rw [at_set d0 (by omega)]
            split
            · rename_i e; subst e; rfl
            · rename_i e
              refine n4 v hv hR fun p' e' => ?_
              injection e' with e'
              subst e'
              by_contra hle
              obtain ⟨u', w1, w2, w3, _⟩ := h.up (by omega : u < _) (by omega) (suf_le hR.1 u2 (by omega)) (fun e' => e e'.symm)
              have := hb u' w1
              have := w3.length_le
              omega
          · intro v hv hR
            have hne : ¬ u = v := by
              rintro rfl
              rcases hR with hR | ⟨p', a, b⟩
              · exact hR ⟨u2, hl⟩
              · have := (hlt p' a).2.2
                omega
            rw [at_set d0 (by omega), if_neg hne]
            refine n5 v hv ?_
            rcases hR with hR | ⟨p', a, b⟩
            · exact Or.inl hR
            · have := (hlt p' a).2.2
              exact Or.inr ⟨u, rfl, by omega⟩
          · intro p' e'
            exact ⟨(hlt p' e').1, (hlt p' e').2.1.trans u2⟩
          · cases hlk : (at' d0 st.nodes u).link with
            | none => dsimp only; omega
            | some p' => dsimp only; have := (hlt p' hlk).2.2; omega
        · rw [if_neg hy]
          refine Tot.pure ⟨n1, n2, n3, fun v hv hR => n4 v hv hR fun p' e => ?_, fun v hv hR => n5 v hv (Or.inl hR)⟩
          injection e with e
          subst e
          by_contra hle
          have h1 := suf_le hR.1 u2 (by omega)
          have h2 := (h.nsome v (by omega) c q hR.2).2
          have h3 := cl_between h2 (snoc_suf h1) (huz.trans hzq.2.2.1)
          exact hy (h.inj _ _ y1 hq (cl_unique y2 h3))
  · refine ⟨hs, fun _ _ => rfl, fun v hv => h1 v (by omega), fun v hv hR hb => ?_, fun v _ _ => rfl, fun p' e => ?_⟩
    · have := hb p rfl
      have := hR.1.length_le
      omega
    · injection e with e
      subst e
      exact ⟨by omega, List.suffix_refl _⟩
  · dsimp only
    have := p2.length_le
    omega

theorem Inv.le (h : Inv s st L) {v : Nat} (hv : v < st.nodes.size) : (L v).length ≤ s.length := (h.isCan hv).1.length_le

theorem Inv.ne_new (h : Inv s st L) {v : Nat} (hv : v < st.nodes.size) (c : α) : L v ≠ s ++ [c] := by
  intro e
  have := h.le hv
  rw [e] at this
  simp at this
  omega

theorem Inv.cl_step (h : Inv s st L) {v : Nat} (hv : v < st.nodes.size) (c : α) :
    (at' d0 st.nodes v).cloned = false ↔ L v <+: s ++ [c] := by
  rw [h.cl v hv]
  constructor
  · exact pre_mono c
  · intro hp
    rcases pre_cases hp with e | e
    · exact e
    · exact absurd e (h.ne_new hv c)

theorem Inv.idx_step (h : Inv s st L) {v : Nat} (hv : v < st.nodes.size) (c : α) : ∃ e : Nat, (at' d0 st.nodes v).index = (e : Int) - 1 ∧
    L v <:+ (s ++ [c]).take e ∧ e ≤ (s ++ [c]).length ∧ ((at' d0 st.nodes v).cloned = false → e = (L v).length) := by
  obtain ⟨e, e1, e2, e3, e4⟩ := h.idx v hv
  exact ⟨e, e1, by rw [List.take_append_of_le_length e3]; exact e2, by simp; omega, e4⟩

theorem caseA (h : Inv s st L) {c : α} {p : Option Nat} {z : List α} {q k : Nat} {M : Array (Node α)} (hk : k = st.nodes.size) (hS : Stop s st L c p z)
    (hq : q < k) (hqz : L q = z) (m1 : M.size = k + 1)
    (m2 : at' d0 M k = ⟨[], some q, s.length + 1, false, s.length⟩)
    (m3 : ∀ v, v < k → Eqv (at' d0 M v) (at' d0 st.nodes v))
    (m4 : ∀ v, v < k → U s L p v → (at' d0 M v).nxt = put c k (at' d0 st.nodes v).nxt)
    (m5 : ∀ v, v < k → ¬ U s L p v → (at' d0 M v).nxt = (at' d0 st.nodes v).nxt) :
    ∃ L', Inv (s ++ [c]) ⟨M, k⟩ L' := by
  obtain ⟨L', hL'⟩ : ∃ L' : Nat → List α, L' = fun v => if v = k then s ++ [c] else L v := ⟨_, rfl⟩
  have wk : L' k = s ++ [c] := by rw [hL']; exact if_pos rfl
  have wlt : ∀ v, v < k → L' v = L v := fun v hv => by rw [hL']; exact if_neg (by omega)
  have h0 := h.pos
  have hzc : Can s z := hqz ▸ h.isCan (by omega)
  have hcan : ∀ w, Can (s ++ [c]) w ↔ Can s w ∨ w = s ++ [c] := by
    intro w
    constructor
    · intro hw
      rcases can_cases hS.lng hw with e | e | e
      · exact Or.inl e
      · exact Or.inr e
      · rw [e]; exact Or.inl hzc
    · rintro (e | e)
      · exact can_mono c e
      · rw [e]; exact can_prefix (List.prefix_refl _)
  have hlt : ∀ v e u, v < k → ¬ (U s L p v ∧ e = c) → (at' d0 st.nodes v).nxt.lookup e = some u → Cl (s ++ [c]) (L v ++ [e]) (L u) := by
    intro v e u hv _ hl
    obtain ⟨u1, u2⟩ := h.nsome v (by omega) e u hl
    refine cl_keep u2 fun hx => ?_
    by_contra hno
    obtain ⟨_, g2, _⟩ := cl_split hS.lng u2 hx hno
    rw [cl_unique g2 (cl_self hzc)] at hno
    exact hno hS.lng.1
  refine ⟨L', ?_⟩
  refine ⟨by dsimp only; omega, by rw [wlt 0 (by omega)]; exact h.L0, ?_, ?_, ?_, ?_, ?_, ?_, ?_, ?_, ?_, ?_, ?_⟩
  all_goals dsimp only
  all_goals try rw [m1]
  · intro w
    rw [hcan]
    constructor
    · rintro (e | e)
      · obtain ⟨v, v1, v2⟩ := h.node e
        exact ⟨v, by omega, by rw [wlt v (by omega)]; exact v2⟩
      · exact ⟨k, by omega, by rw [wk, e]⟩
    · rintro ⟨v, v1, v2⟩
      by_cases e : v = k
      · rw [e, wk] at v2; exact Or.inr v2.symm
      · rw [wlt v (by omega)] at v2; exact Or.inl (v2 ▸ h.isCan (by omega))
  · intro u v hu hv e
    by_cases e1 : u = k <;> by_cases e2 : v = k
    · omega
    · rw [e1, wk, wlt v (by omega)] at e; exact absurd e.symm (h.ne_new (by omega) c)
    · rw [e2, wk, wlt u (by omega)] at e; exact absurd e (h.ne_new (by omega) c)
    · rw [wlt u (by omega), wlt v (by omega)] at e; exact h.inj u v (by omega) (by omega) e
  · intro v hv
    by_cases e : v = k
    · rw [e, m2, wk]; simp
    · rw [(m3 v (by omega)).2.1, wlt v (by omega), h.len v (by omega)]
  · rw [(m3 0 (by omega)).1]; exact h.link0
  · intro v hv hv0
    by_cases e : v = k
    · rw [e, m2]
      refine ⟨q, rfl, by omega, ?_⟩
      rw [wk, wlt q hq, hqz]
      refine ⟨hS.lng.1, fun e => ?_, fun x hx hxs hne => ?_⟩
      · have := h.ne_new (by omega : q < _) c
        rw [hqz] at this
        exact this e
      · rcases (hcan x).1 hx with e | e
        · exact hS.lng.2.2 x hxs e.1
        · exact absurd e hne
    · obtain ⟨u, u1, u2, u3⟩ := h.link v (by omega) hv0
      refine ⟨u, by rw [(m3 v (by omega)).1]; exact u1, by omega, ?_⟩
      rw [wlt v (by omega), wlt u (by omega)]
      refine ⟨u3.1, u3.2.1, fun x hx hxs hne => ?_⟩
      rcases (hcan x).1 hx with e | e
      · exact u3.2.2 x e hxs hne
      · have := hxs.length_le
        have := h.le (by omega : v < _)
        rw [e] at *
        simp at *; omega
  · intro v hv e u hl
    by_cases ev : v = k
    · rw [ev, m2] at hl; simp at hl
    · by_cases hu : U s L p v
      · rw [m4 v (by omega) hu, lookup_put] at hl
        split at hl
        · rename_i ec
          injection hl with hl
          rw [← hl, wk, wlt v (by omega), ec]
          exact ⟨by omega, hS.step1 h (by omega) hu⟩
        · rename_i ec
          have := (h.nsome v (by omega) e u hl).1
          rw [wlt v (by omega), wlt u (by omega)]
          exact ⟨by omega, hlt v e u (by omega) (fun h => ec h.2) hl⟩
      · rw [m5 v (by omega) hu] at hl
        have := (h.nsome v (by omega) e u hl).1
        rw [wlt v (by omega), wlt u (by omega)]
        exact ⟨by omega, hlt v e u (by omega) (fun h => hu h.1) hl⟩
  · intro v hv e hl
    by_cases ev : v = k
    · rw [ev, wk]
      intro hi
      have := hi.length_le
      simp at this
    · rw [wlt v (by omega)]
      by_cases hu : U s L p v
      · rw [m4 v (by omega) hu, lookup_put] at hl
        split at hl
        · exact absurd hl (by simp)
        · rename_i ec
          exact hS.step2 h (by omega) (fun h => ec h.2) hl
      · rw [m5 v (by omega) hu] at hl
        exact hS.step2 h (by omega) (fun h => hu h.1) hl
  · exact ⟨by omega, wk⟩
  · intro v hv
    by_cases e : v = k
    · rw [e, m2, wk]; simp
    · rw [(m3 v (by omega)).2.2.1, wlt v (by omega)]; exact h.cl_step (by omega) c
  · intro v hv
    by_cases e : v = k
    · rw [e, m2, wk]
      exact ⟨s.length + 1, by dsimp only; omega, by rw [List.take_of_length_le (by simp)], by simp, fun _ => by simp⟩
    · rw [(m3 v (by omega)).2.2.1, (m3 v (by omega)).2.2.2, wlt v (by omega)]; exact h.idx_step (by omega) c
  · intro v hv
    by_cases e : v = k
    · rw [e, m2]; simp
    · by_cases hu : U s L p v
      · rw [m4 v (by omega) hu]; exact put_nodup _ _ _ (h.keys v (by omega))
      · rw [m5 v (by omega) hu]; exact h.keys v (by omega)

/-- The transitions of a node after the first loop. -/
theorem caseB (h : Inv s st L) {c : α} {p q k : Nat} {z : List α} {M : Array (Node α)} {qx : List (α × Nat)} (hk : k = st.nodes.size)
    (hS : Stop s st L c (some p) z)
    (hq : q < k) (hcl : Cl s z (L q)) (hne : z ≠ L q) (m1 : M.size = k + 2)
    (m2 : at' d0 M k = ⟨[], some (k + 1), s.length + 1, false, s.length⟩)
    (m2' : at' d0 M (k + 1) = ⟨qx, (at' d0 st.nodes q).link, z.length, true, s.length⟩) (hqx : qx = (at' d0 M q).nxt)
    (m3 : ∀ v, v < k → (at' d0 M v).link = (if v = q then some (k + 1) else (at' d0 st.nodes v).link) ∧
      (at' d0 M v).len = (at' d0 st.nodes v).len ∧ (at' d0 M v).cloned = (at' d0 st.nodes v).cloned ∧ (at' d0 M v).index = (at' d0 st.nodes v).index)
    (m4 : ∀ v, v < k → U s L (some p) v → (at' d0 M v).nxt = put c k (at' d0 st.nodes v).nxt)
    (m6 : ∀ v, v < k → (L v <:+ L p ∧ (at' d0 st.nodes v).nxt.lookup c = some q) → (at' d0 M v).nxt = put c (k + 1) (at' d0 st.nodes v).nxt)
    (m5 : ∀ v, v < k → ¬ U s L (some p) v → ¬ (L v <:+ L p ∧ (at' d0 st.nodes v).nxt.lookup c = some q) → (at' d0 M v).nxt = (at' d0 st.nodes v).nxt) :
    ∃ L', Inv (s ++ [c]) ⟨M, k⟩ L' := by
  obtain ⟨L', hL'⟩ : ∃ L' : Nat → List α, L' = fun v => if v = k then s ++ [c] else if v = k + 1 then z else L v := ⟨_, rfl⟩
  have wk : L' k = s ++ [c] := by rw [hL']; exact if_pos rfl
  have wz : L' (k + 1) = z := by rw [hL']; simp
  have wlt : ∀ v, v < k → L' v = L v := fun v hv => by rw [hL']; dsimp only; rw [if_neg (by omega), if_neg (by omega)]
  have h0 := h.pos
  obtain ⟨p1, p2, p3, -⟩ := hS.ps p rfl
  have hzq : z <:+ L q := hcl.2.2.1
  have hzl : z.length < (L q).length := suf_lt hzq hne
  have hql : (L q).length ≤ s.length := h.le (by omega)
  have hzn : z ≠ [] := by rw [p3]; simp
  have hzc : ¬ Can s z := fun hc => hne (cl_unique (cl_self hc) hcl)
  have hzs : z ≠ s ++ [c] := by
    intro e
    rw [e] at hzl
    simp at hzl
    omega
  have hqs : ¬ L q <:+ s ++ [c] := fun hc => by
    have := hS.lng.2.2 _ hc (h.isCan (by omega)).1
    omega
  have hq0 : q ≠ 0 := by rintro rfl; rw [h.L0] at hzl; simp at hzl
  have hcan : ∀ w, Can (s ++ [c]) w ↔ Can s w ∨ w = s ++ [c] ∨ w = z := by
    intro w
    constructor
    · exact can_cases hS.lng
    · rintro (e | e | e)
      · exact can_mono c e
      · rw [e]; exact can_prefix (List.prefix_refl _)
      · rw [e]; exact can_lng hS.lng
  have hLz : ∀ v, v < k → L v ≠ z := fun v hv e => hzc (e ▸ h.isCan (by omega))
  have hLs : ∀ v, v < k → L v ≠ s ++ [c] := fun v hv => h.ne_new (by omega) c
  have hpr : ∀ v, v < k → ∀ x, Can (s ++ [c]) x → x <:+ L v → Can s x ∨ x = z := by
    intro v hv x hx hxs
    rcases (hcan x).1 hx with e | e | e
    · exact Or.inl e
    · have := hxs.length_le
      have := h.le (by omega : v < _)
      rw [e] at *
      simp at *; omega
    · exact Or.inr e
  obtain ⟨lq, lq1, lq2, lq3⟩ := h.link q (by omega) hq0
  have hlqz : L lq <:+ z ∧ (L lq).length < z.length := by
    rcases Nat.lt_or_ge (L lq).length z.length with hl | hl
    · exact ⟨suf_le lq3.1 hzq hl.le, hl⟩
    · exfalso
      have hb := cl_between hcl (suf_le hzq lq3.1 hl) lq3.1
      exact lq3.2.1 (cl_unique (cl_self (h.isCan lq2)) hb)
  have main : ∀ v, v < k → ∀ e u, (at' d0 M v).nxt.lookup e = some u → u < k + 2 ∧ Cl (s ++ [c]) (L v ++ [e]) (L' u) := by
    intro v hv e u hl
    by_cases hu : U s L (some p) v
    · rw [m4 v hv hu, lookup_put] at hl
      split at hl
      · rename_i ec
        injection hl with hl
        rw [← hl, wk, ec]
        exact ⟨by omega, hS.step1 h (by omega) hu⟩
      · rename_i ec
        obtain ⟨u1, u2⟩ := h.nsome v (by omega) e u hl
        rw [wlt u (by omega)]
        exact ⟨by omega, cl_keep u2 fun hx => absurd (suf_snoc.1 hx).1 ec⟩
    · by_cases hR : L v <:+ L p ∧ (at' d0 st.nodes v).nxt.lookup c = some q
      · rw [m6 v hv hR, lookup_put] at hl
        split at hl
        · rename_i ec
          injection hl with hl
          obtain ⟨_, u2⟩ := h.nsome v (by omega) c q hR.2
          rw [← hl, wz, ec]
          refine ⟨by omega, (cl_split hS.lng u2 ?_ hqs).2.2⟩
          exact snoc_suf (hR.1.trans p2)
        · rename_i ec
          obtain ⟨u1, u2⟩ := h.nsome v (by omega) e u hl
          rw [wlt u (by omega)]
          exact ⟨by omega, cl_keep u2 fun hx => absurd (suf_snoc.1 hx).1 ec⟩
      · rw [m5 v hv hu hR] at hl
        obtain ⟨u1, u2⟩ := h.nsome v (by omega) e u hl
        rw [wlt u (by omega)]
        refine ⟨by omega, cl_keep u2 fun hx => ?_⟩
        by_contra hno
        obtain ⟨g1, g2, _⟩ := cl_split hS.lng u2 hx hno
        obtain ⟨ec, hvs⟩ := suf_snoc.1 hx
        subst ec
        have huq : u = q := h.inj _ _ u1 (by omega) (cl_unique g2 hcl)
        rw [p3] at g1
        exact hR ⟨(suf_snoc.1 g1).2, by rw [hl, huq]⟩
  have main0 : ∀ v, v < k → ∀ e, (at' d0 M v).nxt.lookup e = none → ¬ L v ++ [e] <:+: s ++ [c] := by
    intro v hv e hl
    by_cases hu : U s L (some p) v
    · rw [m4 v hv hu, lookup_put] at hl
      split at hl
      · exact absurd hl (by simp)
      · rename_i ec
        exact hS.step2 h (by omega) (fun h => ec h.2) hl
    · by_cases hR : L v <:+ L p ∧ (at' d0 st.nodes v).nxt.lookup c = some q
      · rw [m6 v hv hR, lookup_put] at hl
        split at hl
        · exact absurd hl (by simp)
        · exact hS.step2 h (by omega) (fun h => hu h.1) hl
      · rw [m5 v hv hu hR] at hl
        exact hS.step2 h (by omega) (fun h => hu h.1) hl
  have hocc : ∀ t, t <+: s ++ [c] → z <:+ t → t ≠ s ++ [c] → L q <:+ t := by
    intro t t1 t2 t3
    rcases pre_cases t1 with e | e
    · exact hcl.2.2.2 t e t2
    · exact absurd e t3
  refine ⟨L', ?_⟩
  refine ⟨by dsimp only; omega, by rw [wlt 0 (by omega)]; exact h.L0, ?_, ?_, ?_, ?_, ?_, ?_, ?_, ?_, ?_, ?_, ?_⟩
  all_goals dsimp only
  all_goals try rw [m1]
  · intro w
    rw [hcan]
    constructor
    · rintro (e | e | e)
      · obtain ⟨v, v1, v2⟩ := h.node e
        exact ⟨v, by omega, by rw [wlt v (by omega)]; exact v2⟩
      · exact ⟨k, by omega, by rw [wk, e]⟩
      · exact ⟨k + 1, by omega, by rw [wz, e]⟩
    · rintro ⟨v, v1, v2⟩
      by_cases e : v = k
      · rw [e, wk] at v2; exact Or.inr (Or.inl v2.symm)
      · by_cases e' : v = k + 1
        · rw [e', wz] at v2; exact Or.inr (Or.inr v2.symm)
        · rw [wlt v (by omega)] at v2; exact Or.inl (v2 ▸ h.isCan (by omega))
  · have key : ∀ v, v < k + 2 → v = k ∨ v = k + 1 ∨ v < k := fun v hv => by omega
    intro u v hu hv e
    rcases key u hu with a | a | a <;> rcases key v hv with b | b | b
    · omega
    · rw [a, b, wk, wz] at e; exact absurd e.symm hzs
    · rw [a, wk, wlt v b] at e; exact absurd e.symm (hLs v b)
    · rw [a, b, wk, wz] at e; exact absurd e hzs
    · omega
    · rw [a, wz, wlt v b] at e; exact absurd e.symm (hLz v b)
    · rw [b, wk, wlt u a] at e; exact absurd e (hLs u a)
    · rw [b, wz, wlt u a] at e; exact absurd e (hLz u a)
    · rw [wlt u a, wlt v b] at e; exact h.inj u v (by omega) (by omega) e
  · intro v hv
    by_cases e : v = k
    · rw [e, m2, wk]; simp
    · by_cases e' : v = k + 1
      · rw [e', m2', wz]
      · rw [(m3 v (by omega)).2.1, wlt v (by omega), h.len v (by omega)]
  · rw [(m3 0 (by omega)).1, if_neg (by omega)]; exact h.link0
  · intro v hv hv0
    by_cases e : v = k
    · rw [e, m2]
      refine ⟨k + 1, rfl, by omega, ?_⟩
      rw [wk, wz]
      refine ⟨hS.lng.1, hzs, fun x hx hxs hne => ?_⟩
      rcases (hcan x).1 hx with e | e | e
      · exact hS.lng.2.2 x hxs e.1
      · exact absurd e hne
      · rw [e]
    · by_cases e' : v = k + 1
      · rw [e', m2']
        refine ⟨lq, lq1, by omega, ?_⟩
        rw [wz, wlt lq (by omega)]
        refine ⟨hlqz.1, fun e => by rw [e] at hlqz; omega, fun x hx hxs hne => ?_⟩
        rcases hpr q hq x hx (hxs.trans hzq) with e | e
        · refine lq3.2.2 x e (hxs.trans hzq) fun e => ?_
          have := hxs.length_le
          rw [e] at this
          omega
        · exact absurd e hne
      · rw [(m3 v (by omega)).1]
        by_cases eq : v = q
        · rw [if_pos eq]
          refine ⟨k + 1, rfl, by omega, ?_⟩
          rw [eq, wlt q hq, wz]
          refine ⟨hzq, hne, fun x hx hxs hne => ?_⟩
          rcases hpr q hq x hx hxs with e | e
          · have := lq3.2.2 x e hxs hne
            omega
          · rw [e]
        · rw [if_neg eq]
          obtain ⟨u, u1, u2, u3⟩ := h.link v (by omega) hv0
          refine ⟨u, u1, by omega, ?_⟩
          rw [wlt v (by omega), wlt u (by omega)]
          refine ⟨u3.1, u3.2.1, fun x hx hxs hne => ?_⟩
          rcases hpr v (by omega) x hx hxs with e | e
          · exact u3.2.2 x e hxs hne
          · subst e
            obtain ⟨t, t1, t2⟩ := occ_of (h.isCan (by omega : v < _)).1
            have hqt := hcl.2.2.2 t t1 (hxs.trans t2)
            rcases Nat.le_total (L v).length (L q).length with hl | hl
            · exfalso
              have hb := cl_between hcl hxs (suf_le t2 hqt hl)
              exact eq (h.inj _ _ (by omega) (by omega) (cl_unique (cl_self (h.isCan (by omega))) hb))
            · have := u3.2.2 (L q) (h.isCan (by omega)) (suf_le hqt t2 hl) (fun e => eq (h.inj _ _ (by omega) (by omega) e.symm))
              omega
  · intro v hv e u hl
    by_cases ev : v = k
    · rw [ev, m2] at hl; simp at hl
    · by_cases ev' : v = k + 1
      · rw [ev', m2', hqx] at hl
        dsimp only at hl
        obtain ⟨u1, u2⟩ := main q hq e u hl
        rw [ev', wz]
        exact ⟨u1, cl_snoc hocc hzq u2⟩
      · rw [wlt v (by omega)]
        exact main v (by omega) e u hl
  · intro v hv e hl
    by_cases ev : v = k
    · rw [ev, wk]
      intro hi
      have := hi.length_le
      simp at this
    · by_cases ev' : v = k + 1
      · rw [ev', m2', hqx] at hl
        dsimp only at hl
        have hn := main0 q hq e hl
        rw [ev', wz]
        intro hi
        obtain ⟨t, t1, t2⟩ := occ_of hi
        obtain ⟨r, e1, r1, r2⟩ := snoc_occ t1 t2
        apply hn
        refine occ_to t1 ?_
        rw [e1]
        refine snoc_suf (hocc r r1 r2 ?_)
        rintro rfl
        have := t1.length_le
        rw [e1] at this
        simp at this
      · rw [wlt v (by omega)]
        exact main0 v (by omega) e hl
  · exact ⟨by omega, wk⟩
  · intro v hv
    by_cases e : v = k
    · rw [e, m2, wk]; simp
    · by_cases e' : v = k + 1
      · rw [e', m2', wz]
        refine ⟨fun h => absurd h (by simp), fun hp => ?_⟩
        exfalso
        rcases pre_cases hp with e | e
        · have := (hcl.2.2.2 z e (List.suffix_refl _)).length_le
          omega
        · exact hzs e
      · rw [(m3 v (by omega)).2.2.1, wlt v (by omega)]; exact h.cl_step (by omega) c
  · intro v hv
    by_cases e : v = k
    · rw [e, m2, wk]
      exact ⟨s.length + 1, by dsimp only; omega, by rw [List.take_of_length_le (by simp)], by simp, fun _ => by simp⟩
    · by_cases e' : v = k + 1
      · rw [e', m2', wz]
        exact ⟨s.length + 1, by dsimp only; omega, by rw [List.take_of_length_le (by simp)]; exact hS.lng.1, by simp, fun h => absurd h (by simp)⟩
      · rw [(m3 v (by omega)).2.2.1, (m3 v (by omega)).2.2.2, wlt v (by omega)]; exact h.idx_step (by omega) c
  · have key : ∀ v, v < k → ((at' d0 M v).nxt.map Prod.fst).Nodup := by
      intro v hv
      by_cases hu : U s L (some p) v
      · rw [m4 v hv hu]; exact put_nodup _ _ _ (h.keys v (by omega))
      · by_cases hR : L v <:+ L p ∧ (at' d0 st.nodes v).nxt.lookup c = some q
        · rw [m6 v hv hR]; exact put_nodup _ _ _ (h.keys v (by omega))
        · rw [m5 v hv hu hR]; exact h.keys v (by omega)
    intro v hv
    by_cases e : v = k
    · rw [e, m2]; simp
    · by_cases e' : v = k + 1
      · rw [e', m2']; dsimp only; rw [hqx]; exact key q hq
      · exact key v (by omega)

omit [DecidableEq α] in
theorem atPush (a : Array (Node α)) (x : Node α) (i : Nat) : at' d0 (a.push x) i = if i = a.size then x else at' d0 a i := by
  unfold at'
  rw [Array.getElem?_push]
  split <;> rfl

omit [DecidableEq α] in
theorem setLink_eq {N : Array (Node α)} {i : Nat} (l : Nat) (hi : i < N.size) :
    setLink N i l = .ok (N.setIfInBounds i { at' d0 N i with link := some l }) := by
  unfold setLink
  rw [rd_at d0 hi, ok_bind, wr_eq hi]

theorem append_tot (h : Inv s st L) (c : α) : Tot (append st c) fun st' => ∃ L', Inv (s ++ [c]) st' L' := by
  have h0 := h.pos
  obtain ⟨l1, l2⟩ := h.last
  have hlen : (at' d0 st.nodes st.last).len = s.length := by rw [h.len _ l1, l2]
  have hidx : (at' d0 st.nodes st.last).index + 1 = s.length := by
    obtain ⟨e, e1, _, _, e2⟩ := h.idx _ l1
    have := e2 ((h.cl _ l1).2 (by rw [l2]))
    rw [l2] at this
    omega
  unfold append
  rw [rd_at d0 l1, ok_bind]
  dsimp only
  rw [hlen, hidx]
  obtain ⟨k, hk⟩ : ∃ k, k = st.nodes.size := ⟨_, rfl⟩
  refine Tot.bind (walk1_tot h c (by simp) fun v hv => by rw [atPush, if_neg (by omega)]) ?_
  rintro ⟨N, p⟩ ⟨n1, n2, n3, n4, n5, n6⟩
  dsimp only at n1 n2 n3 n4 n5 n6
  rw [atPush, if_pos rfl] at n2
  obtain ⟨z, hS⟩ := stop h (fun v hv hu => (n4 v hv hu).1) n6
  dsimp only
  have link : ∀ q, q < st.nodes.size → L q = z → Tot (do
      let nodes ← setLink N st.nodes.size q
      return (⟨nodes, st.nodes.size⟩ : State α)) fun st' => ∃ L', Inv (s ++ [c]) st' L' := by
    intro q hq hqz
    rw [setLink_eq q (by omega), ok_bind, n2]
    refine Tot.pure (caseA h rfl hS hq hqz (by simp [n1]) (by rw [at_set d0 (by omega), if_pos rfl]) ?_ ?_ ?_)
    · intro v hv
      rw [at_set d0 (by omega), if_neg (by omega)]; exact n3 v hv
    · intro v hv hu
      rw [at_set d0 (by omega), if_neg (by omega)]; exact (n4 v hv hu).2
    · intro v hv hu
      rw [at_set d0 (by omega), if_neg (by omega)]; exact n5 v hv hu
  cases p with
  | none => exact link 0 h0 (by rw [h.L0, hS.pn rfl])
  | some p =>
    dsimp only
    obtain ⟨p1, p2, p3, q, hq⟩ := hS.ps p rfl
    obtain ⟨q1, q2⟩ := h.nsome p p1 c q hq
    rw [← p3] at q2
    have hnu : ¬ U s L (some p) p := fun hu => absurd (hu.2 p rfl) (by omega)
    have hzl : z.length = (L p).length + 1 := by rw [p3]; simp
    rw [rd_at d0 (by omega : p < N.size), ok_bind, n5 p p1 hnu]
    unfold get
    rw [hq]
    simp only [pure_eq, ok_bind]
    rw [rd_at d0 (by omega : q < N.size), ok_bind, (n3 p p1).2.1, (n3 q q1).2.1, h.len p p1, h.len q q1]
    by_cases he : (L p).length + 1 = (L q).length
    · rw [if_pos he]
      exact link q q1 (q2.2.2.1.eq_of_length (by omega)).symm
    · rw [if_neg he]
      refine Tot.bind (walk2_tot h hS q1 q2 (by simp [n1]) ?_ ?_) ?_
      · intro v hv hu
        rw [atPush, if_neg (by omega)]; exact n5 v hv hu
      · intro v hv
        rw [atPush, if_neg (by omega)]; exact n3 v hv
      rintro ⟨N2, o⟩ ⟨r1, r2, r3, r4, r5⟩
      dsimp only at r1 r2 r3 r4 r5 ⊢
      have hne : z ≠ L q := fun e => he (by rw [← hzl, e])
      have hk2 : at' d0 N2 st.nodes.size = ⟨[], none, s.length + 1, false, s.length⟩ := by
        rw [r2 _ (Nat.le_refl _), atPush, if_neg (by omega), n2]
      have hk3 : at' d0 N2 (st.nodes.size + 1) = ⟨(at' d0 N q).nxt, (at' d0 N q).link, (L p).length + 1, true, s.length⟩ := by
        rw [r2 _ (by omega), atPush, if_pos (by omega)]
      rw [setLink_eq _ (by omega : q < N2.size), ok_bind, setLink_eq _ (by simp; omega), ok_bind, n1]
      have hat : ∀ v, at' d0 ((N2.setIfInBounds q { at' d0 N2 q with link := some (st.nodes.size + 1) }).setIfInBounds st.nodes.size
          { at' d0 (N2.setIfInBounds q { at' d0 N2 q with link := some (st.nodes.size + 1) }) st.nodes.size with link := some (st.nodes.size + 1) }) v =
          if st.nodes.size = v then ⟨[], some (st.nodes.size + 1), s.length + 1, false, s.length⟩ else
          if q = v then { at' d0 N2 q with link := some (st.nodes.size + 1) } else at' d0 N2 v := by
        intro v
        rw [at_set d0 (by simp; omega), at_set d0 (by omega), at_set d0 (by omega), if_neg (by omega : ¬ q = st.nodes.size), hk2]
      have hnR : ¬ (L q <:+ L p ∧ (at' d0 st.nodes q).nxt.lookup c = some q) := fun hR => by
        have := hR.1.length_le
        have := q2.2.2.1.length_le
        omega
      have hnx : ∀ v, v < st.nodes.size → (at' d0 ((N2.setIfInBounds q { at' d0 N2 q with link := some (st.nodes.size + 1) }).setIfInBounds st.nodes.size
          { at' d0 (N2.setIfInBounds q { at' d0 N2 q with link := some (st.nodes.size + 1) }) st.nodes.size with link := some (st.nodes.size + 1) }) v).nxt
          = (at' d0 N2 v).nxt := by
        intro v hv
        rw [hat, if_neg (by omega)]
        split
        · rename_i e; rw [e]
        · rfl
      have hpush : ∀ v, v < st.nodes.size → ∀ x, at' d0 (N.push x) v = at' d0 N v := fun v hv x => by rw [atPush, if_neg (by omega)]
      refine Tot.pure (caseB h rfl hS q1 q2 hne (by simp [r1]) (by rw [hat, if_pos rfl]) (qx := (at' d0 N q).nxt) ?_ ?_ ?_ ?_ ?_ ?_)
      · rw [hat, if_neg (by omega), if_neg (by omega), hk3, (n3 q q1).1, hzl]
      · rw [hnx q q1, r5 q q1 hnR, hpush q q1]
      · intro v hv
        rw [hat, if_neg (by omega)]
        by_cases e : q = v
        · rw [if_pos e, if_pos e.symm, e]
          exact ⟨rfl, (r3 v hv).2⟩
        · rw [if_neg e, if_neg (fun h => e h.symm)]
          exact r3 v hv
      · intro v hv hu
        have hR : ¬ (L v <:+ L p ∧ (at' d0 st.nodes v).nxt.lookup c = some q) := fun hR => by
          have := hu.2 p rfl
          have := hR.1.length_le
          omega
        rw [hnx v hv, r5 v hv hR, hpush v hv, (n4 v hv hu).2]
      · intro v hv hR
        rw [hnx v hv, r4 v hv hR, n1]
      · intro v hv hu hR
        rw [hnx v hv, r5 v hv hR, hpush v hv, n5 v hv hu]

theorem init_inv : Inv ([] : List α) init fun _ => [] := by
  refine ⟨Nat.one_pos, rfl, ?_, ?_, ?_, rfl, ?_, ?_, ?_, ⟨Nat.one_pos, rfl⟩, ?_, ?_, ?_⟩
  all_goals simp only [show (init (α := α)).nodes.size = 1 from rfl]
  · intro w
    constructor
    · intro hw
      exact ⟨0, Nat.one_pos, (List.infix_nil.1 hw.1).symm⟩
    · rintro ⟨_, _, rfl⟩
      exact can_nil []
  · intro u v _ _ _; omega
  · intro v hv; rw [show v = 0 by omega]; rfl
  · intro v _ _; omega
  · intro v hv e u hl
    rw [show v = 0 by omega] at hl
    exact absurd hl (by simp [init, at'])
  · intro v hv e hl hi
    simpa using hi.length_le
  · intro v hv; rw [show v = 0 by omega]; exact ⟨fun _ => List.prefix_refl _, fun _ => rfl⟩
  · intro v hv; rw [show v = 0 by omega]; exact ⟨0, rfl, List.suffix_refl _, Nat.le_refl _, fun _ => rfl⟩
  · intro v hv; rw [show v = 0 by omega]; exact List.nodup_nil

theorem build_tot (s : List α) : Tot (build s) fun st => ∃ L, Inv s st L := by
  unfold build
  refine Tot.forEach (P := fun pre (r : State α) => ∃ L, Inv pre r L) ⟨_, init_inv⟩ ?_
  rintro pre x post st - ⟨L, h⟩
  exact append_tot h x

theorem Inv.transFrom (h : Inv s st L) (t : List α) : ∀ (x : List α) (v : Nat), v < st.nodes.size → Cl s x (L v) →
    Tot (transFrom st.nodes v t) fun r => (∀ u, r = some u → u < st.nodes.size ∧ Cl s (x ++ t) (L u)) ∧ (r = none → ¬ x ++ t <:+: s) := by
  induction t with
  | nil =>
    intro x v hv hx
    refine Tot.pure ⟨fun u e => ?_, fun e => absurd e (by simp)⟩
    injection e with e
    rw [← e, List.append_nil]
    exact ⟨hv, hx⟩
  | cons c t ih =>
    intro x v hv hx
    unfold SuffixAutomaton.transFrom
    rw [rd_at d0 hv, ok_bind]
    have hn : x ++ [c] <:+: s → L v ++ [c] <:+: s := by
      intro hi
      obtain ⟨t, t1, t2⟩ := occ_of hi
      obtain ⟨r, e1, r1, r2⟩ := snoc_occ t1 t2
      refine occ_to t1 ?_
      rw [e1]
      exact snoc_suf (hx.2.2.2 r r1 r2)
    cases hl : (at' d0 st.nodes v).nxt.lookup c with
    | none =>
      refine Tot.pure ⟨fun u e => absurd e (by simp), fun _ hi => h.nnone v hv c hl (hn ?_)⟩
      exact List.IsInfix.trans ⟨[], t, by simp⟩ hi
    | some u =>
      obtain ⟨u1, u2⟩ := h.nsome v hv c u hl
      have := ih (x ++ [c]) u u1 (cl_snoc (fun t t1 t2 _ => hx.2.2.2 t t1 t2) hx.2.2.1 u2)
      simpa using this

theorem Inv.transition (h : Inv s st L) (t : List α) :
    Tot (transition st t) fun r => (∀ u, r = some u → u < st.nodes.size ∧ Cl s t (L u)) ∧ (r = none → ¬ t <:+: s) := by
  have := h.transFrom t [] 0 h.pos (by rw [h.L0]; exact cl_self (can_nil s))
  exact this

/-- Words with the same occurrences have the same closure. -/
theorem cl_same {s x x' y y' : List α} (h : Cl s x y) (h' : Cl s x' y') : y = y' ↔ ∀ t, t <+: s → (x <:+ t ↔ x' <:+ t) := by
  constructor
  · rintro rfl t ht
    exact ⟨fun a => h'.2.2.1.trans (h.2.2.2 t ht a), fun a => h.2.2.1.trans (h'.2.2.2 t ht a)⟩
  · intro hs
    obtain ⟨t, t1, t2⟩ := occ_of h.1
    have a := h.2.2.2 t t1 t2
    have b := h'.2.2.2 t t1 ((hs t t1).1 t2)
    rcases Nat.le_total y.length y'.length with hl | hl
    · exact can_max h.2.1 (suf_le a b hl) fun t t1 t2 => h'.2.2.2 t t1 ((hs t t1).1 (h.2.2.1.trans t2))
    · exact (can_max h'.2.1 (suf_le b a hl) fun t t1 t2 => h.2.2.2 t t1 ((hs t t1).2 (h'.2.2.1.trans t2))).symm

end

end SuffixAutomaton
