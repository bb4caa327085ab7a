import Verif.Proof.PersistentArray

/-! # C85: persistent arrays keep their versions -/

namespace PersistentArray
open Cxx

variable {T : Type}

/-- The root `p` represents the array `a`. -/
def Rep (lg : Nat) (lab : Nat → Nat × Nat) (h : Heap T) (p : Option Nat) (a : Array T) : Prop :=
  (a.size = 0 ∧ p = none) ∨ ∃ r, p = some r ∧ r < h.nodes.size ∧ lab r = (0, 1) ∧ ∀ j, val lg h (some r) j = a[j]?

/-- Representation of a history. -/
structure Sim (lg cap : Nat) (s : Heap T × List (Option Nat)) (vs : List (Array T)) (u : Use) : Prop where
  wf : ∃ lab, WF lg lab s.1 ∧ ∀ w, w < vs.length → Rep lg lab s.1 (s.2.getD w none) (vs.getD w #[])
  cap : s.1.cap = cap
  used : s.1.nodes.size = u.used
  len : s.2.length = vs.length
  slen : u.sizes.length = vs.length
  sizes : ∀ w, w < vs.length → u.sizes.getD w 0 = (vs.getD w #[]).size

theorem getD_append {α : Type} (l : List α) (x d : α) (w : Nat) : (l ++ [x]).getD w d = if w < l.length then l.getD w d else if w = l.length then x else d := by
  simp only [List.getD_eq_getElem?_getD]
  split
  next h => rw [List.getElem?_append_left h]
  next h =>
    rw [List.getElem?_append_right (by omega)]
    split
    next e => subst e; simp
    next e => rw [List.getElem?_eq_none (by simp; omega)]; rfl

theorem Rep.val {lg : Nat} {lab : Nat → Nat × Nat} {h : Heap T} {p : Option Nat} {a : Array T} (r : Rep lg lab h p a) (j : Nat) : PersistentArray.val lg h p j = a[j]? := by
  rcases r with ⟨h1, rfl⟩ | ⟨r, rfl, -, -, h4⟩
  · rw [val_none, Array.getElem?_eq_none (by omega)]
  · exact h4 j

/-- Old versions in a pool that only grew. -/
theorem Rep.grow {lg : Nat} {lab lab' : Nat → Nat × Nat} {h h' : Heap T} (w : WF lg lab h) (hs : h.nodes.size ≤ h'.nodes.size)
    (hf : ∀ q, q < h.nodes.size → h'.nodes[q]? = h.nodes[q]?) (hl : ∀ q, q < h.nodes.size → lab' q = lab q) {p : Option Nat} {a : Array T} (r : Rep lg lab h p a) :
    Rep lg lab' h' p a := by
  rcases r with ⟨h1, rfl⟩ | ⟨r, rfl, h2, h3, h4⟩
  · exact Or.inl ⟨h1, rfl⟩
  · refine Or.inr ⟨r, rfl, by omega, by rw [hl r h2, h3], fun j => ?_⟩
    rw [← h4 j]
    exact val_congr hf (fun q x d c _ hx hd => w.cl _ _ _ _ hx hd) h2

/-- A new version. -/
theorem Sim.add {lg cap : Nat} {s : Heap T × List (Option Nat)} {vs : List (Array T)} {u : Use} (m : Sim lg cap s vs u) {lab lab' : Nat → Nat × Nat} {h' : Heap T}
    (w : WF lg lab s.1) (hr : ∀ w, w < vs.length → Rep lg lab s.1 (s.2.getD w none) (vs.getD w #[]))
    (w' : WF lg lab' h') (hc : h'.cap = s.1.cap) (hs : s.1.nodes.size ≤ h'.nodes.size) (hf : ∀ q, q < s.1.nodes.size → h'.nodes[q]? = s.1.nodes[q]?)
    (hl : ∀ q, q < s.1.nodes.size → lab' q = lab q) {p : Option Nat} {a : Array T} (r : Rep lg lab' h' p a) {k used : Nat} (hk : k = a.size) (hu : h'.nodes.size = used) :
    Sim lg cap (h', s.2 ++ [p]) (vs ++ [a]) ⟨u.sizes ++ [k], used⟩ := by
  refine ⟨⟨lab', w', ?_⟩, by rw [hc, m.cap], hu, by simp [m.len], by simp [m.slen], ?_⟩
  · intro i hi
    simp only [List.length_append, List.length_cons, List.length_nil] at hi
    dsimp only
    rw [getD_append, getD_append, m.len]
    by_cases h : i < vs.length
    · rw [if_pos h, if_pos h]
      exact (hr i h).grow w hs hf hl
    · rw [if_neg h, if_neg h, if_pos (by omega), if_pos (by omega)]
      exact r
  · intro i hi
    simp only [List.length_append, List.length_cons, List.length_nil] at hi
    dsimp only
    rw [getD_append, getD_append, m.slen]
    by_cases h : i < vs.length
    · rw [if_pos h, if_pos h, m.sizes i h]
    · rw [if_neg h, if_neg h, if_pos (by omega), if_pos (by omega), hk]

theorem step_sim (lg cap : Nat) (s : Heap T × List (Option Nat)) (vs : List (Array T)) (u : Use) (op : Op T) (m : Sim lg cap s vs u) (hp : Pre lg cap u op) :
    Tot (step lg s op) fun r => ∃ vs', Rel vs op r.2 vs' ∧ Sim lg cap r.1 vs' (next lg u op) := by
  obtain ⟨lab, w, hr⟩ := m.wf
  have hcap := m.cap
  have hused := m.used
  have hsl := m.slen
  cases op with
  | make init =>
    unfold step
    refine Tot.bind (build_tot w (by rw [hused, hcap]; exact hp)) ?_
    rintro ⟨h', p⟩ ⟨g1, g2, g3, lab', w', g4, g5⟩
    refine Tot.pure ⟨vs ++ [init], ⟨rfl, rfl⟩, ?_⟩
    dsimp only at g1
    refine m.add w hr w' g2 (by show _ ≤ h'.nodes.size; omega) g3 g4 ?_ rfl (by show h'.nodes.size = _; omega)
    rcases g5 with ⟨a, b⟩ | ⟨r, a, b, c, d⟩
    · exact Or.inl ⟨a, b⟩
    · exact Or.inr ⟨r, a, b, c, d⟩
  | get v i =>
    obtain ⟨h1, h2⟩ := hp
    rw [m.sizes v (by omega)] at h2
    have e := (hr v (by omega)).val i
    rw [Array.getElem?_eq_getElem h2] at e
    unfold step
    dsimp only
    rw [get_eq e w.ar, ok_bind]
    exact Tot.pure ⟨vs, ⟨rfl, _, Array.getElem?_eq_getElem h2, rfl⟩, m⟩
  | set v i x =>
    obtain ⟨h1, h2, h3⟩ := hp
    have hv : v < vs.length := by omega
    have hsz := m.sizes v hv
    rw [hsz] at h2
    have e := (hr v hv).val i
    rw [Array.getElem?_eq_getElem h2] at e
    unfold step
    refine Tot.bind (set_tot w e x (by omega)) ?_
    rintro ⟨h', p⟩ ⟨g1, g2, g3, r, lab', g4, g5, g6, g7, g8, g9⟩
    dsimp only at g1 g2 g3 g4 g5 g6 g9
    refine Tot.pure ⟨_, ⟨rfl, rfl⟩, ?_⟩
    refine m.add w hr g6 g2 (by omega) g3 g7 ?_ (by rw [hsz]; simp) (by omega)
    subst g4
    refine Or.inr ⟨r, rfl, g5, ?_, fun j => ?_⟩
    · rcases hr v hv with ⟨a, -⟩ | ⟨q, a, -, c, -⟩
      · omega
      · rw [g8 q a, c]
    · rw [g9 j, (hr v hv).val j, set_eq h2]
  | clone v =>
    obtain ⟨h1, h3⟩ := hp
    have hv : v < vs.length := by omega
    have hsz := m.sizes v hv
    unfold step clone
    dsimp only
    rcases hr v hv with ⟨a, b⟩ | ⟨q, a, b, c, d⟩
    · rw [b]
      simp only [Option.isNone_none, if_true]
      refine Tot.pure ⟨_, ⟨rfl, rfl⟩, ?_⟩
      unfold next
      dsimp only
      rw [hsz, if_pos a, Nat.add_zero]
      exact m.add w hr w rfl le_rfl (fun _ _ => rfl) (fun _ _ => rfl) (Or.inl ⟨a, rfl⟩) rfl hused
    · rw [a]
      simp only [Option.isNone_some, Bool.false_eq_true, if_false]
      obtain ⟨z, hz⟩ : ∃ z, s.1.nodes[q]? = some z := ⟨_, Array.getElem?_eq_getElem b⟩
      have hne : (vs.getD v #[]).size ≠ 0 := by
        intro h0
        have := d 0
        rw [val_zero, hz, Array.getElem?_eq_none (by omega)] at this
        cases this
      rw [hsz, if_neg hne] at h3
      unfold cloneNode
      have hld : load s.1 (some q) = .ok z := by unfold load; exact rd_some hz
      rw [hld, ok_bind]
      unfold allocWith
      rw [if_pos (by omega), pure_eq, ok_bind]
      refine Tot.pure ⟨_, ⟨rfl, rfl⟩, ?_⟩
      unfold next
      dsimp only
      rw [hsz, if_neg hne]
      have w1 := w.push (x := z) (l := lab q) (w.ar _ _ hz) (fun d' c' hd' => ⟨w.cl _ _ _ _ hz hd', w.lb _ _ _ _ hz hd'⟩)
      have hagree : ∀ r, r < s.1.nodes.size → ({ s.1 with nodes := s.1.nodes.push z } : Heap T).nodes[r]? = s.1.nodes[r]? := by
        intro r hr'; rw [nodes_push, if_neg (by omega)]
      refine m.add w hr w1 rfl (by simp) hagree (fun r hr' => if_neg (by omega)) (Or.inr ⟨s.1.nodes.size, rfl, by simp, ?_, ?_⟩) rfl (by simp [hused])
      · exact (if_pos rfl).trans c
      · intro j
        rw [← d j]
        by_cases hj : j = 0
        · subst hj; rw [val_zero, val_zero, nodes_push, if_pos rfl, hz]
        · have hnew : ({ s.1 with nodes := s.1.nodes.push z } : Heap T).nodes[s.1.nodes.size]? = some z := by rw [nodes_push, if_pos rfl]
          rw [val_pos _ _ _ hj, val_pos _ _ _ hj, child_some hnew, child_some hz]
          cases hzz : z.ch[j % 2 ^ lg]? with
          | none => simp [val_none]
          | some o =>
            cases o with
            | none => simp [val_none]
            | some c' => exact val_congr hagree (fun q x d c _ hx hd => w.cl _ _ _ _ hx hd) (w.cl _ _ _ _ hz hzz)
  | mutSet v i x =>
    obtain ⟨h1, h2⟩ := hp
    have hv : v < vs.length := by omega
    have hsz := m.sizes v hv
    rw [hsz] at h2
    have e := (hr v hv).val i
    rw [Array.getElem?_eq_getElem h2] at e
    unfold step
    refine Tot.bind (mutSet_tot w e x) ?_
    rintro ⟨h', y⟩ ⟨g1, g2, g3, g4, g5⟩
    dsimp only at g1 g2 g3 g4 g5
    -- a slot shared with element `i` is that of element `i`
    have hslot : ∀ p a, Rep lg lab s.1 p a → ∀ j, slot lg s.1 p j = slot lg s.1 (s.2.getD v none) i → j = i := by
      intro p a ha j hj
      obtain ⟨r, z, hs, -, -⟩ := val_some e
      rw [hs] at hj
      rcases ha with ⟨-, rfl⟩ | ⟨q, rfl, -, hq, -⟩
      · rw [slot_none] at hj; cases hj
      · rcases hr v hv with ⟨b, -⟩ | ⟨q', b, -, c, -⟩
        · omega
        · rw [b] at hs
          have l1 := w.slot_lab hs
          have l2 := w.slot_lab hj
          rw [hq] at l2
          rw [c] at l1
          dsimp only at l1 l2
          omega
    -- the arrays afterwards
    let upd : Nat → Array T := fun k => if slot lg s.1 (s.2.getD k none) i = slot lg s.1 (s.2.getD v none) i then (vs.getD k #[]).setIfInBounds i x else vs.getD k #[]
    have hupd : ∀ k, upd k = vs.getD k #[] ∨ upd k = (vs.getD k #[]).setIfInBounds i x := by
      intro k
      by_cases hc : slot lg s.1 (s.2.getD k none) i = slot lg s.1 (s.2.getD v none) i
      · exact Or.inr (if_pos hc)
      · exact Or.inl (if_neg hc)
    have hgd : ∀ k, k < vs.length → (List.ofFn (n := vs.length) fun k => upd k.val).getD k #[] = upd k := by
      intro k hk
      simp [List.getD_eq_getElem?_getD, hk]
    refine Tot.pure ⟨List.ofFn (n := vs.length) fun k => upd k.val, ⟨⟨_, Array.getElem?_eq_getElem h2, by rw [g1]⟩, by simp, ?_, ?_⟩, ?_⟩
    · rw [hgd v hv]; exact if_pos rfl
    · intro k hk
      rw [hgd k hk]; exact hupd k
    · refine ⟨⟨lab, g2, ?_⟩, by rw [← hcap, ← g4], by show h'.nodes.size = u.used; omega, by simp [m.len], by simp [hsl, next], ?_⟩
      · intro k hk
        rw [List.length_ofFn] at hk
        rw [hgd k hk]
        rcases hr k hk with ⟨a, b⟩ | ⟨q, a, b, c, d⟩
        · refine Or.inl ⟨?_, b⟩
          rcases hupd k with h | h <;> rw [h]
          · exact a
          · rw [Array.size_setIfInBounds]; exact a
        · refine Or.inr ⟨q, a, by show q < h'.nodes.size; omega, c, fun j => ?_⟩
          show val lg h' (some q) j = _
          rw [g5, d j]
          by_cases hc : slot lg s.1 (some q) j = slot lg s.1 (s.2.getD v none) i
          · have hj := hslot _ _ (hr k hk) j (by rw [a]; exact hc)
            subst hj
            have hval : val lg s.1 (some q) j = val lg s.1 (s.2.getD v none) j := by unfold val; rw [hc]
            have hin : j < (vs.getD k #[]).size := by
              rw [e, d j] at hval
              exact (Array.getElem?_eq_some_iff.1 hval).1
            have : upd k = (vs.getD k #[]).setIfInBounds j x := if_pos (by rw [a]; exact hc)
            rw [if_pos hc, this, set_eq hin, if_pos rfl]
          · rw [if_neg hc]
            by_cases hji : j = i
            · subst hji
              have : upd k = vs.getD k #[] := if_neg (by rw [a]; exact hc)
              rw [this]
            · rcases hupd k with h | h
              · rw [h]
              · rw [h, Array.getElem?_setIfInBounds, if_neg (Ne.symm hji)]
      · intro k hk
        rw [List.length_ofFn] at hk
        rw [hgd k hk]
        unfold next
        rw [m.sizes k hk]
        rcases hupd k with h | h <;> rw [h] <;> simp

theorem sim_init (lg cap : Nat) : Sim lg cap ((initPool cap : Heap T), []) [] ⟨[], 0⟩ := by
  refine ⟨⟨fun _ => (0, 1), ⟨?_, ?_, ?_⟩, fun _ h => absurd h (Nat.not_lt_zero _)⟩, rfl, rfl, rfl, rfl, fun _ h => absurd h (Nat.not_lt_zero _)⟩ <;>
  · intro q x
    simp [initPool]

end PersistentArray

namespace PersistentArrayProps
open Cxx PersistentArray

variable {T : Type}

/-- **C85.** Take any history of calls on any of the versions obtained so far (construction from a vector, `get`, `set`, `clone`, `mut_set`), for any branching `2^lg`, any element type and any pool capacity. If indices are in range and the pool has room for what the calls use (the length for a constructor, `depth(i) + 1` nodes for `set(i, x)`, one node for `clone`), the history runs without touching anything outside the pool, and its answers are those of an honest list of arrays: `set` and `clone` give a new array and leave every earlier one alone, `get` reads the array as it was when it was made except for elements overwritten by `mut_set`, and `mut_set(i, x)` changes element `i` of the version it is called on, possibly element `i` of versions sharing it, and nothing else. -/
theorem persistentArray_versions_partial (lg cap : Nat) (ops : List (Op T)) (hv : ValidOps (Pre lg cap) (next lg) ⟨[], 0⟩ ops) :
    ∃ s outs, runOps (step lg) (initPool cap, []) ops = .ok (s, outs) ∧ RunOk Rel [] ops outs := by
  obtain ⟨⟨s, outs⟩, e, h⟩ := refineR (step_sim lg cap) (sim_init lg cap) hv
  exact ⟨s, outs, e, h⟩

example : ValidOps (Pre 1 20) (next 1) ⟨[], 0⟩ [.make #[1, 2, 3, 4, 5, 6], .set 0 5 (7 : Int), .get 0 5, .get 1 5, .clone 1, .mutSet 2 5 8, .get 1 5, .get 0 5] := by decide +kernel

example : ((runOps (step 1) (initPool 20, []) [.make #[1, 2, 3, 4, 5, 6], .set 0 5 (7 : Int), .get 0 5, .get 1 5, .clone 1, .mutSet 2 5 8, .get 1 5, .get 0 5]).toOption.map Prod.snd)
    = some [.unit, .unit, .val 6, .val 7, .unit, .val 7, .val 8, .val 6] := by decide +kernel

/-- Without `mut_set`, the versions are simply immutable: the history's arrays are functions of the calls. -/
def pureNext (vs : List (Array T)) : Op T → List (Array T)
  | .make init => vs ++ [init]
  | .set v i x => vs ++ [(vs.getD v #[]).setIfInBounds i x]
  | .clone v => vs ++ [vs.getD v #[]]
  | _ => vs

/-- The answer in an immutable history. -/
def pureAns (vs : List (Array T)) : Op T → Out T → Prop
  | .get v i, o => ∃ x, (vs.getD v #[])[i]? = some x ∧ o = .val x
  | _, o => o = .unit

/-- Calls that do not mutate. -/
def IsPure : Op T → Prop
  | .mutSet _ _ _ => False
  | _ => True

/-- **C85, immutable histories.** Without `mut_set` every version keeps its contents for ever. -/
theorem persistentArray_immutable_partial (lg cap : Nat) (ops : List (Op T)) (hv : ValidOps (Pre lg cap) (next lg) ⟨[], 0⟩ ops) (hp : ∀ op ∈ ops, IsPure op) :
    ∃ s outs, runOps (step lg) (initPool cap, []) ops = .ok (s, outs) ∧ TraceOk pureNext pureAns [] ops outs := by
  obtain ⟨s, outs, e, h⟩ := persistentArray_versions_partial lg cap ops hv
  refine ⟨s, outs, e, ?_⟩
  clear e hv
  generalize ([] : List (Array T)) = vs at h
  induction ops generalizing vs outs with
  | nil => cases outs <;> exact h
  | cons op ops ih =>
    cases outs with
    | nil => exact h
    | cons o outs =>
      obtain ⟨vs', h1, h2⟩ := h
      have hop := hp op (by simp)
      have : vs' = pureNext vs op ∧ pureAns vs op o := by
        cases op with
        | make init => exact ⟨h1.2, h1.1⟩
        | get v i => exact ⟨h1.1, h1.2⟩
        | set v i x => exact ⟨h1.2, h1.1⟩
        | clone v => exact ⟨h1.2, h1.1⟩
        | mutSet v i x => exact hop.elim
      obtain ⟨rfl, h3⟩ := this
      exact ⟨h3, ih (fun op hop => hp op (by simp [hop])) _ _ h2⟩

example : ∀ op ∈ [Op.make #[1, 2, 3], .set 0 2 (7 : Int), .get 0 2], IsPure op := by simp [IsPure]

/-- **C85 fails for `dump`.** Line 62 writes `node->_val`, the value at the root, for every element: the dump of `{7, 8}` is `{7, 7}`. -/
theorem persistentArray_dump_wrong :
    ∃ s, build 4 (initPool 10) #[7, (8 : Int)] = .ok s ∧ get 4 s.1 s.2 1 = .ok 8 ∧ dump 4 0 s.1 s.2 = .ok #[7, 7] := by
  refine ⟨_, rfl, ?_, ?_⟩ <;> decide +kernel

/-- `clone()` copies the root node only: writing element 1 of the clone with `mut_set` writes the original. -/
theorem persistentArray_clone_shares :
    ((runOps (step 4) (initPool 20, []) [.make #[7, (8 : Int)], .clone 0, .mutSet 1 1 9, .get 0 1]).toOption.map Prod.snd)
      = some [.unit, .unit, .val 8, .val 9] := by decide +kernel

end PersistentArrayProps
