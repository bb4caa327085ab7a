import Verif.Proof.EulerianWalk

namespace Eulerian
open Cxx Finset

/-! ### The entries as a list -/

def slotList (g : Array (Array Nat)) : List Slot := (List.range g.size).flatMap fun u => (List.range (sz g u)).map fun i => (u, i)

theorem mem_slotList {g : Array (Array Nat)} {e : Slot} : e ∈ slotList g ↔ e ∈ slots g := by
  rw [mem_slots]
  unfold slotList
  rw [List.mem_flatMap]
  constructor
  · rintro ⟨u, h1, h2⟩
    rw [List.mem_map] at h2
    obtain ⟨i, h3, rfl⟩ := h2
    exact ⟨List.mem_range.mp h1, List.mem_range.mp h3⟩
  · rintro ⟨h1, h2⟩
    exact ⟨e.1, List.mem_range.mpr h1, List.mem_map.mpr ⟨e.2, List.mem_range.mpr h2, rfl⟩⟩

theorem nodup_slotList (g : Array (Array Nat)) : (slotList g).Nodup := by
  unfold slotList
  rw [List.nodup_flatMap]
  refine ⟨fun u _ => List.nodup_range.map (fun a b h => (Prod.mk.inj h).2), ?_⟩
  refine List.nodup_range.imp ?_
  intro a b hab e h1 h2
  rw [List.mem_map] at h1 h2
  obtain ⟨i, -, rfl⟩ := h1
  obtain ⟨j, -, h⟩ := h2
  exact hab (Prod.mk.inj h).1.symm

theorem slots_eq (g : Array (Array Nat)) : slots g = (slotList g).toFinset := by
  ext e
  rw [List.mem_toFinset, mem_slotList]

theorem card_filter_slots (g : Array (Array Nat)) (P : Slot → Prop) [DecidablePred P] : ((slots g).filter P).card = (slotList g).countP (fun e => decide (P e)) := by
  rw [slots_eq, List.countP_eq_length_filter, ← List.toFinset_card_of_nodup ((nodup_slotList g).filter _)]
  congr 1
  ext e
  simp

theorem flatMap_filter (E : List (Nat × Nat)) (n : Nat) : ((List.range n).flatMap fun u => E.filter fun p => decide (p.1 = u)).Perm (E.filter fun p => decide (p.1 < n)) := by
  induction n with
  | zero => simp
  | succ n ih =>
    rw [List.range_succ, List.flatMap_append]
    refine (ih.append_right _).trans ?_
    rw [List.perm_iff_count]
    intro p
    simp only [List.flatMap_cons, List.flatMap_nil, List.append_nil, List.count_append]
    by_cases h1 : p.1 < n
    · rw [List.count_filter (by simpa using h1), List.count_eq_zero_of_not_mem (l := E.filter fun q => decide (q.1 = n)) (by simp; omega), List.count_filter (by simp; omega)]
      rfl
    · by_cases h2 : p.1 = n
      · rw [List.count_eq_zero_of_not_mem (l := E.filter fun q => decide (q.1 < n)) (by simp; omega), List.count_filter (by simpa using h2), List.count_filter (by simp; omega), Nat.zero_add]
      · rw [List.count_eq_zero_of_not_mem (l := E.filter fun q => decide (q.1 < n)) (by simp; omega), List.count_eq_zero_of_not_mem (l := E.filter fun q => decide (q.1 = n)) (by simp; omega),
          List.count_eq_zero_of_not_mem (l := E.filter fun q => decide (q.1 < n + 1)) (by simp; omega)]

/-! ### The object -/

/-- The object holds the edges `E`. -/
structure DRep (o : DObj) (n : Nat) (E : List (Nat × Nat)) : Prop where
  hn : o.n = n
  gsz : o.g.size = n
  isz : o.inDeg.size = n
  row : ∀ u, u < n → (at' #[] o.g u).toList = (E.filter fun p => decide (p.1 = u)).map Prod.snd
  deg : ∀ v, v < n → at' 0 o.inDeg v = (E.map Prod.snd).count v
  valid : ∀ p ∈ E, p.1 < n ∧ p.2 < n

theorem dnew (n : Nat) : DRep (DObj.new n) n [] := by
  refine ⟨rfl, by simp [DObj.new], by simp [DObj.new], ?_, ?_, by simp⟩
  · intro u hu
    unfold DObj.new at'
    simp [hu]
  · intro u hu
    unfold DObj.new at'
    simp [hu]

theorem pushRow_tot {g : Array (Array Nat)} {u x : Nat} (hu : u < g.size) :
    Tot (pushRow g u x) (fun g' => g'.size = g.size ∧ ∀ v, at' #[] g' v = if u = v then (at' #[] g u).push x else at' #[] g v) := by
  unfold pushRow
  rw [rd_at #[] hu, ok_bind, wr_eq hu]
  exact tot_ok.mpr ⟨by simp, fun v => at_set #[] hu _ v⟩

theorem popRow_tot {g : Array (Array Nat)} {u : Nat} (hu : u < g.size) :
    Tot (popRow g u) (fun g' => g'.size = g.size ∧ ∀ v, at' #[] g' v = if u = v then (at' #[] g u).pop else at' #[] g v) := by
  unfold popRow
  rw [rd_at #[] hu, ok_bind, wr_eq hu]
  exact tot_ok.mpr ⟨by simp, fun v => at_set #[] hu _ v⟩

theorem dadd {o : DObj} {n : Nat} {E : List (Nat × Nat)} (h : DRep o n E) {u v : Nat} (hu : u < n) (hv : v < n) : Tot (o.addEdge u v) (fun o' => DRep o' n (E ++ [(u, v)])) := by
  unfold DObj.addEdge
  refine (pushRow_tot (by rw [h.gsz]; exact hu)).bind ?_
  rintro g ⟨g1, g2⟩
  have hv' : v < o.inDeg.size := by rw [h.isz]; exact hv
  rw [rd_at 0 hv', ok_bind, wr_eq hv', ok_bind]
  refine tot_ok.mpr ⟨h.hn, by dsimp only; rw [g1, h.gsz], by simp [h.isz], ?_, ?_, ?_⟩
  · intro x hx
    dsimp only
    rw [g2, List.filter_append, List.map_append, ← h.row x hx]
    split_ifs with hc
    · subst hc
      simp
    · simp [hc]
  · intro x hx
    dsimp only
    rw [at_set 0 hv', List.map_append, List.count_append, ← h.deg x hx]
    split_ifs with hc
    · subst hc
      simp
    · simp [hc]
  · intro p hp
    rcases List.mem_append.mp hp with hp | hp
    · exact h.valid p hp
    · have : p = (u, v) := by simpa using hp
      rw [this]
      exact ⟨hu, hv⟩

theorem DRep.sz_eq {o : DObj} {n : Nat} {E : List (Nat × Nat)} (h : DRep o n E) {u : Nat} (hu : u < n) : sz o.g u = (E.map Prod.fst).count u := by
  unfold sz
  rw [← Array.length_toList, h.row u hu, List.length_map, ← List.countP_eq_length_filter, List.count, List.countP_map]
  refine List.countP_congr ?_
  intro p _
  simp

theorem DRep.edges {o : DObj} {n : Nat} {E : List (Nat × Nat)} (h : DRep o n E) : ((slotList o.g).map fun e => (e.1, hd o.g e)).Perm E := by
  have e : ((slotList o.g).map fun e => (e.1, hd o.g e)) = (List.range n).flatMap fun u => E.filter fun p => decide (p.1 = u) := by
    unfold slotList
    rw [List.map_flatMap, h.gsz]
    refine List.flatMap_congr ?_
    intro u hu
    rw [List.mem_range] at hu
    rw [List.map_map]
    have hrow := h.row u hu
    have e1 : (E.filter fun p => decide (p.1 = u)) = ((E.filter fun p => decide (p.1 = u)).map Prod.snd).map fun x => (u, x) := by
      rw [List.map_map]
      conv_lhs => rw [← List.map_id (E.filter fun p => decide (p.1 = u))]
      refine List.map_congr_left ?_
      intro p hp
      have : p.1 = u := by simpa using (List.mem_filter.mp hp).2
      simp [← this]
    rw [e1, ← hrow]
    refine List.ext_getElem (by simp [sz]) ?_
    intro i h1 h2
    have hi : i < (at' #[] o.g u).size := by simpa [sz] using h1
    simp [hd, at', hi]
    rw [show (o.g[u]?.getD #[])[i]? = some ((o.g[u]?.getD #[])[i]'hi) from Array.getElem?_eq_getElem hi]
    rfl
  rw [e]
  refine (flatMap_filter E n).trans ?_
  rw [List.filter_eq_self.mpr]
  intro p hp
  simpa using (h.valid p hp).1

theorem DRep.length {o : DObj} {n : Nat} {E : List (Nat × Nat)} (h : DRep o n E) : total o.g = E.length := by
  rw [← card_slots, slots_eq, List.toFinset_card_of_nodup (nodup_slotList _), ← h.edges.length_eq, List.length_map]

theorem DRep.in_eq {o : DObj} {n : Nat} {E : List (Nat × Nat)} (h : DRep o n E) (x : Nat) : ((slots o.g).filter fun e => hd o.g e = x).card = (E.map Prod.snd).count x := by
  rw [card_filter_slots, ← (h.edges.map Prod.snd).count_eq x, List.map_map, List.count, List.countP_map]
  refine List.countP_congr ?_
  intro e _
  simp

theorem DRep.out_eq {o : DObj} {n : Nat} {E : List (Nat × Nat)} (h : DRep o n E) (x : Nat) : ((slots o.g).filter fun e => e.1 = x).card = (E.map Prod.fst).count x := by
  rw [card_filter_slots, ← (h.edges.map Prod.fst).count_eq x, List.map_map, List.count, List.countP_map]
  refine List.countP_congr ?_
  intro e _
  simp

theorem DRep.edge_of_slot {o : DObj} {n : Nat} {E : List (Nat × Nat)} (h : DRep o n E) {e : Slot} (he : e ∈ slots o.g) : (e.1, hd o.g e) ∈ E :=
  h.edges.mem_iff.mp (List.mem_map.mpr ⟨e, mem_slotList.mpr he, rfl⟩)

theorem DRep.slot_of_edge {o : DObj} {n : Nat} {E : List (Nat × Nat)} (h : DRep o n E) {p : Nat × Nat} (hp : p ∈ E) : ∃ e ∈ slots o.g, (e.1, hd o.g e) = p := by
  obtain ⟨e, h1, h2⟩ := List.mem_map.mp (h.edges.mem_iff.mpr hp)
  exact ⟨e, mem_slotList.mp h1, h2⟩

/-- The balance of free entries in the directed case. -/
def DBal (g : Array (Array Nat)) (F : Finset Slot) (u c : Nat) : Prop :=
  ∀ x, (F.filter fun e => e.1 = x).card + (if x = c then 1 else 0) = (F.filter fun e => hd g e = x).card + (if x = u then 1 else 0)

theorem filter_sdiff_card {F : Finset Slot} {e : Slot} (he : e ∈ F) (P : Slot → Prop) [DecidablePred P] : ((F \ {e}).filter P).card + (if P e then 1 else 0) = (F.filter P).card := by
  by_cases hp : P e
  · rw [if_pos hp]
    have : (F \ {e}).filter P = (F.filter P).erase e := by
      ext a
      simp only [mem_filter, mem_sdiff, mem_singleton, mem_erase]
      tauto
    rw [this, card_erase_of_mem (mem_filter.mpr ⟨he, hp⟩)]
    have : 0 < (F.filter P).card := card_pos.mpr ⟨e, mem_filter.mpr ⟨he, hp⟩⟩
    omega
  · rw [if_neg hp]
    have : (F \ {e}).filter P = F.filter P := by
      ext a
      simp only [mem_filter, mem_sdiff, mem_singleton]
      constructor
      · rintro ⟨⟨h1, -⟩, h2⟩
        exact ⟨h1, h2⟩
      · rintro ⟨h1, h2⟩
        refine ⟨⟨h1, ?_⟩, h2⟩
        rintro rfl
        exact hp h2
    rw [this, Nat.add_zero]

/-- The directed case of the search. -/
def dKind (g : Array (Array Nat)) (hv : ∀ e ∈ slots g, hd g e < g.size) : Kind g setUsed where
  cl e := {e}
  self e := mem_singleton_self e
  symm a b h := by
    rw [mem_singleton] at h ⊢
    exact h.symm
  Bal := DBal g
  stuck F u c h hno := by
    by_contra hc
    have := h u
    rw [if_neg hc, if_pos rfl, filter_eq_empty_iff.mpr fun {e} he => hno e he, card_empty] at this
    omega
  next F u c e h he hu _ := by
    intro x
    have := h x
    have h1 := filter_sdiff_card he fun e => e.1 = x
    have h2 := filter_sdiff_card he fun e => hd g e = x
    have sw : ∀ y, (if x = y then 1 else 0) = (if y = x then 1 else 0) := by
      intro y
      by_cases hy : x = y
      · rw [if_pos hy, if_pos hy.symm]
      · rw [if_neg hy, if_neg fun h => hy h.symm]
    rw [hu] at h1
    rw [sw u] at this
    rw [sw (hd g e)]
    omega
  any F c w h := by
    intro x
    have := h x
    omega
  markOk F u c e used _ he _ hf := setUsed_tot hf (hf.sub he)
  valid := hv

theorem DRep.valid_hd {o : DObj} {n : Nat} {E : List (Nat × Nat)} (h : DRep o n E) : ∀ e ∈ slots o.g, hd o.g e < o.g.size := by
  intro e he
  rw [h.gsz]
  exact (h.valid _ (h.edge_of_slot he)).2

theorem dcheck {o : DObj} {n : Nat} {E : List (Nat × Nat)} (h : DRep o n E) :
    Tot o.check (fun c => (c.1 = true ↔ ∀ x, x < n → (E.map Prod.fst).count x = (E.map Prod.snd).count x) ∧ c.2 = E.length) := by
  unfold DObj.check
  refine (Tot.forUp (lo := 0) (hi := o.n) (P := fun i (c : Bool × Nat) => (c.1 = true ↔ ∀ x, x < i → (E.map Prod.fst).count x = (E.map Prod.snd).count x) ∧ c.2 = ∑ u ∈ range i, sz o.g u)
    (by omega) ?_ ?_).mono ?_
  · simp
  · rintro i ⟨b, k⟩ _ hi ⟨h1, h2⟩
    dsimp only at h1 h2
    rw [h.hn] at hi
    rw [rd_at #[] (by rw [h.gsz]; exact hi), ok_bind, rd_at 0 (by rw [h.isz]; exact hi), ok_bind]
    refine tot_ok.mpr ⟨?_, ?_⟩
    · dsimp only
      have hs := h.sz_eq hi
      unfold sz at hs
      rw [Bool.and_eq_true, h1, decide_eq_true_iff, h.deg i hi, hs]
      constructor
      · rintro ⟨a, b⟩ x hx
        by_cases hxi : x = i
        · rw [hxi, b]
        · exact a x (by omega)
      · intro a
        exact ⟨fun x hx => a x (by omega), (a i (by omega)).symm⟩
    · dsimp only
      rw [sum_range_succ, h2]
      rfl
  · rintro c ⟨h1, h2⟩
    rw [h.hn] at h1 h2
    refine ⟨h1, ?_⟩
    rw [h2, ← h.length, total_eq, h.gsz]

theorem dstart {o : DObj} {n : Nat} {E : List (Nat × Nat)} (h : DRep o n E) (hn : 0 < n) {start : Option Nat} (hs : ∀ s, start = some s → s < n) :
    Tot (o.start start) (fun s => s < n ∧ (∀ s', start = some s' → s = s') ∧ (start = none → E = [] ∨ ∃ p ∈ E, p.2 = s)) := by
  cases start with
  | some s =>
    refine tot_ok.mpr ⟨hs s rfl, fun s' h => by cases h; rfl, fun h => by cases h⟩
  | none =>
    unfold DObj.start
    dsimp only
    refine (Tot.forUp (lo := 0) (hi := o.n) (P := fun i (s : Nat) => s < n ∧ ((∀ p ∈ E, i ≤ p.2) ∨ ∃ p ∈ E, p.2 = s)) (by omega) ⟨hn, Or.inl fun p _ => Nat.zero_le _⟩ ?_).mono ?_
    · intro i s _ hi ⟨h1, h2⟩
      rw [h.hn] at hi
      rw [rd_at 0 (by rw [h.isz]; exact hi), ok_bind, h.deg i hi]
      split_ifs with hc
      · refine tot_ok.mpr ⟨hi, Or.inr ?_⟩
        have : i ∈ E.map Prod.snd := List.count_pos_iff.mp (Nat.pos_of_ne_zero hc)
        obtain ⟨p, h3, h4⟩ := List.mem_map.mp this
        exact ⟨p, h3, h4⟩
      · refine tot_ok.mpr ⟨h1, ?_⟩
        rcases h2 with h2 | h2
        · left
          intro p hp
          have h3 := h2 p hp
          have h4 : p.2 ≠ i := by
            intro h4
            have : 0 < (E.map Prod.snd).count i := List.count_pos_iff.mpr (List.mem_map.mpr ⟨p, hp, h4⟩)
            omega
          omega
        · exact Or.inr h2
    · intro s ⟨h1, h2⟩
      refine ⟨h1, fun s' h => (by cases h), fun _ => ?_⟩
      rcases h2 with h2 | h2
      · left
        rw [h.hn] at h2
        refine List.eq_nil_iff_forall_not_mem.mpr fun p hp => ?_
        have := h2 p hp
        have := (h.valid p hp).2
        omega
      · exact Or.inr h2

/-- In a closed walk a property that is passed along the steps holds everywhere if it holds somewhere. -/
theorem closed_stays {V : Nat → Prop} {w : List Nat} {a : Nat} (hc : Closed w) (ha : a ∈ w) (hV : V a) (h : ∀ p ∈ steps w, V p.1 → V p.2) : ∀ x ∈ w, V x := by
  obtain ⟨l1, l2, rfl⟩ := List.append_of_mem ha
  have h2 : ∀ p ∈ steps (a :: l2), p ∈ steps (l1 ++ a :: l2) := by
    intro p hp
    cases l2 with
    | nil => cases hp
    | cons b l2 =>
      rw [steps_append]
      rw [steps_cons] at hp
      exact List.mem_append_right _ hp
  have h3 := walk_stays (w := a :: l2) (a := a) rfl hV fun p hp => h p (h2 p hp)
  have h4 : V ((a :: l2).getLast (by simp)) := h3 _ (List.getLast_mem _)
  have h5 : (l1 ++ a :: l2).head? = some ((a :: l2).getLast (by simp)) := by
    rw [hc, List.getLast?_append, List.getLast?_eq_getLast_of_ne_nil (by simp)]
    rfl
  exact walk_stays h5 h4 h

theorem mem_of_step {w : List Nat} {p : Nat × Nat} (h : p ∈ steps w) : p.1 ∈ w ∧ p.2 ∈ w := List.of_mem_zip h |>.imp id List.mem_of_mem_tail

/-- What the circuit function promises. -/
def DCircuit (E : List (Nat × Nat)) (start : Option Nat) : Option (List Nat) → Prop
  | some w => DTrail E w ∧ Closed w ∧ ∀ s, start = some s → w.head? = some s
  | none => ¬ ∃ w, DTrail E w ∧ Closed w ∧ ∀ s, start = some s → s ∈ w

theorem balanced_of_closed {E : List (Nat × Nat)} {w : List Nat} (h : DTrail E w) (hc : Closed w) (x : Nat) : (E.map Prod.fst).count x = (E.map Prod.snd).count x := by
  obtain ⟨a, ha⟩ : ∃ a, w.head? = some a := by
    cases w with
    | nil => exact absurd rfl h.1
    | cons a w => exact ⟨a, rfl⟩
  have := count_walk ha (by rw [← hc]; exact ha) x
  rw [(h.2.map Prod.fst).count_eq, (h.2.map Prod.snd).count_eq] at this
  omega

theorem dcircuit_tot {o : DObj} {n : Nat} {E : List (Nat × Nat)} (h : DRep o n E) (hn : 0 < n) {start : Option Nat} (hs : ∀ s, start = some s → s < n) :
    Tot (o.circuit start) (DCircuit E start) := by
  unfold DObj.circuit
  refine (dcheck h).bind ?_
  rintro c ⟨c1, c2⟩
  by_cases hc : c.1 = true
  · rw [if_pos hc]
    have hbal := c1.mp hc
    refine (dstart h hn hs).bind ?_
    rintro s ⟨s1, s2, s3⟩
    have hb : (dKind o.g h.valid_hd).Bal (slots o.g) s s := by
      intro x
      rw [h.in_eq, h.out_eq]
      by_cases hx : x < n
      · rw [hbal x hx]
      · have z1 : (E.map Prod.fst).count x = 0 := by
          refine List.count_eq_zero_of_not_mem fun hm => ?_
          obtain ⟨p, p1, p2⟩ := List.mem_map.mp hm
          have := (h.valid p p1).1
          omega
        have z2 : (E.map Prod.snd).count x = 0 := by
          refine List.count_eq_zero_of_not_mem fun hm => ?_
          obtain ⟨p, p1, p2⟩ := List.mem_map.mp hm
          have := (h.valid p p1).2
          omega
        rw [z1, z2]
    refine (search_tot (dKind o.g h.valid_hd) (by rw [h.gsz]; exact s1) hb).bind ?_
    rintro t ⟨es, w1, w2, w3, w4, w5⟩
    have hmark : ∀ e, e ∈ marked (dKind o.g h.valid_hd) es ↔ e ∈ es := by
      intro e
      rw [mem_marked]
      constructor
      · rintro ⟨a, ha, hea⟩
        have : e = a := mem_singleton.mp hea
        rw [this]
        exact ha
      · intro he
        exact ⟨e, he, mem_singleton_self e⟩
    have hnd : es.Nodup := w3.imp fun {a b} hab hc => hab (by rw [hc]; exact mem_singleton_self b)
    have hsize : t.res.size = es.length + 1 := by
      rw [← Array.length_toList, w4]
      simp [verts]
    have hcard : (slots o.g).card = E.length := by rw [card_slots, h.length]
    by_cases hsz : t.res.size ≠ c.2 + 1
    · rw [if_pos hsz]
      refine tot_ok.mpr ?_
      rintro ⟨w, v1, v2, v3⟩
      apply hsz
      rw [hsize, c2]
      -- all entries are used
      have hall : ∀ e ∈ slots o.g, e.1 ∈ verts o.g s es → e ∈ es := by
        intro e he hv
        by_contra hne
        refine w5 e.1 hv e ?_ rfl
        rw [mem_sdiff, hmark]
        exact ⟨he, hne⟩
      have hsw : E = [] ∨ s ∈ w := by
        cases hst : start with
        | some s' =>
          right
          rw [s2 s' hst]
          exact v3 s' hst
        | none =>
          rcases s3 hst with h' | ⟨p, p1, p2⟩
          · exact Or.inl h'
          · right
            rw [← p2]
            exact (mem_of_step (v1.2.mem_iff.mpr p1)).2
      have hlen : es.length = E.length := by
        rw [← hcard, ← List.toFinset_card_of_nodup hnd]
        congr 1
        refine Finset.Subset.antisymm (fun e he => w2 e (List.mem_toFinset.mp he)) fun e he => ?_
        rw [List.mem_toFinset]
        rcases hsw with h' | hsw
        · exfalso
          have := h.edge_of_slot he
          rw [h'] at this
          cases this
        · refine hall e he ?_
          refine closed_stays (V := fun x => x ∈ verts o.g s es) v2 hsw (by simp [verts]) ?_ e.1 (mem_of_step (v1.2.mem_iff.mpr (h.edge_of_slot he))).1
          intro p hp hpV
          obtain ⟨f, f1, f2⟩ := h.slot_of_edge (v1.2.mem_iff.mp hp)
          have f3 := hall f f1 (by rw [← f2] at hpV; exact hpV)
          rw [← f2]
          exact List.mem_cons_of_mem _ (List.mem_map.mpr ⟨f, f3, rfl⟩)
      rw [hlen]
    · rw [if_neg hsz]
      have hlen : es.length = E.length := by
        rw [c2] at hsz
        omega
      have hw : t.res.toList.reverse = verts o.g s es := by rw [w4, List.reverse_reverse]
      rw [hw]
      refine tot_ok.mpr ⟨⟨by simp [verts], ?_⟩, ?_, ?_⟩
      · rw [steps_verts w1]
        have : es.Perm (slotList o.g) := by
          rw [List.perm_ext_iff_of_nodup hnd (nodup_slotList _)]
          intro e
          rw [mem_slotList]
          have : es.toFinset = slots o.g := eq_of_subset_of_card_le (fun e he => w2 e (List.mem_toFinset.mp he)) (by rw [hcard, List.toFinset_card_of_nodup hnd, hlen])
          rw [← this, List.mem_toFinset]
        exact (this.map _).trans h.edges
      · unfold Closed
        rw [last_verts w1]
        rfl
      · intro s' hs'
        rw [← s2 s' hs']
        rfl
  · rw [if_neg hc]
    refine tot_ok.mpr ?_
    rintro ⟨w, v1, v2, -⟩
    exact hc (c1.mpr fun x _ => balanced_of_closed v1 v2 x)

end Eulerian
