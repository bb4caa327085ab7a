import Verif.Proof.EulerianTrail
import Mathlib.Algebra.Order.BigOperators.Group.List
import Mathlib.Algebra.BigOperators.Group.List.Basic

namespace Eulerian
open Cxx Finset

/-- The entry of the same edge at its other end. -/
def mate (o : UObj) (e : Slot) : Slot := (hd o.g e, hd o.inv e)

/-- The object holds the edges `E`; `S` has one entry of each. -/
structure URep (o : UObj) (n : Nat) (E : List (Nat × Nat)) (S : List Slot) : Prop where
  hn : o.n = n
  gsz : o.g.size = n
  isz : o.inv.size = n
  irow : ∀ u, sz o.inv u = sz o.g u
  edges : S.map (fun e => (e.1, hd o.g e)) = E
  nodup : (S ++ S.map (mate o)).Nodup
  mem : ∀ e, e ∈ slots o.g ↔ e ∈ S ++ S.map (mate o)
  invol : ∀ e ∈ slots o.g, mate o (mate o e) = e
  valid : ∀ p ∈ E, p.1 < n ∧ p.2 < n

theorem sz_replicate (n u : Nat) : sz (Array.replicate n #[]) u = 0 := by
  unfold sz at'
  rw [Array.getElem?_replicate]
  split_ifs <;> rfl

theorem unew (n : Nat) : URep (UObj.new n) n [] [] := by
  have h : ∀ e, e ∉ slots (UObj.new n).g := by
    intro e he
    have := (mem_slots.mp he).2
    rw [show (UObj.new n).g = Array.replicate n #[] from rfl, sz_replicate] at this
    omega
  refine ⟨rfl, by simp [UObj.new], by simp [UObj.new], fun u => ?_, rfl, by simp, ?_, fun e he => absurd he (h e), by simp⟩
  · rw [show (UObj.new n).g = Array.replicate n #[] from rfl, show (UObj.new n).inv = Array.replicate n #[] from rfl]
  · intro e
    constructor
    · intro he
      exact absurd he (h e)
    · intro he
      simp at he

/-- The entries after one more. -/
theorem push_entry {g g' : Array (Array Nat)} {u x : Nat} (hu : u < g.size) (h : g'.size = g.size ∧ ∀ v, at' #[] g' v = if u = v then (at' #[] g u).push x else at' #[] g v) :
    (∀ e, hd g' e = if e = (u, sz g u) then x else hd g e) ∧ (∀ v, sz g' v = if u = v then sz g u + 1 else sz g v) ∧ (∀ e, e ∈ slots g' ↔ e ∈ slots g ∨ e = (u, sz g u)) := by
  have hs : ∀ v, sz g' v = if u = v then sz g u + 1 else sz g v := by
    intro v
    unfold sz
    rw [h.2]
    split_ifs
    · simp
    · rfl
  refine ⟨?_, hs, ?_⟩
  · rintro ⟨v, i⟩
    unfold hd
    dsimp only
    rw [h.2]
    by_cases hc : u = v
    · subst hc
      rw [if_pos rfl]
      have hp : at' 0 ((at' #[] g u).push x) i = if i = (at' #[] g u).size then x else at' 0 (at' #[] g u) i := by
        unfold at'
        rw [Array.getElem?_push]
        split_ifs <;> rfl
      rw [hp]
      unfold sz
      by_cases hi : i = (at' #[] g u).size
      · rw [if_pos hi, if_pos (by rw [hi])]
      · rw [if_neg hi, if_neg fun h => hi (Prod.mk.inj h).2]
    · rw [if_neg hc, if_neg fun h => hc (Prod.mk.inj h).1.symm]
  · rintro ⟨v, i⟩
    rw [mem_slots, mem_slots, hs, h.1]
    dsimp only
    by_cases hc : u = v
    · subst hc
      rw [if_pos rfl]
      constructor
      · rintro ⟨h1, h2⟩
        by_cases hi : i = sz g u
        · exact Or.inr (by rw [hi])
        · exact Or.inl ⟨h1, by omega⟩
      · rintro (⟨h1, h2⟩ | h1)
        · exact ⟨h1, by omega⟩
        · have := (Prod.mk.inj h1).2
          exact ⟨hu, by omega⟩
    · rw [if_neg hc]
      constructor
      · exact Or.inl
      · rintro (h1 | h1)
        · exact h1
        · exact absurd (Prod.mk.inj h1).1.symm hc

/-- The rows after `add_edge`. -/
structure Added (o o' : UObj) (u v : Nat) : Prop where
  n : o'.n = o.n
  g : ∃ g1 : Array (Array Nat), (g1.size = o.g.size ∧ ∀ x, at' #[] g1 x = if u = x then (at' #[] o.g u).push v else at' #[] o.g x) ∧
    (o'.g.size = g1.size ∧ ∀ x, at' #[] o'.g x = if v = x then (at' #[] g1 v).push u else at' #[] g1 x) ∧
    ∃ i1 : Array (Array Nat), (i1.size = o.inv.size ∧ ∀ x, at' #[] i1 x = if u = x then (at' #[] o.inv u).push (sz g1 v) else at' #[] o.inv x) ∧
    (o'.inv.size = i1.size ∧ ∀ x, at' #[] o'.inv x = if v = x then (at' #[] i1 v).push (sz o.g u) else at' #[] i1 x)

theorem uadd {o : UObj} {n : Nat} {E : List (Nat × Nat)} {S : List Slot} (h : URep o n E S) {u v : Nat} (hu : u < n) (hv : v < n) :
    Tot (o.addEdge u v) (fun o' => Added o o' u v ∧ ∃ S', URep o' n (E ++ [(u, v)]) S') := by
  unfold UObj.addEdge
  have hug : u < o.g.size := by rw [h.gsz]; exact hu
  rw [rd_at #[] hug, ok_bind]
  dsimp only
  refine (pushRow_tot hug).bind ?_
  intro g1 hg1
  have hvg : v < g1.size := by rw [hg1.1, h.gsz]; exact hv
  rw [rd_at #[] hvg, ok_bind]
  refine (pushRow_tot hvg).bind ?_
  intro g2 hg2
  have hui : u < o.inv.size := by rw [h.isz]; exact hu
  refine (pushRow_tot hui).bind ?_
  intro i1 hi1
  have hvi : v < i1.size := by rw [hi1.1, h.isz]; exact hv
  refine (pushRow_tot hvi).bind ?_
  intro i2 hi2
  obtain ⟨o', ho'⟩ : ∃ o' : UObj, o' = { o with g := g2, inv := i2 } := ⟨_, rfl⟩
  have e1 : o'.g = g2 := by rw [ho']
  have e2 : o'.inv = i2 := by rw [ho']
  have e3 : o'.n = o.n := by rw [ho']
  rw [← ho']
  refine tot_ok.mpr ⟨⟨e3, g1, hg1, by rw [e1]; exact hg2, i1, hi1, by rw [e2]; exact hi2⟩, ?_⟩
  obtain ⟨p1, p2, p3⟩ := push_entry hug hg1
  obtain ⟨q1, q2, q3⟩ := push_entry hvg hg2
  obtain ⟨r1, r2, -⟩ := push_entry hui hi1
  obtain ⟨t1, t2, -⟩ := push_entry hvi hi2
  have hsz1 : ∀ x, sz i1 x = sz g1 x := by
    intro x
    rw [r2, p2, h.irow u, h.irow x]
  obtain ⟨a, ha⟩ : ∃ a : Slot, a = (u, sz o.g u) := ⟨_, rfl⟩
  obtain ⟨b, hb⟩ : ∃ b : Slot, b = (v, sz g1 v) := ⟨_, rfl⟩
  rw [← ha] at p1 p3
  rw [← hb] at q1 q3
  rw [h.irow u, ← ha] at r1
  rw [hsz1 v, ← hb] at t1
  have ha0 : a ∉ slots o.g := by
    rw [ha, mem_slots]
    dsimp only
    omega
  have hb0 : b ∉ slots g1 := by
    rw [hb, mem_slots]
    dsimp only
    omega
  have hab : a ≠ b := by
    intro hc
    exact hb0 (by rw [← hc]; exact (p3 a).mpr (Or.inr rfl))
  have hb1 : b ∉ slots o.g := fun hc => hb0 ((p3 b).mpr (Or.inl hc))
  have mslot : ∀ e, e ∈ slots o'.g ↔ e ∈ slots o.g ∨ e = a ∨ e = b := by
    intro e
    rw [e1, q3, p3]
    tauto
  have ma : mate o' a = b := by
    unfold mate
    rw [e1, e2, q1, t1, if_neg hab, if_neg hab, p1, r1, if_pos rfl, if_pos rfl, hb]
    rfl
  have mb : mate o' b = a := by
    unfold mate
    rw [e1, e2, q1, t1, if_pos rfl, if_pos rfl, ha]
    rfl
  have hdold : ∀ e ∈ slots o.g, hd o'.g e = hd o.g e := by
    intro e he
    rw [e1, q1, if_neg (by rintro rfl; exact hb1 he), p1, if_neg (by rintro rfl; exact ha0 he)]
  have mold : ∀ e ∈ slots o.g, mate o' e = mate o e := by
    intro e he
    unfold mate
    rw [hdold e he, e2, t1, if_neg (by rintro rfl; exact hb1 he), r1, if_neg (by rintro rfl; exact ha0 he)]
  have hSmem : ∀ e ∈ S, e ∈ slots o.g := fun e he => (h.mem e).mpr (List.mem_append_left _ he)
  have hSm : S.map (mate o') = S.map (mate o) := List.map_congr_left fun e he => mold e (hSmem e he)
  have hmm : ∀ e ∈ slots o.g, mate o e ∈ slots o.g := by
    intro e he
    rcases List.mem_append.mp ((h.mem e).mp he) with h1 | h1
    · exact (h.mem _).mpr (List.mem_append_right _ (List.mem_map.mpr ⟨e, h1, rfl⟩))
    · obtain ⟨f, f1, f2⟩ := List.mem_map.mp h1
      rw [← f2, h.invol f (hSmem f f1)]
      exact hSmem f f1
  refine ⟨S ++ [a], ?_⟩
  refine ⟨by rw [e3, h.hn], by rw [e1, hg2.1, hg1.1, h.gsz], by rw [e2, hi2.1, hi1.1, h.isz], ?_, ?_, ?_, ?_, ?_, ?_⟩
  · intro x
    rw [e1, e2, t2, q2, hsz1 v, hsz1 x]
  · rw [List.map_append, List.map_congr_left (g := fun e => (e.1, hd o.g e)) (fun e he => by rw [hdold e (hSmem e he)]), h.edges]
    have : hd o'.g a = v := by
      have := congrArg Prod.fst ma
      rw [hb] at this
      exact this
    rw [List.map_cons, List.map_nil, this, ha]
  · have hper : (S ++ [a] ++ (S ++ [a]).map (mate o')).Perm ((S ++ S.map (mate o)) ++ [a, b]) := by
      rw [List.map_append, hSm, List.map_cons, List.map_nil, ma]
      rw [List.perm_iff_count]
      intro x
      simp only [List.count_append, List.count_cons, List.count_nil]
      omega
    rw [hper.nodup_iff, List.nodup_append]
    refine ⟨h.nodup, by simp [hab], ?_⟩
    intro x hx y hy hxy
    rw [hxy] at hx
    have hx' := (h.mem y).mpr hx
    rcases List.mem_cons.mp hy with rfl | hy
    · exact ha0 hx'
    · have : y = b := by simpa using hy
      rw [this] at hx'
      exact hb1 hx'
  · intro e
    rw [mslot, h.mem, List.map_append, hSm, List.map_cons, List.map_nil, ma]
    simp only [List.mem_append, List.mem_singleton]
    tauto
  · intro e he
    rcases (mslot e).mp he with h1 | rfl | rfl
    · rw [mold e h1, mold _ (hmm e h1)]
      exact h.invol e h1
    · rw [ma, mb]
    · rw [mb, ma]
  · intro p hp
    rcases List.mem_append.mp hp with hp | hp
    · exact h.valid p hp
    · have : p = (u, v) := by simpa using hp
      rw [this]
      exact ⟨hu, hv⟩

section
variable {o : UObj} {n : Nat} {E : List (Nat × Nat)} {S : List Slot}

theorem URep.smem (h : URep o n E S) {e : Slot} (he : e ∈ S) : e ∈ slots o.g := (h.mem e).mpr (List.mem_append_left _ he)

theorem URep.mate_mem (h : URep o n E S) {e : Slot} (he : e ∈ slots o.g) : mate o e ∈ slots o.g := by
  rcases List.mem_append.mp ((h.mem e).mp he) with h1 | h1
  · exact (h.mem _).mpr (List.mem_append_right _ (List.mem_map.mpr ⟨e, h1, rfl⟩))
  · obtain ⟨f, f1, f2⟩ := List.mem_map.mp h1
    rw [← f2, h.invol f (h.smem f1)]
    exact h.smem f1

theorem URep.mate_ne (h : URep o n E S) {e : Slot} (he : e ∈ slots o.g) : mate o e ≠ e := by
  intro hc
  have hnd := h.nodup
  rw [List.nodup_append] at hnd
  rcases List.mem_append.mp ((h.mem e).mp he) with h1 | h1
  · exact hnd.2.2 e h1 _ (List.mem_map.mpr ⟨e, h1, rfl⟩) hc.symm
  · obtain ⟨f, f1, f2⟩ := List.mem_map.mp h1
    have : mate o e = f := by rw [← f2]; exact h.invol f (h.smem f1)
    rw [hc] at this
    exact hnd.2.2 f f1 e h1 this.symm

theorem URep.hd_mate (h : URep o n E S) {e : Slot} (he : e ∈ slots o.g) : hd o.g (mate o e) = e.1 := congrArg Prod.fst (h.invol e he)

theorem URep.sym_of_slot (h : URep o n E S) {e : Slot} (he : e ∈ slots o.g) : ∃ p ∈ E, s(p.1, p.2) = s(e.1, hd o.g e) := by
  rcases List.mem_append.mp ((h.mem e).mp he) with h1 | h1
  · exact ⟨(e.1, hd o.g e), by rw [← h.edges]; exact List.mem_map.mpr ⟨e, h1, rfl⟩, rfl⟩
  · obtain ⟨f, f1, f2⟩ := List.mem_map.mp h1
    refine ⟨(f.1, hd o.g f), by rw [← h.edges]; exact List.mem_map.mpr ⟨f, f1, rfl⟩, ?_⟩
    rw [← f2, h.hd_mate (h.smem f1)]
    exact Sym2.eq_swap

theorem URep.slot_of_sym (h : URep o n E S) {p q : Nat × Nat} (hp : p ∈ E) (hpq : s(p.1, p.2) = s(q.1, q.2)) : ∃ e ∈ slots o.g, e.1 = q.1 ∧ hd o.g e = q.2 := by
  rw [← h.edges] at hp
  obtain ⟨e, e1, e2⟩ := List.mem_map.mp hp
  have he := h.smem e1
  rw [Sym2.eq_iff] at hpq
  rw [← e2] at hpq
  rcases hpq with ⟨h1, h2⟩ | ⟨h1, h2⟩
  · exact ⟨e, he, h1, h2⟩
  · exact ⟨mate o e, h.mate_mem he, h2, by rw [h.hd_mate he]; exact h1⟩

/-- The degree of a vertex. -/
def deg (E : List (Nat × Nat)) (x : Nat) : Nat := (E.map Prod.fst).count x + (E.map Prod.snd).count x

theorem slots_card_at (g : Array (Array Nat)) (x : Nat) (hx : x < g.size) : ((slots g).filter fun e => e.1 = x).card = sz g x := by
  have : ((slots g).filter fun e => e.1 = x) = (range (sz g x)).image fun i => (x, i) := by
    ext ⟨y, i⟩
    rw [mem_filter, mem_slots, mem_image]
    dsimp only
    constructor
    · rintro ⟨⟨h1, h2⟩, rfl⟩
      exact ⟨i, mem_range.mpr h2, rfl⟩
    · rintro ⟨j, h1, h2⟩
      obtain ⟨rfl, rfl⟩ := Prod.mk.inj h2
      exact ⟨⟨hx, mem_range.mp h1⟩, rfl⟩
  rw [this, card_image_of_injective _ (fun a b h => (Prod.mk.inj h).2), card_range]

theorem URep.slots_eq (h : URep o n E S) : slots o.g = (S ++ S.map (mate o)).toFinset := by
  ext e
  rw [List.mem_toFinset, h.mem]

theorem URep.card (h : URep o n E S) : (slots o.g).card = 2 * E.length := by
  rw [h.slots_eq, List.toFinset_card_of_nodup h.nodup, List.length_append, List.length_map, ← h.edges, List.length_map]
  omega

theorem URep.deg_eq (h : URep o n E S) (x : Nat) : ((slots o.g).filter fun e => e.1 = x).card = deg E x := by
  have e1 : ((slots o.g).filter fun e => e.1 = x).card = (S ++ S.map (mate o)).countP (fun e => decide (e.1 = x)) := by
    rw [h.slots_eq, List.countP_eq_length_filter, ← List.toFinset_card_of_nodup (h.nodup.filter _)]
    congr 1
    ext e
    rw [mem_filter, List.mem_toFinset, List.mem_toFinset, List.mem_filter, decide_eq_true_iff]
  rw [e1, List.countP_append, List.countP_map]
  unfold deg
  rw [← h.edges, List.map_map, List.map_map, List.count_eq_countP, List.count_eq_countP, List.countP_map, List.countP_map]
  rfl

/-- The free entries in the undirected case: both or none of the two entries of an edge, and odd numbers at the two ends of the search only. -/
def UBal (o : UObj) (F : Finset Slot) (u c : Nat) : Prop :=
  (∀ e ∈ F, mate o e ∈ F) ∧ ∀ x, ((F.filter fun e => e.1 = x).card + (if u = x then 1 else 0) + (if c = x then 1 else 0)) % 2 = 0

/-- The undirected case of the search. -/
def uKind (h : URep o n E S) : Kind o.g o.mark where
  cl e := if e ∈ slots o.g then {e, mate o e} else {e}
  self e := by
    split_ifs <;> simp
  symm a b hab := by
    by_cases hb : b ∈ slots o.g
    · rw [if_pos hb, mem_insert, mem_singleton] at hab
      rcases hab with rfl | rfl
      · rw [if_pos hb]
        simp
      · rw [if_pos (h.mate_mem hb), h.invol b hb]
        simp
    · rw [if_neg hb, mem_singleton] at hab
      rw [hab, if_neg hb]
      simp
  Bal := UBal o
  stuck F u c hb hno := by
    by_contra hc
    have := hb.2 u
    rw [filter_eq_empty_iff.mpr fun {e} he => hno e he, card_empty, if_pos rfl, if_neg fun h => hc h.symm] at this
    omega
  next F u c e hb he hu hF := by
    have hes := hF he
    rw [if_pos hes]
    have hm := hb.1 e he
    have hset : F \ {e, mate o e} = (F \ {e}) \ {mate o e} := by
      ext x
      simp only [mem_sdiff, mem_insert, mem_singleton]
      tauto
    refine ⟨?_, ?_⟩
    · intro f hf
      rw [mem_sdiff, mem_insert, mem_singleton] at hf ⊢
      refine ⟨hb.1 f hf.1, ?_⟩
      rintro (hc | hc)
      · refine hf.2 (Or.inr ?_)
        rw [← hc, h.invol f (hF hf.1)]
      · refine hf.2 (Or.inl ?_)
        have := congrArg (mate o) hc
        rwa [h.invol f (hF hf.1), h.invol e hes] at this
    · intro x
      rw [hset]
      have h1 := filter_sdiff_card he fun e => e.1 = x
      have h2 := filter_sdiff_card (F := F \ {e}) (e := mate o e) (by rw [mem_sdiff, mem_singleton]; exact ⟨hm, h.mate_ne hes⟩) fun e => e.1 = x
      have h3 := hb.2 x
      rw [hu] at h1
      have : (mate o e).1 = hd o.g e := rfl
      rw [this] at h2
      omega
  any F c w hb := by
    refine ⟨hb.1, fun x => ?_⟩
    have := hb.2 x
    omega
  markOk F u c e used hb he hu hf := by
    have hes := hf.sub he
    rw [if_pos hes]
    have hs := mem_slots.mp hes
    have hset : F \ {e, mate o e} = (F \ {e}) \ {mate o e} := by
      ext x
      simp only [mem_sdiff, mem_insert, mem_singleton]
      tauto
    rw [hset]
    unfold UObj.mark
    rw [rd_at #[] hs.1, ok_bind, rd_at 0 hs.2, ok_bind]
    refine (setUsed_tot hf hes).bind ?_
    intro used1 hu1
    have hi : e.1 < o.inv.size := by rw [h.isz, ← h.gsz]; exact hs.1
    have hj : e.2 < (at' #[] o.inv e.1).size := by
      have := h.irow e.1
      unfold sz at this
      rw [this]
      exact hs.2
    rw [rd_at #[] hi, ok_bind, rd_at 0 hj, ok_bind]
    have hme : (at' 0 (at' #[] o.g e.1) e.2, at' 0 (at' #[] o.inv e.1) e.2) ∈ slots o.g := h.mate_mem hes
    rw [getUsed_tot hu1 hme, ok_bind]
    have hin : (at' 0 (at' #[] o.g e.1) e.2, at' 0 (at' #[] o.inv e.1) e.2) ∈ F \ {(e.1, e.2)} := by
      rw [mem_sdiff, mem_singleton]
      exact ⟨hb.1 e he, h.mate_ne hes⟩
    rw [show (!decide ((at' 0 (at' #[] o.g e.1) e.2, at' 0 (at' #[] o.inv e.1) e.2) ∉ F \ {(e.1, e.2)})) = true by
      rw [decide_eq_false (not_not.mpr hin)]; rfl, check_true, ok_bind]
    exact setUsed_tot hu1 hme
  valid := by
    intro e he
    rw [h.gsz]
    have := (mem_slots.mp (h.mate_mem he)).1
    rw [h.gsz] at this
    exact this

theorem ucheck (h : URep o n E S) : Tot o.check (fun c => (c.1 = true ↔ ∀ x, x < n → deg E x % 2 = 0) ∧ c.2 = 2 * E.length) := by
  unfold UObj.check
  refine (Tot.forUp (lo := 0) (hi := o.n) (P := fun i (c : Bool × Nat) => (c.1 = true ↔ ∀ x, x < i → deg E x % 2 = 0) ∧ c.2 = ∑ u ∈ range i, sz o.g u)
    (by omega) ?_ ?_).mono ?_
  · simp
  · rintro i ⟨b, k⟩ _ hi ⟨h1, h2⟩
    dsimp only at h1 h2
    rw [h.hn] at hi
    rw [rd_at #[] (by rw [h.gsz]; exact hi), ok_bind]
    refine tot_ok.mpr ⟨?_, ?_⟩
    · dsimp only
      have hs := slots_card_at o.g i (by rw [h.gsz]; exact hi)
      rw [h.deg_eq] at hs
      unfold sz at hs
      rw [Bool.and_eq_true, h1, decide_eq_true_iff, ← hs]
      constructor
      · rintro ⟨a, b⟩ x hx
        by_cases hxi : x = i
        · rw [hxi, b]
        · exact a x (by omega)
      · intro a
        exact ⟨fun x hx => a x (by omega), a i (by omega)⟩
    · dsimp only
      rw [sum_range_succ, h2]
      rfl
  · rintro c ⟨h1, h2⟩
    rw [h.hn] at h1 h2
    refine ⟨h1, ?_⟩
    rw [h2, ← h.card, card_slots, total_eq, h.gsz]

theorem ustart (h : URep o n E S) (hn : 0 < n) {start : Option Nat} (hs : ∀ s, start = some s → s < n) :
    Tot (o.start start) (fun s => s < n ∧ (∀ s', start = some s' → s = s') ∧ (start = none → E = [] ∨ ∃ e ∈ slots o.g, e.1 = s)) := by
  cases start with
  | some s =>
    refine tot_ok.mpr ⟨hs s rfl, fun s' h => by cases h; rfl, fun h => by cases h⟩
  | none =>
    unfold UObj.start
    dsimp only
    refine (Tot.forUp (lo := 0) (hi := o.n) (P := fun i (s : Nat) => s < n ∧ ((∀ e ∈ slots o.g, i ≤ e.1) ∨ ∃ e ∈ slots o.g, e.1 = s)) (by omega) ⟨hn, Or.inl fun p _ => Nat.zero_le _⟩ ?_).mono ?_
    · intro i s _ hi ⟨h1, h2⟩
      rw [h.hn] at hi
      rw [rd_at #[] (by rw [h.gsz]; exact hi), ok_bind]
      split_ifs with hc
      · refine tot_ok.mpr ⟨hi, Or.inr ⟨(i, 0), mem_slots.mpr ⟨by rw [h.gsz]; exact hi, ?_⟩, rfl⟩⟩
        unfold sz
        dsimp only
        omega
      · refine tot_ok.mpr ⟨h1, ?_⟩
        rcases h2 with h2 | h2
        · left
          intro e he
          have h3 := h2 e he
          have h4 : e.1 ≠ i := by
            intro h4
            have := (mem_slots.mp he).2
            rw [h4] at this
            unfold sz at this
            omega
          omega
        · exact Or.inr h2
    · intro s ⟨h1, h2⟩
      refine ⟨h1, fun s' h => (by cases h), fun _ => ?_⟩
      rcases h2 with h2 | h2
      · left
        rw [h.hn] at h2
        refine List.eq_nil_iff_forall_not_mem.mpr fun p hp => ?_
        obtain ⟨e, e1, e2, -⟩ := h.slot_of_sym hp rfl
        have := h2 e e1
        have := (h.valid p hp).1
        omega
      · exact Or.inr h2

/-- What the circuit function promises. -/
def UCircuit (E : List (Nat × Nat)) (start : Option Nat) : Option (List Nat) → Prop
  | some w => UTrail E w ∧ Closed w ∧ ∀ s, start = some s → w.head? = some s
  | none => ¬ ∃ w, UTrail E w ∧ Closed w ∧ ∀ s, start = some s → s ∈ w

/-- The number of ends of an edge at `x`. -/
def symDeg (x : Nat) : Sym2 Nat → Nat := Sym2.lift ⟨fun a b => (if a = x then 1 else 0) + (if b = x then 1 else 0), fun a b => Nat.add_comm _ _⟩

theorem deg_sym (E : List (Nat × Nat)) (x : Nat) : deg E x = ((E.map fun p => s(p.1, p.2)).map (symDeg x)).sum := by
  induction E with
  | nil => rfl
  | cons p E ih =>
    unfold deg at ih ⊢
    simp only [List.map_cons, List.count_cons, List.sum_cons]
    rw [← ih]
    unfold symDeg
    rw [Sym2.lift_mk]
    dsimp only
    simp only [beq_iff_eq]
    omega

theorem utrail_deg {E : List (Nat × Nat)} {w : List Nat} (h : UTrail E w) {a b : Nat} (h1 : w.head? = some a) (h2 : w.getLast? = some b) (x : Nat) :
    (deg E x + (if x = a then 1 else 0) + (if x = b then 1 else 0)) % 2 = 0 := by
  have h3 := count_walk h1 h2 x
  have h4 : deg E x = deg (steps w) x := by
    rw [deg_sym, deg_sym]
    exact ((h.2.map _).sum_eq).symm
  rw [h4]
  unfold deg
  omega

theorem tail_mem_verts {g : Array (Array Nat)} {es : List Slot} {u c : Nat} (h : Walk g u es c) {e : Slot} (he : e ∈ es) : e.1 ∈ verts g u es := by
  have : (e.1, hd g e) ∈ steps (verts g u es) := by
    rw [steps_verts h]
    exact List.mem_map.mpr ⟨e, he, rfl⟩
  exact (mem_of_step this).1

theorem ucircuit_tot (h : URep o n E S) (hn : 0 < n) {start : Option Nat} (hs : ∀ s, start = some s → s < n) : Tot (o.circuit start) (UCircuit E start) := by
  unfold UObj.circuit
  refine (ucheck h).bind ?_
  rintro c ⟨c1, c2⟩
  by_cases hc : c.1 = true
  · rw [if_pos hc]
    have hbal := c1.mp hc
    refine (ustart h hn hs).bind ?_
    rintro s ⟨s1, s2, s3⟩
    have hb : (uKind h).Bal (slots o.g) s s := by
      refine ⟨fun e he => h.mate_mem he, fun x => ?_⟩
      rw [h.deg_eq]
      by_cases hx : x < n
      · have := hbal x hx
        omega
      · have z1 : (E.map Prod.fst).count x = 0 := by
          refine List.count_eq_zero_of_not_mem fun hm => ?_
          obtain ⟨p, p1, p2⟩ := List.mem_map.mp hm
          have := (h.valid p p1).1
          omega
        have z2 : (E.map Prod.snd).count x = 0 := by
          refine List.count_eq_zero_of_not_mem fun hm => ?_
          obtain ⟨p, p1, p2⟩ := List.mem_map.mp hm
          have := (h.valid p p1).2
          omega
        unfold deg
        rw [z1, z2]
        omega
    refine (search_tot (uKind h) (by rw [h.gsz]; exact s1) hb).bind ?_
    rintro t ⟨es, w1, w2, w3, w4, w5⟩
    have hcl : ∀ e ∈ slots o.g, (uKind h).cl e = {e, mate o e} := fun e he => if_pos he
    have hsize : t.res.size = es.length + 1 := by
      rw [← Array.length_toList, w4]
      simp [verts]
    -- the chosen entry of each edge
    obtain ⟨φ, hφ⟩ : ∃ φ : Slot → Slot, φ = fun e => if e ∈ S then e else mate o e := ⟨_, rfl⟩
    have φS : ∀ e ∈ slots o.g, φ e ∈ S := by
      intro e he
      rw [hφ]
      dsimp only
      split_ifs with h1
      · exact h1
      · rcases List.mem_append.mp ((h.mem e).mp he) with h2 | h2
        · exact absurd h2 h1
        · obtain ⟨f, f1, f2⟩ := List.mem_map.mp h2
          rw [← f2, h.invol f (h.smem f1)]
          exact f1
    have φsym : ∀ e ∈ slots o.g, s((φ e).1, hd o.g (φ e)) = s(e.1, hd o.g e) := by
      intro e he
      rw [hφ]
      dsimp only
      split_ifs with h1
      · rfl
      · rw [h.hd_mate he]
        exact Sym2.eq_swap
    have φinj : ∀ a ∈ slots o.g, ∀ b ∈ slots o.g, φ a = φ b → b ∈ (uKind h).cl a := by
      intro a ha b hb hab
      rw [hcl a ha, mem_insert, mem_singleton]
      rw [hφ] at hab
      dsimp only at hab
      split_ifs at hab with h1 h2 h2
      · exact Or.inl hab.symm
      · right
        rw [hab, h.invol b hb]
      · exact Or.inr hab.symm
      · left
        have := congrArg (mate o) hab
        rw [h.invol a ha, h.invol b hb] at this
        exact this.symm
    have hndS : S.Nodup := (List.nodup_append.mp h.nodup).1
    have hφnd : (es.map φ).Nodup := by
      rw [List.Nodup, List.pairwise_map]
      refine w3.imp_of_mem ?_
      intro a b ha hb hab hc
      exact hab (φinj a (w2 a ha) b (w2 b hb) hc)
    have hφsub : (es.map φ).toFinset ⊆ S.toFinset := by
      intro x hx
      rw [List.mem_toFinset] at hx ⊢
      obtain ⟨e, e1, rfl⟩ := List.mem_map.mp hx
      exact φS e (w2 e e1)
    have hSlen : S.length = E.length := by rw [← h.edges, List.length_map]
    have hle : es.length ≤ E.length := by
      have := card_le_card hφsub
      rw [List.toFinset_card_of_nodup hφnd, List.toFinset_card_of_nodup hndS, List.length_map, hSlen] at this
      exact this
    by_cases hsz : t.res.size ≠ c.2 / 2 + 1
    · rw [if_pos hsz]
      refine tot_ok.mpr ?_
      rintro ⟨w, v1, v2, v3⟩
      apply hsz
      rw [hsize, c2]
      have hall : ∀ e ∈ slots o.g, e.1 ∈ verts o.g s es → e ∈ marked (uKind h) es := by
        intro e he hv
        by_contra hne
        exact w5 e.1 hv e (mem_sdiff.mpr ⟨he, hne⟩) rfl
      -- steps of `w` in terms of entries
      have hstep : ∀ p ∈ steps w, ∃ e ∈ slots o.g, e.1 = p.1 ∧ hd o.g e = p.2 := by
        intro p hp
        have : s(p.1, p.2) ∈ E.map fun p => s(p.1, p.2) := v1.2.mem_iff.mp (List.mem_map.mpr ⟨p, hp, rfl⟩)
        obtain ⟨q, q1, q2⟩ := List.mem_map.mp this
        exact h.slot_of_sym q1 q2
      have htail : ∀ e ∈ slots o.g, e.1 ∈ w := by
        intro e he
        obtain ⟨p, p1, p2⟩ := h.sym_of_slot he
        have : s(p.1, p.2) ∈ (steps w).map fun p => s(p.1, p.2) := v1.2.mem_iff.mpr (List.mem_map.mpr ⟨p, p1, rfl⟩)
        obtain ⟨q, q1, q2⟩ := List.mem_map.mp this
        have q3 : s(q.1, q.2) = s(e.1, hd o.g e) := by rw [← p2]; exact q2
        rw [Sym2.eq_iff] at q3
        rcases q3 with ⟨h1, -⟩ | ⟨-, h1⟩
        · rw [← h1]
          exact (mem_of_step q1).1
        · rw [← h1]
          exact (mem_of_step q1).2
      have hsw : E = [] ∨ s ∈ w := by
        cases hst : start with
        | some s' =>
          right
          rw [s2 s' hst]
          exact v3 s' hst
        | none =>
          rcases s3 hst with h' | ⟨e, e1, e2⟩
          · exact Or.inl h'
          · right
            rw [← e2]
            exact htail e e1
      have hge : E.length ≤ es.length := by
        have hsub : slots o.g ⊆ marked (uKind h) es := by
          intro e he
          rcases hsw with h' | hsw
          · exfalso
            obtain ⟨p, p1, -⟩ := h.sym_of_slot he
            rw [h'] at p1
            cases p1
          · refine hall e he ?_
            refine closed_stays (V := fun x => x ∈ verts o.g s es) v2 hsw (by simp [verts]) ?_ e.1 (htail e he)
            intro p hp hpV
            obtain ⟨f, f1, f2, f3⟩ := hstep p hp
            rw [← f2] at hpV
            rw [← f3]
            obtain ⟨a, a1, a2⟩ := mem_marked.mp (hall f f1 hpV)
            rw [hcl a (w2 a a1), mem_insert, mem_singleton] at a2
            rcases a2 with rfl | rfl
            · exact List.mem_cons_of_mem _ (List.mem_map.mpr ⟨f, a1, rfl⟩)
            · rw [h.hd_mate (w2 a a1)]
              exact tail_mem_verts w1 a1
        have h1 := card_le_card hsub
        rw [h.card] at h1
        have h2 : (marked (uKind h) es).card ≤ es.toFinset.card * 2 := by
          unfold marked
          refine card_biUnion_le_card_mul _ _ _ fun e he => ?_
          rw [hcl e (w2 e (List.mem_toFinset.mp he))]
          exact card_le_two
        have h3 := List.toFinset_card_le es
        omega
      omega
    · rw [if_neg hsz]
      have hlen : es.length = E.length := by
        rw [c2] at hsz
        omega
      have hst : ((steps t.res.toList).map fun p => s(p.1, p.2)).Perm (E.map fun p => s(p.1, p.2)) := by
        rw [w4, steps_reverse, List.map_reverse, steps_verts w1]
        refine (List.reverse_perm _).trans ?_
        rw [List.map_map, List.map_map]
        have e1 : (es.map (((fun p : Nat × Nat => s(p.1, p.2)) ∘ Prod.swap) ∘ fun e => (e.1, hd o.g e))) = (es.map φ).map fun e => s(e.1, hd o.g e) := by
          rw [List.map_map]
          refine List.map_congr_left ?_
          intro e he
          dsimp only [Function.comp, Prod.swap]
          rw [φsym e (w2 e he)]
          exact Sym2.eq_swap
        rw [e1]
        have hper : (es.map φ).Perm S := by
          rw [List.perm_ext_iff_of_nodup hφnd hndS]
          intro x
          have : (es.map φ).toFinset = S.toFinset := eq_of_subset_of_card_le hφsub (by
            rw [List.toFinset_card_of_nodup hφnd, List.toFinset_card_of_nodup hndS, List.length_map, hSlen, hlen])
          rw [← List.mem_toFinset, this, List.mem_toFinset]
        refine (hper.map _).trans ?_
        rw [← h.edges, List.map_map]
        rfl
      have hhead : t.res.toList.head? = some s := by
        rw [w4, List.head?_reverse, last_verts w1]
      have hlast : t.res.toList.getLast? = some s := by
        rw [w4, List.getLast?_reverse]
        rfl
      refine tot_ok.mpr ⟨⟨?_, hst⟩, ?_, ?_⟩
      · intro hc'
        rw [hc'] at hhead
        cases hhead
      · unfold Closed
        rw [hhead, hlast]
      · intro s' hs'
        rw [← s2 s' hs']
        exact hhead
  · rw [if_neg hc]
    refine tot_ok.mpr ?_
    rintro ⟨w, v1, v2, -⟩
    refine hc (c1.mpr fun x _ => ?_)
    obtain ⟨a, b, a1, a2, a3⟩ := trail_ends v1.1
    have hab := a3.mp v2
    have := utrail_deg v1 a1 a2 x
    rw [← hab] at this
    omega

end

end Eulerian
