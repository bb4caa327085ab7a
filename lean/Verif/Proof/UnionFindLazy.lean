import Verif.Spec.UnionFindLazy
import Verif.Proof.LinkedUnionFind
import Mathlib.Tactic.Abel
import Mathlib.Algebra.BigOperators.Group.Finset.Basic

namespace UnionFindLazy
open Cxx
open UnionFind (Inv Connected cls mem_cls link)
open LinkedUnionFind (LInv)

/-- An array and its contents. -/
def Rep {α : Type} (n : Nat) (a : Array α) (V : Nat → α) : Prop := a.size = n ∧ ∀ x, x < n → a[x]? = some (V x)

theorem Rep.rd {α : Type} {n : Nat} {a : Array α} {V : Nat → α} (h : Rep n a V) {x : Nat} (hx : x < n) : rd a x = .ok (V x) :=
  rd_some (h.2 x hx)

theorem Rep.wr {α : Type} {n : Nat} {a : Array α} {V : Nat → α} (h : Rep n a V) {x : Nat} (hx : x < n) (t : α) :
    wr a x t = .ok (a.setIfInBounds x t) ∧ Rep n (a.setIfInBounds x t) fun z => if z = x then t else V z := by
  have hs : x < a.size := by rw [h.1]; exact hx
  refine ⟨wr_eq hs, by simpa using h.1, fun z hz => ?_⟩
  rw [get?_set _ _ _ _ hs]
  dsimp only
  by_cases e : x = z
  · rw [if_pos e, if_pos e.symm]
  · rw [if_neg e, if_neg (Ne.symm e)]; exact h.2 z hz

theorem Rep.congr {α : Type} {n : Nat} {a : Array α} {V W : Nat → α} (h : Rep n a V) (e : ∀ x, x < n → W x = V x) : Rep n a W :=
  ⟨h.1, fun x hx => by rw [e x hx]; exact h.2 x hx⟩

variable {T F : Type} {fn : Fns T F} {n : Nat}

theorem mapAll_tot {l : F} {comp : List Nat} {val : Array T} {V : Nat → T} (h : Rep n val V) (hn : comp.Nodup) (hl : ∀ x ∈ comp, x < n) :
    Tot (mapAll fn l comp val) fun val' => Rep n val' fun z => if z ∈ comp then fn.mapping l (V z) 1 else V z := by
  unfold mapAll
  refine (Tot.forEach (P := fun pre a => Rep n a fun z => if z ∈ pre then fn.mapping l (V z) 1 else V z) ?_ ?_).mono fun _ h => h
  · exact h.congr fun x _ => by simp
  · rintro pre v post a e ha
    have hv : v < n := hl v (by rw [e]; simp)
    have hnm : v ∉ pre := by
      rw [e, List.nodup_append] at hn
      exact fun hm => hn.2.2 v hm v (by simp) rfl
    rw [ha.rd hv, ok_bind, if_neg hnm]
    obtain ⟨e1, h1⟩ := ha.wr hv (fn.mapping l (V v) 1)
    refine ⟨_, e1, h1.congr fun z _ => ?_⟩
    by_cases ez : z = v
    · subst ez; simp
    · simp [ez]

variable [AddCommGroup T] [Group F]

/-- Representation invariant. -/
structure Good (fn : Fns T F) (n : Nat) (R rk : Nat → Nat) (s : State T F) (v : Nat → T) (V : Nat → T) (L : Nat → F) : Prop where
  inv : Inv n R rk s.dat
  linv : LInv n R s.link
  val : Rep n s.val V
  laz : Rep n s.laz L
  pt : ∀ x, x < n → fn.mapping (L (R x)) (V x) 1 = v x
  sum : ComponentSum.SInv id v n R s.sum

theorem Good.dat {R rk : Nat → Nat} {s : State T F} {v V : Nat → T} {L : Nat → F} (h : Good fn n R rk s v V L) {d : Array Int}
    (hd : Inv n R rk d) : Good fn n R rk { s with dat := d } v V L :=
  ⟨hd, h.linv, h.val, h.laz, h.pt, h.sum⟩

theorem map_zero (hf : Lawful fn) (f : F) : fn.mapping f 0 0 = 0 := by
  have := hf.add f 0 0 0 0
  simp only [add_zero, Nat.cast_zero] at this
  exact left_eq_add.mp this

theorem map_sum (hf : Lawful fn) (f : F) (v : Nat → T) (c : Finset Nat) :
    fn.mapping f (∑ z ∈ c, v z) (c.card : Int) = ∑ z ∈ c, fn.mapping f (v z) 1 := by
  induction c using Finset.induction_on with
  | empty => simpa using map_zero hf f
  | insert a c ha ih =>
    rw [Finset.sum_insert ha, Finset.sum_insert ha, Finset.card_insert_of_notMem ha, Nat.add_comm c.card 1, hf.add, ih]
    rfl

theorem inv_map (hf : Lawful fn) (f : F) (a : T) : fn.mapping f (fn.mapping f⁻¹ a 1) 1 = a := by
  rw [← hf.mul, mul_inv_cancel, hf.one]

theorem init_good (hf : Lawful fn) (a : Array T) :
    Good fn a.size id (fun _ => 1) (init fn a) (fun y => a[y]?.getD 0) (fun y => a[y]?.getD 0) fun _ => 1 := by
  refine ⟨UnionFind.inv_init _, LinkedUnionFind.linv_init _, ⟨rfl, fun x hx => ?_⟩, ⟨by simp [init], fun x hx => ?_⟩, fun x _ => hf.one _, ?_⟩
  · simp [init, hx]
  · simp [init, hx, hf.ident]
  · have := ComponentSum.sinv_init (id : T → T) a
    simpa [init] using this

theorem absorb_tot (hf : Lawful fn) {R rk rk' : Nat → Nat} {s : State T F} {v V : Nat → T} {L : Nat → F} (h : Good fn n R rk s v V L)
    {p c : Nat} (hp : p < n) (hc : c < n) (hne : p ≠ c) (hpr : R p = p) (hcr : R c = c) {d : Array Int} (hd : Inv n (link R p c) rk' d) :
    Tot (absorb fn { s with dat := d } p c) fun s' => ∃ V', Good fn n (link R p c) rk' s' v V' L := by
  unfold absorb
  rw [h.laz.rd hp, ok_bind, h.laz.rd hc, ok_bind]
  refine Tot.bind (LinkedUnionFind.component_eq h.linv hc) ?_
  rintro comp ⟨hnd, hmem⟩
  refine Tot.bind (mapAll_tot h.val hnd fun x hx => ((hmem x).mp hx).1) ?_
  intro val' hval
  have hps : p < s.sum.size := by rw [h.sum.1]; exact hp
  have hcs : c < s.sum.size := by rw [h.sum.1]; exact hc
  rw [rd_eq hps, ok_bind, rd_eq hcs, ok_bind, wr_eq hps, ok_bind, wr_eq (by simpa using hcs), ok_bind]
  refine Tot.bind (LinkedUnionFind.linv_swap (p := p) (c := c) h.linv hp hc (by rw [hpr, hcr]; exact hne) (.inl ⟨hpr.symm, hcr.symm⟩)) ?_
  intro lk hlk
  refine Tot.pure ⟨_, hd, hlk, hval, h.laz, fun x hx => ?_, ?_⟩
  · have hm : x ∈ comp ↔ R x = c := by
      rw [hmem, hcr]; exact ⟨fun h => h.2, fun h => ⟨hx, h⟩⟩
    unfold link
    by_cases e : R x = c
    · rw [if_pos e, if_pos (hm.mpr e), hf.comp, hf.inv, hf.mul, inv_map hf, ← e]
      exact h.pt x hx
    · rw [if_neg e, if_neg (fun hc => e (hm.mp hc))]
      exact h.pt x hx
  · refine ComponentSum.sinv_link (f := fn.mergeSum) (fun a b => hf.mergeSum a b) h.sum hp hc hne hpr hcr (by simp [h.sum.1]) ?_ ?_
    · intro z h1 h2
      dsimp only
      rw [get?_set _ _ _ _ (by simpa using hcs), if_neg (Ne.symm h2), get?_set _ _ _ _ hps, if_neg (Ne.symm h1)]
    · intro vp vc h1 h2
      dsimp only
      rw [get?_set _ _ _ _ (by simpa using hcs), if_neg (Ne.symm hne), get?_set _ _ _ _ hps, if_pos rfl]
      rw [Array.getElem?_eq_getElem hps] at h1
      rw [Array.getElem?_eq_getElem hcs] at h2
      cases h1; cases h2; rfl

theorem merge_tot (hf : Lawful fn) {R rk : Nat → Nat} {s : State T F} {v V : Nat → T} {L : Nat → F} (h : Good fn n R rk s v V L)
    {x y : Nat} (hx : x < n) (hy : y < n) :
    Tot (merge fn s x y) fun r =>
      (R x = R y → r.2 = false ∧ Good fn n R rk r.1 v V L) ∧
      (R x ≠ R y → r.2 = true ∧ ∃ p c rk' V', (p = R x ∧ c = R y ∨ p = R y ∧ c = R x) ∧ Good fn n (link R p c) rk' r.1 v V' L) := by
  unfold merge
  refine Tot.bind (UnionFind.root_tot h.inv hx) ?_
  rintro ⟨d1, r1⟩ ⟨h1, i1⟩
  simp only at h1 i1; subst h1
  refine Tot.bind (UnionFind.root_tot i1 hy) ?_
  rintro ⟨d2, r2⟩ ⟨h2, i2⟩
  simp only at h2 i2; subst h2
  have hxl := h.inv.lt x hx
  have hyl := h.inv.lt y hy
  have hxi := h.inv.idem x hx
  have hyi := h.inv.idem y hy
  by_cases e : R x = R y
  · simp only [e, if_true]
    exact Tot.pure ⟨fun _ => ⟨rfl, h.dat i2⟩, fun h => absurd rfl h⟩
  · simp only [e, if_false]
    refine Tot.bind (UnionFind.merge_tot i2 hxl hyl) ?_
    rintro ⟨d3, b⟩ ⟨-, h4⟩
    simp only [hxi, hyi] at h4
    obtain ⟨rfl, p, c, rk', hpc, h4⟩ := h4 e
    refine Tot.bind (UnionFind.root_tot h4 hxl) ?_
    rintro ⟨d5, r5⟩ ⟨h5, i5⟩
    simp only at h5 i5; subst h5
    rcases hpc with ⟨rfl, rfl⟩ | ⟨rfl, rfl⟩
    · have hl : ¬ link R (R x) (R y) (R x) = R y := by simp [link, hxi, e]
      simp only [hl, if_false]
      refine Tot.bind (absorb_tot hf h hxl hyl e hxi hyi i5) ?_
      rintro s' ⟨V', hV'⟩
      exact Tot.pure ⟨fun h => h.elim, fun _ => ⟨rfl, R x, R y, rk', V', .inl ⟨rfl, rfl⟩, hV'⟩⟩
    · have hl : link R (R y) (R x) (R x) = R y := by simp [link, hxi]
      simp only [hl, if_true]
      refine Tot.bind (absorb_tot hf h hyl hxl (Ne.symm e) hyi hxi i5) ?_
      rintro s' ⟨V', hV'⟩
      exact Tot.pure ⟨fun h => h.elim, fun _ => ⟨rfl, R y, R x, rk', V', .inr ⟨rfl, rfl⟩, hV'⟩⟩

theorem getPoint_tot {R rk : Nat → Nat} {s : State T F} {v V : Nat → T} {L : Nat → F} (h : Good fn n R rk s v V L) {x : Nat} (hx : x < n) :
    Tot (getPoint fn s x) fun r => r.2 = v x ∧ ∃ d, r.1 = { s with dat := d } ∧ Inv n R rk d := by
  unfold getPoint
  rw [h.val.rd hx, ok_bind]
  refine Tot.bind (UnionFind.root_tot h.inv hx) ?_
  rintro ⟨d1, r1⟩ ⟨h1, i1⟩
  simp only at h1 i1; subst h1
  simp only [h.laz.rd (h.inv.lt x hx), ok_bind]
  exact Tot.pure ⟨h.pt x hx, d1, rfl, i1⟩

theorem applyComponent_tot (hf : Lawful fn) {R rk : Nat → Nat} {s : State T F} {v V : Nat → T} {L : Nat → F} (h : Good fn n R rk s v V L)
    {x : Nat} (hx : x < n) (f : F) :
    Tot (applyComponent fn s x f) fun s' => ∃ L', Good fn n R rk s' (fun y => if R y = R x then fn.mapping f (v y) 1 else v y) V L' := by
  unfold applyComponent
  refine Tot.bind (UnionFind.root_tot h.inv hx) ?_
  rintro ⟨d1, r1⟩ ⟨h1, i1⟩
  simp only at h1 i1; subst h1
  have hl := h.inv.lt x hx
  have hi := h.inv.idem x hx
  refine Tot.bind (UnionFind.size_tot i1 hl) ?_
  rintro ⟨d2, k⟩ ⟨h2, i2⟩
  simp only [hi] at h2 i2; subst h2
  obtain ⟨a, ha, hs⟩ := h.sum.2 (R x) hl hi
  have hss : R x < s.sum.size := by rw [h.sum.1]; exact hl
  simp only [rd_some ha, ok_bind, wr_eq hss, h.laz.rd hl]
  obtain ⟨e1, hw⟩ := h.laz.wr hl (fn.comp f (L (R x)))
  rw [e1, ok_bind]
  refine Tot.pure ⟨_, i2, h.linv, h.val, hw, fun y hy => ?_, by simpa using h.sum.1, fun r hr hrr => ?_⟩
  · by_cases e : R y = R x
    · rw [if_pos e, if_pos e, hf.comp, hf.mul, ← e, h.pt y hy]
    · rw [if_neg e, if_neg e]
      exact h.pt y hy
  · dsimp only
    rw [get?_set _ _ _ _ hss]
    by_cases e : R x = r
    · subst e
      refine ⟨_, if_pos rfl, ?_⟩
      have hs' : a = ∑ z ∈ cls n R (R x), v z := hs
      show fn.mapping f a _ = _
      rw [hs', map_sum hf]
      refine Finset.sum_congr rfl fun z hz => ?_
      rw [if_pos (mem_cls.mp hz).2]
    · obtain ⟨b, hb, hbs⟩ := h.sum.2 r hr hrr
      refine ⟨b, by rw [if_neg e]; exact hb, ?_⟩
      rw [hbs]
      refine Finset.sum_congr rfl fun z hz => ?_
      rw [if_neg]
      rw [(mem_cls.mp hz).2]
      exact Ne.symm e

theorem applyAt_tot (hf : Lawful fn) {R rk : Nat → Nat} {s : State T F} {v V : Nat → T} {L : Nat → F} (h : Good fn n R rk s v V L)
    {x : Nat} (hx : x < n) (f : T → T) :
    Tot (applyAt fn s x f) fun s' => ∃ V', Good fn n R rk s' (fun y => if y = x then f (v y) else v y) V' L := by
  unfold applyAt
  refine Tot.bind (UnionFind.root_tot h.inv hx) ?_
  rintro ⟨d1, r1⟩ ⟨h1, i1⟩
  simp only at h1 i1; subst h1
  refine Tot.bind (getPoint_tot (h.dat i1) hx) ?_
  rintro ⟨s2, a⟩ ⟨h2, d2, h3, i2⟩
  simp only at h2 h3; subst h2; subst h3
  dsimp only
  have hl := h.inv.lt x hx
  have hi := h.inv.idem x hx
  obtain ⟨t, ht, hs⟩ := h.sum.2 (R x) hl hi
  have hss : R x < s.sum.size := by rw [h.sum.1]; exact hl
  rw [rd_some ht, ok_bind, wr_eq hss, ok_bind, rd_some (by rw [get?_set _ _ _ _ hss, if_pos rfl]), ok_bind,
    wr_eq (by simpa using hss), ok_bind, h.laz.rd hl, ok_bind]
  obtain ⟨e1, hw⟩ := h.val.wr hx (fn.mapping (fn.inv (L (R x))) (f (v x)) 1)
  rw [e1, ok_bind]
  refine Tot.pure ⟨_, i2, h.linv, hw, h.laz, fun y hy => ?_, by simpa using h.sum.1, fun r hr hrr => ?_⟩
  · by_cases e : y = x
    · subst e
      rw [if_pos rfl, if_pos rfl, hf.inv, inv_map hf]
    · rw [if_neg e, if_neg e]
      exact h.pt y hy
  · dsimp only
    rw [get?_set _ _ _ _ (by simpa using hss), get?_set _ _ _ _ hss]
    by_cases e : R x = r
    · subst e
      refine ⟨_, if_pos rfl, ?_⟩
      have hs' : t = ∑ z ∈ cls n R (R x), v z := hs
      have hxm : x ∈ cls n R (R x) := mem_cls.mpr ⟨hx, rfl⟩
      show fn.mergeSum (fn.mergeSum t (fn.neg (v x))) (f (v x)) = _
      rw [hf.mergeSum, hf.mergeSum, hf.neg, hs', ← Finset.add_sum_erase _ _ hxm, ← Finset.add_sum_erase _ _ hxm, if_pos rfl]
      have : ∑ z ∈ (cls n R (R x)).erase x, (if z = x then f (v z) else v z) = ∑ z ∈ (cls n R (R x)).erase x, v z :=
        Finset.sum_congr rfl fun z hz => if_neg (Finset.ne_of_mem_erase hz)
      rw [this]
      abel
    · obtain ⟨b, hb, hbs⟩ := h.sum.2 r hr hrr
      refine ⟨b, by rw [if_neg e, if_neg e]; exact hb, ?_⟩
      rw [hbs]
      refine Finset.sum_congr rfl fun z hz => ?_
      rw [if_neg]
      rintro rfl
      exact e (mem_cls.mp hz).2

theorem propagate_tot (hf : Lawful fn) {R rk : Nat → Nat} {s : State T F} {v V : Nat → T} {L : Nat → F} (h : Good fn n R rk s v V L)
    {x : Nat} (hx : x < n) :
    Tot (propagate fn s x) fun s' => ∃ V' L', Good fn n R rk s' v V' L' ∧ ∀ y, y < n → R y = R x → V' y = v y := by
  unfold propagate
  refine Tot.bind (UnionFind.root_tot h.inv hx) ?_
  rintro ⟨d1, r1⟩ ⟨h1, i1⟩
  simp only at h1 i1; subst h1
  have hl := h.inv.lt x hx
  have hi := h.inv.idem x hx
  obtain ⟨e1, hw⟩ := h.laz.wr hl fn.ident
  simp only [h.laz.rd hl, ok_bind, e1]
  refine Tot.bind (LinkedUnionFind.component_eq h.linv hl) ?_
  rintro comp ⟨hnd, hmem⟩
  refine Tot.bind (mapAll_tot h.val hnd fun y hy => ((hmem y).mp hy).1) ?_
  intro val' hval
  have hV : ∀ y, y < n → R y = R x → (if y ∈ comp then fn.mapping (L (R x)) (V y) 1 else V y) = v y := by
    intro y hy e
    rw [if_pos ((hmem y).mpr ⟨hy, by rw [hi, e]⟩), ← e]
    exact h.pt y hy
  refine Tot.pure ⟨_, _, ⟨i1, h.linv, hval, hw, fun y hy => ?_, h.sum⟩, hV⟩
  by_cases e : R y = R x
  · rw [if_pos e, hV y hy e, hf.ident, hf.one]
  · rw [if_neg e, if_neg (fun hc => e (by have := ((hmem y).mp hc).2; rwa [hi] at this))]
    exact h.pt y hy

/-! ### Histories -/

/-- Simulation relation. -/
def Sim (fn : Fns T F) (n : Nat) (s : State T F) (t : Abs T) : Prop :=
  ∃ R rk v V L, Good fn n R rk s v V L ∧ (∀ y, y < n → v y = t.v y) ∧ ∀ x y, x < n → y < n → (R x = R y ↔ Connected t.es x y)

theorem compSum_congr {es : List (Nat × Nat)} {v w : Nat → T} (h : ∀ y, y < n → v y = w y) (x : Nat) :
    ComponentSum.compSum n es v x = ComponentSum.compSum n es w x := by
  classical
  unfold ComponentSum.compSum
  refine Finset.sum_congr rfl fun y hy => h y ?_
  have := (Finset.mem_filter.mp hy).1
  exact Finset.mem_range.mp this

theorem step_sim (hf : Lawful fn) (n : Nat) (s : State T F) (t : Abs T) (op : Op T F) (hs : Sim fn n s t) (hp : Pre n t op) :
    Tot (step fn s op) fun r => Sim fn n r.1 (next fn t op) ∧ Ans n t op r.2 := by
  obtain ⟨R, rk, v, V, L, hG, hv, hR⟩ := hs
  cases op with
  | merge x y =>
    obtain ⟨hx, hy⟩ := hp
    refine Tot.bind (merge_tot hf hG hx hy) ?_
    rintro ⟨d, b⟩ ⟨h1, h2⟩
    by_cases e : R x = R y
    · obtain ⟨hb, h1⟩ := h1 e
      refine Tot.pure ⟨⟨R, rk, v, V, L, h1, hv, UnionFind.sim_cons_of_connected hx hy hR e⟩, ?_⟩
      show b = true ↔ _
      rw [← hR x y hx hy]; simp [e, show b = false from hb]
    · obtain ⟨hb, p, c, rk', V', hpc, h2⟩ := h2 e
      refine Tot.pure ⟨⟨_, rk', v, V', L, h2, hv, fun z w hz hw => ?_⟩, ?_⟩
      · show _ ↔ Connected ((x, y) :: t.es) z w
        rw [UnionFind.connected_cons]
        exact UnionFind.link_iff hx hy hR hpc z w hz hw
      · show b = true ↔ _
        rw [← hR x y hx hy]; simp [e, show b = true from hb]
  | same x y =>
    obtain ⟨hx, hy⟩ := hp
    refine Tot.bind (UnionFind.same_tot hG.inv hx hy) ?_
    rintro ⟨d, b⟩ ⟨h1, h2⟩
    exact Tot.pure ⟨⟨R, rk, v, V, L, hG.dat h2, hv, hR⟩, h1.trans (hR x y hx hy)⟩
  | size x =>
    refine Tot.bind (UnionFind.size_tot hG.inv hp) ?_
    rintro ⟨d, k⟩ ⟨h1, h2⟩
    exact Tot.pure ⟨⟨R, rk, v, V, L, hG.dat h2, hv, hR⟩, Eq.trans h1 (UnionFind.size_ans hR hp)⟩
  | component x =>
    refine Tot.bind (LinkedUnionFind.component_eq hG.linv hp) ?_
    rintro l ⟨h1, h2⟩
    refine Tot.pure ⟨⟨R, rk, v, V, L, hG, hv, hR⟩, h1, fun y => ?_⟩
    rw [h2]
    constructor
    · rintro ⟨hy, e⟩; exact ⟨hy, (hR x y hp hy).mp e.symm⟩
    · rintro ⟨hy, e⟩; exact ⟨hy, ((hR x y hp hy).mpr e).symm⟩
  | getComponent x =>
    simp only [step, getComponent]
    obtain ⟨⟨d, r⟩, he, h1, h2⟩ := UnionFind.root_tot hG.inv hp
    simp only at h1 h2; subst h1
    obtain ⟨a, ha, ho⟩ := hG.sum.2 (R x) (hG.inv.lt x hp) (hG.inv.idem x hp)
    simp only [he, ok_bind, rd_some ha, pure_eq]
    refine Tot.pure ⟨⟨R, rk, v, V, L, hG.dat h2, hv, hR⟩, ?_⟩
    show a = _
    rw [← compSum_congr hv, ← ComponentSum.sum_ans hR hp]
    exact ho
  | getPoint x =>
    refine Tot.bind (getPoint_tot hG hp) ?_
    rintro ⟨s', a⟩ ⟨h1, d, h2, h3⟩
    simp only at h1 h2; subst h1; subst h2
    exact Tot.pure ⟨⟨R, rk, v, V, L, hG.dat h3, hv, hR⟩, hv x hp⟩
  | applyComponent x f =>
    refine Tot.bind (applyComponent_tot hf hG hp f) ?_
    rintro s' ⟨L', h⟩
    refine Tot.pure ⟨⟨R, rk, _, V, L', h, fun y hy => ?_, hR⟩, trivial⟩
    dsimp only [next]
    have hxy := hR x y hp hy
    by_cases e : R y = R x
    · rw [if_pos e, if_pos (hxy.mp e.symm), hv y hy]
    · rw [if_neg e, if_neg (fun hc => e (hxy.mpr hc).symm), hv y hy]
  | applyPoint x f =>
    refine Tot.bind (applyAt_tot hf hG hp _) ?_
    rintro s' ⟨V', h⟩
    refine Tot.pure ⟨⟨R, rk, _, V', L, h, fun y hy => ?_, hR⟩, trivial⟩
    dsimp only [next]
    rw [hv y hy]
  | setPoint x a =>
    refine Tot.bind (applyAt_tot hf hG hp _) ?_
    rintro s' ⟨V', h⟩
    refine Tot.pure ⟨⟨R, rk, _, V', L, h, fun y hy => ?_, hR⟩, trivial⟩
    dsimp only [next]
    rw [hv y hy]
  | propagate x =>
    refine Tot.bind (propagate_tot hf hG hp) ?_
    rintro s' ⟨V', L', h, -⟩
    exact Tot.pure ⟨⟨R, rk, v, V', L', h, hv, hR⟩, trivial⟩

theorem sim_init (hf : Lawful fn) (a : Array T) : Sim fn a.size (init fn a) ⟨[], fun y => a[y]?.getD 0⟩ := by
  refine ⟨id, _, _, _, _, init_good hf a, fun _ _ => rfl, fun x y hx hy => ?_⟩
  constructor
  · rintro ⟨⟩; exact .refl _
  · intro h
    have : ∀ x y, Connected [] x y → x = y := by
      intro x y h
      induction h with
      | rel _ _ h => simp at h
      | refl => rfl
      | symm _ _ _ ih => exact ih.symm
      | trans _ _ _ _ _ ih1 ih2 => exact ih1.trans ih2
    exact this x y h

end UnionFindLazy
