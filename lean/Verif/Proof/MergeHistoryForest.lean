import Verif.Proof.MergeHistoryStep

namespace MergeHistory
open Cxx
open UnionFind (Connected)

/-- `o` is reached from `o0` in the next call. -/
structure Grow (o0 o : Obj) : Prop where
  n : o.n = o0.n
  time : o.time = o0.time + 1
  gsz : o0.g.size ≤ o.g.size
  old : ∀ x p, p < o0.g.size → (Anc o x p ↔ Anc o0 x p)
  crold : ∀ p, p < o0.g.size → cr o p = cr o0 p
  crnew : ∀ p, o0.g.size ≤ p → p < o.g.size → cr o p = o0.time + 1

/-- The object with the time of the next call. -/
def bump (o : Obj) : Obj := { o with time := o.time + 1 }

theorem WF.bump {o : Obj} (w : WF o) : WF (bump o) :=
  ⟨w.nm, w.psz, w.csz, w.rsz, w.lsz, w.par, w.kids, w.leaf, fun x h1 h2 => ⟨(w.node x h1 h2).1, Nat.le_succ_of_le (w.node x h1 h2).2⟩⟩

theorem Grow.start {o : Obj} : Grow o (bump o) :=
  ⟨rfl, rfl, Nat.le_refl _, fun _ _ _ => Iff.rfl, fun _ _ => rfl, fun p h1 h2 => absurd h2 (Nat.not_lt.mpr h1)⟩

theorem Grow.adopt {o0 o o' : Obj} {xs : List Nat} (g : Grow o0 o) (w : WF o) (a : Adopt o o' xs) : Grow o0 o' := by
  have hsz := g.gsz
  refine ⟨a.n.trans g.n, a.time.trans g.time, by rw [a.gsz]; omega, ?_, ?_, ?_⟩
  · intro x p hp
    rw [← g.old x p hp]
    constructor
    · intro h
      rcases a.inv w h with h | ⟨rfl, -⟩
      · exact h
      · omega
    · exact a.mono
  · intro p hp
    rw [a.cr, if_neg (by omega)]
    exact g.crold p hp
  · intro p h1 h2
    rw [a.gsz] at h2
    rw [a.cr]
    split_ifs with e
    · exact g.time
    · exact g.crnew p h1 (by omega)

theorem edges_le {hist : List (List (Nat × Nat))} {es : List (Nat × Nat)} {t : Nat} (h : t ≤ hist.length) : edgesUpTo (hist ++ [es]) t = edgesUpTo hist t := by
  unfold edgesUpTo
  rw [List.take_append_of_le_length h]

theorem edges_gt {hist : List (List (Nat × Nat))} {es : List (Nat × Nat)} {t : Nat} (h : hist.length < t) :
    edgesUpTo (hist ++ [es]) t = edgesUpTo hist hist.length ++ es := by
  unfold edgesUpTo
  rw [List.take_of_length_le (by simp; omega), List.take_length, List.flatten_append]
  simp

/-- The end of a call. -/
theorem finish {o0 o : Obj} {hist : List (List (Nat × Nat))} {es : List (Nat × Nat)} (inv : Inv o0 hist) (g : Grow o0 o) (w : WF o)
    (clean : ∀ u, u < o.n → ch o u = []) (lab_lt : ∀ i, i < o.n → lb o i < o.n) (lab_lab : ∀ i, i < o.n → lb o (lb o i) = lb o i)
    (lab : ∀ i j, i < o.n → j < o.n → (Connected (edgesUpTo hist hist.length ++ es) i j ↔ lb o i = lb o j))
    (below : ∀ i j p, i < o.n → j < o.n → Anc o i p → Anc o j p → lb o i = lb o j)
    (top : ∀ i, i < o.n → Anc o i (rt o (lb o i)) ∧ par o (rt o (lb o i)) = none) : Inv o (hist ++ [es]) := by
  have hn := g.n
  have hlen : (hist ++ [es]).length = hist.length + 1 := by simp
  have ht0 := inv.time
  refine ⟨w, by rw [g.time, hlen, ht0], clean, lab_lt, lab_lab, ?_, below, top, ?_⟩
  · intro i j hi hj
    rw [hlen, edges_gt (by omega)]
    exact lab i j hi hj
  · intro t i j hi hj
    by_cases ht : t ≤ hist.length
    · rw [edges_le ht, inv.conn t i j (by omega) (by omega)]
      constructor
      · rintro (e | ⟨p, h1, h2, h3⟩)
        · exact .inl e
        · have hp : p < o0.g.size := h1.lt inv.wf (by have := inv.wf.nm; omega)
          exact .inr ⟨p, (g.old i p hp).mpr h1, (g.old j p hp).mpr h2, by rw [g.crold p hp]; exact h3⟩
      · rintro (e | ⟨p, h1, h2, h3⟩)
        · exact .inl e
        · have hpl : p < o.g.size := h1.lt w (by have := w.nm; omega)
          have hp : p < o0.g.size := by
            by_contra hc
            have := g.crnew p (by omega) hpl
            omega
          refine .inr ⟨p, (g.old i p hp).mp h1, (g.old j p hp).mp h2, by rw [← g.crold p hp]; exact h3⟩
    · rw [edges_gt (by omega), lab i j hi hj]
      constructor
      · intro e
        obtain ⟨h1, -⟩ := top i hi
        obtain ⟨h2, -⟩ := top j hj
        rw [← e] at h2
        refine .inr ⟨_, h1, h2, ?_⟩
        have hpl := h1.lt w (by have := w.nm; omega)
        by_cases hl : rt o (lb o i) < o.n
        · rw [w.leaf _ hl]
          omega
        · have := (w.node _ (by omega) hpl).2
          rw [g.time] at this
          omega
      · rintro (rfl | ⟨p, h1, h2, -⟩)
        · rfl
        · exact below i j p hi hj h1 h2

theorem Inv.root_inj {o : Obj} {hist : List (List (Nat × Nat))} (inv : Inv o hist) {u v : Nat} (hu : u < o.n) (hv : v < o.n) (lu : lb o u = u) (lv : lb o v = v)
    (h : rt o u = rt o v) : u = v := by
  have h1 := (inv.top u hu).1
  have h2 := (inv.top v hv).1
  rw [lu] at h1
  rw [lv, ← h] at h2
  have := inv.below u v _ hu hv h1 h2
  rwa [lu, lv] at this

theorem Inv.root_top {o : Obj} {hist : List (List (Nat × Nat))} (inv : Inv o hist) {u : Nat} (hu : u < o.n) (lu : lb o u = u) :
    rt o u < o.g.size ∧ par o (rt o u) = none ∧ Anc o u (rt o u) := by
  obtain ⟨h1, h2⟩ := inv.top u hu
  rw [lu] at h1 h2
  exact ⟨h1.lt inv.wf (by have := inv.wf.nm; omega), h2, h1⟩

/-- `merge(u, v)`. -/
theorem merge_tot {pick : Array Nat → Nat → Nat → Bool} {o : Obj} {hist : List (List (Nat × Nat))} (inv : Inv o hist) {u v : Nat} (hu : u < o.n) (hv : v < o.n)
    (he : ∀ e ∈ edgesUpTo hist hist.length, e.1 < o.n ∧ e.2 < o.n) :
    Tot (merge pick o u v) (fun o' => Inv o' (hist ++ [[(u, v)]]) ∧ o'.n = o.n) := by
  have w := inv.wf
  have wb := w.bump
  unfold merge
  dsimp only
  change Tot (do let ru ← leader (bump o) u; let rv ← leader (bump o) v; if ru = rv then return (bump o) else join pick (bump o) ru rv) _
  rw [leader_ok wb.lsz hu, ok_bind, leader_ok wb.lsz hv, ok_bind]
  have lbe : ∀ x, lb (bump o) x = lb o x := fun _ => rfl
  rw [lbe, lbe]
  by_cases e : lb o u = lb o v
  · rw [if_pos e, pure_eq]
    refine tot_ok.mpr ⟨?_, rfl⟩
    refine finish inv .start wb inv.clean inv.lab_lt inv.lab_lab ?_ inv.below inv.top
    refine conn_add (f := lb o) (r := lb o u) hu hv inv.lab ?_ (.inl rfl) he
    intro i _
    rw [lbe]
    split_ifs with c
    · rcases c with c | c
      · exact c
      · rw [c, e]
    · rfl
  · rw [if_neg e]
    have hru := inv.lab_lt u hu
    have hrv := inv.lab_lt v hv
    have lru := inv.lab_lab u hu
    have lrv := inv.lab_lab v hv
    have tu := inv.root_top hru lru
    have tv := inv.root_top hrv lrv
    refine (join_tot (o := bump o) wb hru hrv ⟨tu.1, tu.2.1⟩ ⟨tv.1, tv.2.1⟩ fun h => e (inv.root_inj hru hrv lru lrv h)).mono ?_
    rintro o' ⟨a, hlab, hrt, hch⟩
    have hn : o'.n = o.n := a.n
    refine ⟨?_, hn⟩
    have hl : ∀ i, i < o.n → lb o' i = if lb o i = lb o u ∨ lb o i = lb o v then (unite pick (bump o) (lb o u) (lb o v)).2 else lb o i := by
      intro i hi
      have := unite_lab (pick := pick) (o := bump o) (ru := lb o u) (rv := lb o v) (i := i) (by rw [wb.lsz]; exact hi)
      have e2 : lb o' i = lb (unite pick (bump o) (lb o u) (lb o v)).1 i := by
        show at' 0 o'.lab i = at' 0 _ i
        rw [hlab]
      exact e2.trans this
    have hpick := unite_pick (pick := pick) (o := bump o) (ru := lb o u) (rv := lb o v)
    obtain ⟨r, hr⟩ : ∃ r, r = (unite pick (bump o) (lb o u) (lb o v)).2 := ⟨_, rfl⟩
    rw [← hr] at hl hrt hpick
    have hrl : r < o.n := by rcases hpick with e | e <;> rw [e] <;> assumption
    have hrr : lb o r = r := by rcases hpick with e | e <;> rw [e] <;> assumption
    have w' := a.wf wb (Nat.succ_pos _)
    refine finish inv (Grow.start.adopt wb a) w' ?_ ?_ ?_ ?_ ?_ ?_
    · intro x hx
      rw [hch x (by rw [hn] at hx; exact hx)]
      exact inv.clean x (by omega)
    · intro i hi
      rw [hn] at hi ⊢
      rw [hl i hi]
      split_ifs
      · exact hrl
      · exact inv.lab_lt i hi
    · intro i hi
      rw [hn] at hi
      rw [hl i hi]
      split_ifs with c
      · rw [hl r hrl, hrr]
        rcases hpick with e | e
        · rw [if_pos (.inl e)]
        · rw [if_pos (.inr e)]
      · rw [hl _ (inv.lab_lt i hi), inv.lab_lab i hi, if_neg c]
    · rw [hn]
      exact conn_add (f := lb o) (r := r) hu hv inv.lab hl hpick he
    · intro i j p hi hj h1 h2
      rw [hn] at hi hj
      rw [hl i hi, hl j hj]
      have under : ∀ i, i < o.n → Anc o' i o.g.size → lb o i = lb o u ∨ lb o i = lb o v := by
        intro i hi h
        rcases a.inv wb h with h | ⟨-, z, hz, h⟩
        · have := Anc.lt wb h (by show i < o.g.size; have := w.nm; omega)
          exact absurd this (Nat.lt_irrefl _)
        · rcases List.mem_cons.mp hz with rfl | hz
          · have := inv.below i (lb o u) _ hi hru h tu.2.2
            exact .inl (this.trans lru)
          · rw [List.mem_singleton.mp hz] at h
            have := inv.below i (lb o v) _ hi hrv h tv.2.2
            exact .inr (this.trans lrv)
      by_cases hp : p = o.g.size
      · subst hp
        rw [if_pos (under i hi h1), if_pos (under j hj h2)]
      · rcases a.inv wb h1 with h1 | ⟨h1, -⟩
        · rcases a.inv wb h2 with h2 | ⟨h2, -⟩
          · rw [inv.below i j p hi hj h1 h2]
          · exact absurd h2 hp
        · exact absurd h1 hp
    · intro i hi
      rw [hn] at hi
      have hnew : par o' o.g.size = none := by
        rw [a.par, if_neg]
        · exact at_ge none (by rw [wb.psz]; exact Nat.le_refl _)
        · intro h
          have := (a.tops _ h).1
          exact Nat.lt_irrefl _ this
      have ti := inv.top i hi
      rw [hl i hi, hrt]
      split_ifs with c c2 c2
      · refine ⟨Relation.ReflTransGen.tail (a.mono ti.1) ?_, hnew⟩
        rw [a.par, if_pos]
        rcases c with c | c
        · rw [c]
          exact List.mem_cons_self
        · rw [c]
          exact List.mem_cons_of_mem _ (List.mem_singleton.mpr rfl)
      · exact absurd rfl c2
      · exfalso
        apply c
        rw [c2]
        exact hpick
      · refine ⟨a.mono ti.1, ?_⟩
        rw [a.par, if_neg]
        · exact ti.2
        · intro h
          apply c
          rcases List.mem_cons.mp h with h | h
          · exact .inl (inv.root_inj (inv.lab_lt i hi) hru (inv.lab_lab i hi) lru h)
          · exact .inr (inv.root_inj (inv.lab_lt i hi) hrv (inv.lab_lab i hi) lrv (List.mem_singleton.mp h))

end MergeHistory
