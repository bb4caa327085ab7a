import Verif.Proof.MergeHistoryForest

namespace MergeHistory
open Cxx
open UnionFind (Connected)

theorem Post.of_nil {g : Nat → List Nat} {l us : List Nat} (h : Post g l us) (e : us = []) : l = [] := by
  cases h with
  | nil => rfl
  | cons => simp at e

/-! ### The first loop of `merge_simultaneously` -/

/-- The state of the first loop after the edges `pre`; `us s` lists the old leaders now under the leader `s`. -/
structure Ph (o0 : Obj) (hist : List (List (Nat × Nat))) (us : Nat → List Nat) (pre : List (Nat × Nat)) (st : Obj × List Nat) : Prop where
  n : st.1.n = o0.n
  time : st.1.time = o0.time + 1
  parent : st.1.parent = o0.parent
  root : st.1.root = o0.root
  created : st.1.created = o0.created
  gsz : st.1.g.size = o0.g.size
  lsz : st.1.lab.size = o0.n
  node : ∀ p, o0.n ≤ p → ch st.1 p = ch o0 p
  lab_lt : ∀ i, i < o0.n → lb st.1 i < o0.n
  lab_lab : ∀ i, i < o0.n → lb st.1 (lb st.1 i) = lb st.1 i
  lab : ∀ i j, i < o0.n → j < o0.n → (Connected (edgesUpTo hist hist.length ++ pre) i j ↔ lb st.1 i = lb st.1 j)
  up : ∀ i, i < o0.n → lb st.1 (lb o0 i) = lb st.1 i
  idle : ∀ u, u < o0.n → lb o0 u ≠ u → ch st.1 u = []
  old : ∀ s, s < o0.n → lb st.1 s = s → lb o0 s = s
  post : ∀ s, s < o0.n → lb st.1 s = s → Post (ch st.1) [s] (us s)
  nodup : ∀ s, s < o0.n → lb st.1 s = s → (us s).Nodup
  mem : ∀ s, s < o0.n → lb st.1 s = s → ∀ v, v ∈ us s ↔ v < o0.n ∧ lb o0 v = v ∧ lb st.1 v = s
  fresh : ∀ s, s < o0.n → lb st.1 s = s → s ∉ st.2 → us s = [s]
  vs_lt : ∀ s ∈ st.2, s < o0.n

theorem Ph.wf {o0 : Obj} {hist : List (List (Nat × Nat))} {us : Nat → List Nat} {pre : List (Nat × Nat)} {st : Obj × List Nat} (p : Ph o0 hist us pre st)
    (w : WF o0) : WF st.1 := by
  have hpar : ∀ x, MergeHistory.par st.1 x = MergeHistory.par o0 x := fun x => by unfold MergeHistory.par; rw [p.parent]
  have hcr : ∀ x, cr st.1 x = cr o0 x := fun x => by unfold cr; rw [p.created]
  refine ⟨by rw [p.n, p.gsz]; exact w.nm, by rw [p.parent, p.gsz]; exact w.psz, by rw [p.created, p.gsz]; exact w.csz, by rw [p.root, p.n]; exact w.rsz,
    by rw [p.lsz, p.n], ?_, ?_, ?_, ?_⟩
  · intro x q h
    rw [hpar] at h
    rw [p.gsz, p.n, hcr, hcr]
    exact w.par x q h
  · intro q h1 h2
    rw [p.n] at h1
    rw [p.gsz] at h2
    rw [p.node q h1]
    refine ⟨(w.kids q h1 h2).1, fun c => ?_⟩
    rw [hpar]
    exact (w.kids q h1 h2).2 c
  · intro x hx
    rw [hcr]
    exact w.leaf x (by rw [p.n] at hx; exact hx)
  · intro x h1 h2
    rw [p.n] at h1
    rw [p.gsz] at h2
    rw [hcr, p.time]
    have := w.node x h1 h2
    omega

theorem Ph.start {o0 : Obj} {hist : List (List (Nat × Nat))} (inv : Inv o0 hist) : Ph o0 hist (fun s => [s]) [] (bump o0, []) := by
  refine ⟨rfl, rfl, rfl, rfl, rfl, rfl, inv.wf.lsz, fun _ _ => rfl, inv.lab_lt, inv.lab_lab, ?_, inv.lab_lab, fun u hu _ => inv.clean u hu, fun s _ h => h, ?_, ?_, ?_, ?_, ?_⟩
  · intro i j hi hj
    rw [List.append_nil]
    exact inv.lab i j hi hj
  · intro s hs _
    have h0 : ch (bump o0) s = [] := inv.clean s hs
    have : Post (ch (bump o0)) [s] ([] ++ s :: []) := .cons (by rw [h0]; exact .nil) .nil
    exact this
  · intro s _ _
    simp
  · intro s hs hl v
    rw [List.mem_singleton]
    constructor
    · rintro rfl
      exact ⟨hs, hl, hl⟩
    · rintro ⟨-, h1, h2⟩
      exact (h1.symm.trans h2)
  · intro s _ _ _
    rfl
  · intro s hs
    cases hs

theorem xor_other {ru rv r : Nat} (h : r = ru ∨ r = rv) : (r = ru ∧ ru ^^^ rv ^^^ r = rv) ∨ (r = rv ∧ ru ^^^ rv ^^^ r = ru) := by
  rcases h with rfl | rfl
  · exact .inl ⟨rfl, by rw [Nat.xor_comm r rv, Nat.xor_assoc, Nat.xor_self, Nat.xor_zero]⟩
  · exact .inr ⟨rfl, by rw [Nat.xor_assoc, Nat.xor_self, Nat.xor_zero]⟩

theorem simStep_tot {pick : Array Nat → Nat → Nat → Bool} {o0 : Obj} {hist : List (List (Nat × Nat))} (inv : Inv o0 hist) {pre : List (Nat × Nat)}
    {st : Obj × List Nat} {e : Nat × Nat} (hp : ∃ us, Ph o0 hist us pre st) (he1 : e.1 < o0.n) (he2 : e.2 < o0.n)
    (he : ∀ e ∈ edgesUpTo hist hist.length ++ pre, e.1 < o0.n ∧ e.2 < o0.n) :
    Tot (simStep pick st e) (fun st' => ∃ us, Ph o0 hist us (pre ++ [e]) st') := by
  obtain ⟨us, p⟩ := hp
  have lsz : st.1.lab.size = st.1.n := by rw [p.lsz, p.n]
  unfold simStep
  rw [leader_ok lsz (by rw [p.n]; exact he1), ok_bind, leader_ok lsz (by rw [p.n]; exact he2), ok_bind]
  have happ : edgesUpTo hist hist.length ++ (pre ++ [e]) = (edgesUpTo hist hist.length ++ pre) ++ [(e.1, e.2)] := by simp
  by_cases h : lb st.1 e.1 = lb st.1 e.2
  · rw [if_pos h, pure_eq]
    refine tot_ok.mpr ⟨us, ⟨p.n, p.time, p.parent, p.root, p.created, p.gsz, p.lsz, p.node, p.lab_lt, p.lab_lab, ?_, p.up, p.idle, p.old, p.post, p.nodup, p.mem, p.fresh, p.vs_lt⟩⟩
    rw [happ]
    refine conn_add (f := lb st.1) (r := lb st.1 e.1) he1 he2 p.lab ?_ (.inl rfl) he
    intro i _
    split_ifs with c
    · rcases c with c | c
      · exact c
      · rw [c, h]
    · rfl
  · rw [if_neg h]
    have hlu := p.lab_lt e.1 he1
    have hlv := p.lab_lt e.2 he2
    have hru := p.lab_lab e.1 he1
    have hrv := p.lab_lab e.2 he2
    obtain ⟨ru, eru⟩ : ∃ ru, ru = lb st.1 e.1 := ⟨_, rfl⟩
    obtain ⟨rv, erv⟩ : ∃ rv, rv = lb st.1 e.2 := ⟨_, rfl⟩
    have hul : ∀ i, i < o0.n → lb (unite pick st.1 ru rv).1 i = if lb st.1 i = ru ∨ lb st.1 i = rv then (unite pick st.1 ru rv).2 else lb st.1 i :=
      fun i hi => unite_lab (by rw [p.lsz]; exact hi)
    have hpick := unite_pick (pick := pick) (o := st.1) (ru := ru) (rv := rv)
    have hconn := conn_add (f := lb st.1) (f' := lb (unite pick st.1 ru rv).1) (r := (unite pick st.1 ru rv).2) he1 he2 p.lab
      (by rw [← eru, ← erv]; exact hul) (by rw [← eru, ← erv]; exact hpick) he
    rw [← eru, ← erv] at h ⊢
    rw [← eru] at hlu hru
    rw [← erv] at hlv hrv
    clear eru erv
    unfold attach
    dsimp only
    obtain ⟨r, er⟩ : ∃ r, r = (unite pick st.1 ru rv).2 := ⟨_, rfl⟩
    rw [← er] at hul hpick ⊢
    obtain ⟨c, ec⟩ : ∃ c, c = ru ^^^ rv ^^^ r := ⟨_, rfl⟩
    have hrc := xor_other hpick
    rw [← ec] at hrc ⊢
    have hrl : r < o0.n := by rcases hrc with ⟨h1, h2⟩ | ⟨h1, h2⟩ <;> omega
    have hcl : c < o0.n := by rcases hrc with ⟨h1, h2⟩ | ⟨h1, h2⟩ <;> omega
    have hrr : lb st.1 r = r := by rcases hrc with ⟨h1, h2⟩ | ⟨h1, h2⟩ <;> rw [h1] <;> assumption
    have hcc : lb st.1 c = c := by rcases hrc with ⟨h1, h2⟩ | ⟨h1, h2⟩ <;> rw [h2] <;> assumption
    have hne : r ≠ c := by rcases hrc with ⟨h1, h2⟩ | ⟨h1, h2⟩ <;> omega
    have hul' : ∀ i, i < o0.n → lb (unite pick st.1 ru rv).1 i = if lb st.1 i = r ∨ lb st.1 i = c then r else lb st.1 i := by
      intro i hi
      rw [hul i hi]
      rcases hrc with ⟨h1, h2⟩ | ⟨h1, h2⟩
      · rw [h1, h2]
      · rw [h1, h2]
        simp only [or_comm]
    clear hul
    have nm := inv.wf.nm
    have hgr : r < (unite pick st.1 ru rv).1.g.size := by
      show r < st.1.g.size
      rw [p.gsz]
      omega
    rw [rd_at [] hgr, ok_bind, wr_eq hgr, ok_bind, pure_eq]
    have hch : ∀ x, at' [] ((unite pick st.1 ru rv).1.g.setIfInBounds r (at' [] (unite pick st.1 ru rv).1.g r ++ [c])) x =
        if x = r then ch st.1 r ++ [c] else ch st.1 x := by
      intro x
      rw [at_set [] hgr]
      by_cases e : r = x
      · subst e
        rw [if_pos rfl, if_pos rfl]
        rfl
      · rw [if_neg e, if_neg (Ne.symm e)]
        rfl
    obtain ⟨a, ha, hpa⟩ := (p.post r hrl hrr).single
    have hnr := p.nodup r hrl hrr
    have hnc := p.nodup c hcl hcc
    have hmr := p.mem r hrl hrr
    have hmc := p.mem c hcl hcc
    rw [ha] at hnr hmr
    have hra : r ∉ a := by
      intro h
      rw [List.nodup_append] at hnr
      exact hnr.2.2 r h r (by simp) rfl
    have hrc' : r ∉ us c := by
      intro h
      have := ((hmc r).mp h).2.2
      rw [hrr] at this
      exact hne this
    have hac : ∀ v ∈ a, v ∉ us c := by
      intro v h1 h2
      have k1 := ((hmr v).mp (by simp [h1])).2.2
      have k2 := ((hmc v).mp h2).2.2
      rw [k1] at k2
      exact hne k2
    -- leaders other than `r`
    have other : ∀ s, s < o0.n → lb (unite pick st.1 ru rv).1 s = s → s ≠ r → lb st.1 s = s ∧ s ≠ c := by
      intro s hs hl hsr
      rw [hul' s hs] at hl
      split_ifs at hl with k
      · exact absurd hl.symm hsr
      · refine ⟨hl, ?_⟩
        rintro rfl
        exact k (.inr hl)
    refine tot_ok.mpr ⟨fun s => if s = r then a ++ us c ++ [r] else us s, ?_⟩
    refine ⟨p.n, p.time, p.parent, p.root, p.created, ?_, ?_, ?_, ?_, ?_, ?_, ?_, ?_, ?_, ?_, ?_, ?_, ?_, ?_⟩
    · show (Array.setIfInBounds _ _ _).size = _
      rw [Array.size_setIfInBounds]
      exact p.gsz
    · show (unite pick st.1 ru rv).1.lab.size = _
      have : (unite pick st.1 ru rv).1.lab.size = st.1.lab.size := by simp [unite]
      rw [this, p.lsz]
    · intro q hq
      refine (hch q).trans ?_
      rw [if_neg (by omega)]
      exact p.node q hq
    · intro i hi
      show lb (unite pick st.1 ru rv).1 i < _
      rw [hul' i hi]
      split_ifs
      · exact hrl
      · exact p.lab_lt i hi
    · intro i hi
      show lb (unite pick st.1 ru rv).1 (lb (unite pick st.1 ru rv).1 i) = lb (unite pick st.1 ru rv).1 i
      rw [hul' i hi]
      split_ifs with k
      · rw [hul' r hrl, if_pos (.inl hrr)]
      · rw [hul' _ (p.lab_lt i hi), p.lab_lab i hi, if_neg k]
    · rw [happ]
      exact hconn
    · intro i hi
      show lb (unite pick st.1 ru rv).1 (lb o0 i) = lb (unite pick st.1 ru rv).1 i
      rw [hul' i hi, hul' _ (inv.lab_lt i hi), p.up i hi]
    · intro u hu hl
      refine (hch u).trans ?_
      rw [if_neg]
      · exact p.idle u hu hl
      · rintro rfl
        exact hl (p.old u hrl hrr)
    · intro s hs hl
      change lb (unite pick st.1 ru rv).1 s = s at hl
      by_cases e : s = r
      · rw [e]
        exact p.old r hrl hrr
      · exact p.old s hs (other s hs hl e).1
    · intro s hs hl
      change lb (unite pick st.1 ru rv).1 s = s at hl
      by_cases e : s = r
      · subst e
        rw [if_pos rfl]
        have h1 : Post (ch st.1) (ch st.1 s ++ [c]) (a ++ us c) := hpa.append (p.post c hcl hcc)
        refine Post.cons (a := a ++ us c) (b := []) ?_ .nil
        have e2 := hch s
        rw [if_pos rfl] at e2
        show Post _ (at' [] _ s) _
        rw [e2]
        refine h1.frame ?_
        intro u hu
        refine (hch u).trans ?_
        rw [if_neg]
        rintro rfl
        rcases List.mem_append.mp hu with h | h
        · exact hra h
        · exact hrc' h
      · rw [if_neg e]
        obtain ⟨k1, k2⟩ := other s hs hl e
        refine (p.post s hs k1).frame ?_
        intro u hu
        refine (hch u).trans ?_
        rw [if_neg]
        rintro rfl
        have := ((p.mem s hs k1 u).mp hu).2.2
        rw [hrr] at this
        exact e this.symm
    · intro s hs hl
      change lb (unite pick st.1 ru rv).1 s = s at hl
      by_cases e : s = r
      · subst e
        rw [if_pos rfl]
        rw [List.nodup_append, List.nodup_append]
        rw [List.nodup_append] at hnr
        refine ⟨⟨hnr.1, hnc, ?_⟩, hnr.2.1, ?_⟩
        · intro x hx y hy e
          subst e
          exact hac x hx hy
        · intro x hx y hy e
          rw [List.mem_singleton] at hy
          subst hy
          subst e
          rcases List.mem_append.mp hx with h | h
          · exact hra h
          · exact hrc' h
      · rw [if_neg e]
        exact p.nodup s hs (other s hs hl e).1
    · intro s hs hl v
      change lb (unite pick st.1 ru rv).1 s = s at hl
      show _ ↔ v < o0.n ∧ lb o0 v = v ∧ lb (unite pick st.1 ru rv).1 v = s
      by_cases e : s = r
      · subst e
        rw [if_pos rfl]
        have h1 : v ∈ a ++ us c ++ [s] ↔ v ∈ a ++ [s] ∨ v ∈ us c := by
          simp only [List.mem_append, List.mem_singleton]
          tauto
        rw [h1, hmr, hmc]
        constructor
        · rintro (⟨k1, k2, k3⟩ | ⟨k1, k2, k3⟩)
          · exact ⟨k1, k2, by rw [hul' v k1, if_pos (.inl k3)]⟩
          · exact ⟨k1, k2, by rw [hul' v k1, if_pos (.inr k3)]⟩
        · rintro ⟨k1, k2, k3⟩
          rw [hul' v k1] at k3
          split_ifs at k3 with k
          · rcases k with k | k
            · exact .inl ⟨k1, k2, k⟩
            · exact .inr ⟨k1, k2, k⟩
          · exact .inl ⟨k1, k2, k3⟩
      · rw [if_neg e]
        obtain ⟨j1, j2⟩ := other s hs hl e
        rw [p.mem s hs j1 v]
        constructor
        · rintro ⟨k1, k2, k3⟩
          refine ⟨k1, k2, ?_⟩
          rw [hul' v k1, if_neg, k3]
          rw [k3]
          rintro (k | k)
          · exact e k
          · exact j2 k
        · rintro ⟨k1, k2, k3⟩
          refine ⟨k1, k2, ?_⟩
          rw [hul' v k1] at k3
          split_ifs at k3 with k
          · exact absurd k3.symm e
          · exact k3
    · intro s hs hl hm
      change lb (unite pick st.1 ru rv).1 s = s at hl
      have hm' : s ∉ st.2 ∧ s ≠ r := by
        constructor
        · intro h
          exact hm (List.mem_append_left _ h)
        · rintro rfl
          exact hm (List.mem_append_right _ (List.mem_singleton.mpr rfl))
      rw [if_neg hm'.2]
      exact p.fresh s hs (other s hs hl hm'.2).1 hm'.1
    · intro s hs
      rcases List.mem_append.mp hs with h | h
      · exact p.vs_lt s h
      · rw [List.mem_singleton.mp h]
        exact hrl

/-! ### The second loop -/

/-- The state of the second loop after the leaders `pre`. -/
structure Sw (o0 o1 : Obj) (us : Nat → List Nat) (pre : List Nat) (o : Obj) : Prop where
  wf : WF o
  grow : Grow o0 o
  lab : o.lab = o1.lab
  below : ∀ i j p, i < o0.n → j < o0.n → Anc o i p → Anc o j p → lb o1 i = lb o1 j
  idle : ∀ u, u < o0.n → lb o0 u ≠ u → ch o u = []
  todo : ∀ s, s < o0.n → lb o1 s = s → s ∉ pre → Post (ch o) [s] (us s) ∧ ∀ u ∈ us s, rt o u = rt o0 u ∧ par o (rt o0 u) = none
  done : ∀ s, s < o0.n → lb o1 s = s → s ∈ pre → (∀ u ∈ us s, ch o u = [] ∧ Anc o (rt o0 u) (rt o s)) ∧ par o (rt o s) = none

theorem Grow.mono {o0 o : Obj} {hist : List (List (Nat × Nat))} (inv : Inv o0 hist) (g : Grow o0 o) {x y : Nat} (hx : x < o0.g.size) (h : Anc o0 x y) : Anc o x y :=
  (g.old x y (h.lt inv.wf hx)).mpr h

theorem sweepStep_tot {o0 o1 : Obj} {hist : List (List (Nat × Nat))} (inv : Inv o0 hist) {us : Nat → List Nat} {edges : List (Nat × Nat)} {vs : List Nat}
    (p : Ph o0 hist us edges (o1, vs)) {pre : List Nat} {s : Nat} {o : Obj} (sw : Sw o0 o1 us pre o) (hs : s < o0.n) :
    Tot (sweepStep o s) (Sw o0 o1 us (pre ++ [s])) := by
  have w := sw.wf
  have hn := sw.grow.n
  have lbe : ∀ x, lb o x = lb o1 x := fun x => by unfold lb; rw [sw.lab]
  have nm := inv.wf.nm
  have gsz := sw.grow.gsz
  unfold sweepStep
  rw [leader_ok w.lsz (by omega), ok_bind, lbe]
  by_cases hl : s = lb o1 s
  · rw [if_pos hl]
    have hl' := hl.symm
    have hmem := p.mem s hs hl'
    dsimp only at hmem
    have hss : s ∈ us s := (hmem s).mpr ⟨hs, p.old s hs hl', hl'⟩
    have hold : ∀ u ∈ us s, rt o0 u < o0.g.size ∧ par o0 (rt o0 u) = none ∧ Anc o0 u (rt o0 u) := by
      intro u hu
      obtain ⟨k1, k2, -⟩ := (hmem u).mp hu
      exact inv.root_top k1 k2
    -- the list of the nodes visited
    obtain ⟨ul, q1, q2, q3, q4, q5, q6⟩ : ∃ ul, Post (ch o) [s] ul ∧ ul.Nodup ∧ (∀ u ∈ ul, u < o.n ∧ rt o u < o.g.size ∧ par o (rt o u) = none) ∧ (ul.map (rt o)).Nodup ∧
        (∀ u ∈ us s, (∃ z ∈ ul.map (rt o), Anc o (rt o0 u) z) ∧ (u ∈ ul ∨ ch o u = [])) ∧
        (∀ u ∈ ul, u ∈ us s ∧ Anc o u (rt o u)) := by
      by_cases hpre : s ∈ pre
      · obtain ⟨d1, d2⟩ := sw.done s hs hl' hpre
        have hsc : Anc o s (rt o s) := by
          have k := hold s hss
          exact (sw.grow.mono inv (by omega) k.2.2).trans (d1 s hss).2
        refine ⟨[s], ?_, by simp, ?_, by simp, ?_, ?_⟩
        · have : Post (ch o) [s] ([] ++ s :: []) := .cons (by rw [(d1 s hss).1]; exact .nil) .nil
          exact this
        · intro u hu
          rw [List.mem_singleton.mp hu]
          exact ⟨by omega, hsc.lt w (by omega), d2⟩
        · intro u hu
          refine ⟨⟨rt o s, by simp, (d1 u hu).2⟩, .inr (d1 u hu).1⟩
        · intro u hu
          rw [List.mem_singleton.mp hu]
          exact ⟨hss, hsc⟩
      · obtain ⟨t1, t2⟩ := sw.todo s hs hl' hpre
        refine ⟨us s, t1, p.nodup s hs hl', ?_, ?_, ?_, ?_⟩
        · intro u hu
          have := (hmem u).mp hu
          have k := hold u hu
          rw [(t2 u hu).1]
          exact ⟨by omega, by omega, (t2 u hu).2⟩
        · refine List.Nodup.map_on ?_ (p.nodup s hs hl')
          intro x hx y hy e
          rw [(t2 x hx).1, (t2 y hy).1] at e
          obtain ⟨k1, k2, -⟩ := (hmem x).mp hx
          obtain ⟨j1, j2, -⟩ := (hmem y).mp hy
          exact inv.root_inj k1 j1 k2 j2 e
        · intro u hu
          exact ⟨⟨rt o u, List.mem_map_of_mem hu, by rw [(t2 u hu).1]; exact .refl⟩, .inl hu⟩
        · intro u hu
          refine ⟨hu, ?_⟩
          have := (hmem u).mp hu
          rw [(t2 u hu).1]
          exact sw.grow.mono inv (by omega) (hold u hu).2.2
    refine (sweepNode_tot w (by omega) q1 q2 q3 q4).mono ?_
    rintro o' ⟨a, hlab, hrt, hch⟩
    have hsl : ∀ i, i < o0.n → ∀ z ∈ ul.map (rt o), Anc o i z → lb o1 i = s := by
      intro i hi z hz h
      obtain ⟨u, hu, rfl⟩ := List.mem_map.mp hz
      have k := (hmem u).mp (q6 u hu).1
      rw [← k.2.2]
      exact sw.below i u _ hi k.1 h (q6 u hu).2
    have hnew : par o' o.g.size = none := by
      rw [a.par, if_neg]
      · exact at_ge none (by rw [w.psz])
      · intro h
        have := (a.tops _ h).1
        omega
    have keep : ∀ u, u < o0.n → u ∉ us s → ch o' u = ch o u := by
      intro u hu hns
      rw [hch u (by omega), if_neg fun h => hns (q6 u h).1]
    refine ⟨a.wf w (by rw [sw.grow.time]; omega), sw.grow.adopt w a, hlab.trans sw.lab, ?_, ?_, ?_, ?_⟩
    · intro i j q hi hj h1 h2
      rcases a.inv w h1 with h1 | ⟨rfl, z, hz, h1⟩
      · rcases a.inv w h2 with h2 | ⟨rfl, z, hz, h2⟩
        · exact sw.below i j q hi hj h1 h2
        · have := h1.lt w (by omega)
          omega
      · rcases a.inv w h2 with h2 | ⟨-, z', hz', h2⟩
        · have := h2.lt w (by omega)
          omega
        · rw [hsl i hi z hz h1, hsl j hj z' hz' h2]
    · intro u hu hne
      rw [hch u (by omega)]
      split_ifs
      · rfl
      · exact sw.idle u hu hne
    · intro s' hs' hls hns
      rw [List.mem_append, List.mem_singleton, not_or] at hns
      obtain ⟨t1, t2⟩ := sw.todo s' hs' hls hns.1
      have hmem' := p.mem s' hs' hls
      dsimp only at hmem'
      have hdis : ∀ u ∈ us s', u ∉ us s := by
        intro u h1 h2
        have k1 := ((hmem' u).mp h1).2.2
        have k2 := ((hmem u).mp h2).2.2
        exact hns.2 (k1.symm.trans k2)
      refine ⟨t1.frame fun u hu => keep u ((hmem' u).mp hu).1 (hdis u hu), ?_⟩
      intro u hu
      have ku := (hmem' u).mp hu
      refine ⟨?_, ?_⟩
      · rw [hrt, if_neg, (t2 u hu).1]
        rintro rfl
        exact hdis u hu hss
      · rw [a.par, if_neg]
        · exact (t2 u hu).2
        · intro h
          have htop := inv.root_top ku.1 ku.2.1
          have := hsl u ku.1 _ h (sw.grow.mono inv (by omega) htop.2.2)
          rw [ku.2.2] at this
          exact hns.2 this
    · intro s' hs' hls hin
      by_cases e : s' = s
      · subst e
        rw [hrt, if_pos rfl]
        refine ⟨?_, hnew⟩
        intro u hu
        obtain ⟨⟨z, hz, hzz⟩, hcu⟩ := q5 u hu
        refine ⟨?_, ?_⟩
        · rw [hch u (by have := ((hmem u).mp hu).1; omega)]
          split_ifs with hc
          · rfl
          · exact hcu.resolve_left hc
        · refine (a.mono hzz).tail ?_
          rw [a.par, if_pos hz]
      · have hin' : s' ∈ pre := by
          rcases List.mem_append.mp hin with h | h
          · exact h
          · exact absurd (List.mem_singleton.mp h) e
        obtain ⟨d1, d2⟩ := sw.done s' hs' hls hin'
        have hmem' := p.mem s' hs' hls
        dsimp only at hmem'
        have hs's : s' ∈ us s' := (hmem' s').mpr ⟨hs', p.old s' hs' hls, hls⟩
        rw [hrt, if_neg e]
        refine ⟨?_, ?_⟩
        · intro u hu
          refine ⟨?_, a.mono (d1 u hu).2⟩
          rw [keep u ((hmem' u).mp hu).1]
          · exact (d1 u hu).1
          · intro h2
            exact e ((((hmem' u).mp hu).2.2).symm.trans ((hmem u).mp h2).2.2)
        · rw [a.par, if_neg]
          · exact d2
          · intro h
            have htop := inv.root_top hs' (p.old s' hs' hls)
            have hanc := (sw.grow.mono inv (by omega) htop.2.2).trans (d1 s' hs's).2
            have := hsl s' hs' _ h hanc
            rw [hls] at this
            exact e this
  · rw [if_neg hl, pure_eq]
    refine tot_ok.mpr ⟨sw.wf, sw.grow, sw.lab, sw.below, sw.idle, ?_, ?_⟩
    · intro s' hs' hls hns
      exact sw.todo s' hs' hls fun h => hns (List.mem_append_left _ h)
    · intro s' hs' hls hin
      refine sw.done s' hs' hls ?_
      rcases List.mem_append.mp hin with h | h
      · exact h
      · rw [List.mem_singleton.mp h] at hls
        exact absurd hls.symm hl

/-- `merge_simultaneously(edges)`. -/
theorem mergeSim_tot {pick : Array Nat → Nat → Nat → Bool} {o : Obj} {hist : List (List (Nat × Nat))} (inv : Inv o hist) {edges : List (Nat × Nat)}
    (hed : ∀ e ∈ edges, e.1 < o.n ∧ e.2 < o.n) (he : ∀ e ∈ edgesUpTo hist hist.length, e.1 < o.n ∧ e.2 < o.n) :
    Tot (mergeSimultaneously pick o edges) (fun o' => Inv o' (hist ++ [edges]) ∧ o'.n = o.n) := by
  unfold mergeSimultaneously
  refine (Tot.forEach (s := (bump o, ([] : List Nat))) (P := fun pre (st : Obj × List Nat) => ∃ us, Ph o hist us pre st) ⟨_, Ph.start inv⟩ ?_).bind ?_
  · intro pre e post st hx hp
    have hmem : e ∈ edges := by rw [hx]; simp
    refine simStep_tot inv hp (hed e hmem).1 (hed e hmem).2 ?_
    intro e' he'
    rcases List.mem_append.mp he' with h | h
    · exact he e' h
    · exact hed e' (by rw [hx]; simp [h])
  · rintro ⟨o1, vs⟩ ⟨us, p⟩
    dsimp only
    have w1 := p.wf inv.wf
    have hpar : ∀ x, par o1 x = par o x := fun x => by unfold par; rw [p.parent]
    have hanc : ∀ x y, Anc o1 x y ↔ Anc o x y := by
      intro x y
      have : Anc o1 = Anc o := by
        unfold Anc
        congr 1
        funext a b
        rw [hpar]
      rw [this]
    have nm := inv.wf.nm
    have hn1 : o1.n = o.n := p.n
    have start : Sw o o1 us [] o1 := by
      refine ⟨w1, ⟨p.n, p.time, by rw [p.gsz], fun x q _ => hanc x q, fun q _ => by unfold cr; rw [p.created], fun q h1 h2 => ?_⟩, rfl, ?_, p.idle, ?_, ?_⟩
      · have := p.gsz
        dsimp only at this
        omega
      · intro i j q hi hj h1 h2
        have := inv.below i j q hi hj ((hanc _ _).mp h1) ((hanc _ _).mp h2)
        have e1 := p.up i hi
        have e2 := p.up j hj
        dsimp only at e1 e2
        rw [← e1, ← e2, this]
      · intro s hs hl _
        refine ⟨p.post s hs hl, ?_⟩
        intro u hu
        have ku := (p.mem s hs hl u).mp hu
        have e1 : rt o1 u = rt o u := by unfold rt; rw [p.root]
        refine ⟨e1, ?_⟩
        rw [hpar]
        exact (inv.root_top ku.1 ku.2.1).2.1
      · intro s _ _ h
        cases h
    refine (Tot.forEach (s := o1) (P := fun pre (o' : Obj) => Sw o o1 us pre o') start ?_).mono ?_
    · intro pre s post o' hx sw
      exact sweepStep_tot inv p sw (p.vs_lt s (by show s ∈ vs; rw [hx]; simp))
    · intro o' sw
      have hn : o'.n = o.n := sw.grow.n
      refine ⟨?_, hn⟩
      have lbe : ∀ x, lb o' x = lb o1 x := fun x => by unfold lb; rw [sw.lab]
      -- the situation of a leader at the end
      have fin : ∀ s, s < o.n → lb o1 s = s → (∀ u ∈ us s, ch o' u = [] ∧ Anc o' (rt o u) (rt o' s)) ∧ par o' (rt o' s) = none := by
        intro s hs hl
        by_cases hv : s ∈ vs
        · exact sw.done s hs hl hv
        · have hf : us s = [s] := p.fresh s hs hl hv
          obtain ⟨t1, t2⟩ := sw.todo s hs hl hv
          rw [hf] at t1 t2
          have hss := t2 s (by simp)
          refine ⟨?_, by rw [hss.1]; exact hss.2⟩
          intro u hu
          rw [hf, List.mem_singleton] at hu
          subst hu
          refine ⟨?_, by rw [hss.1]; exact .refl⟩
          obtain ⟨b, hb, hpb⟩ := t1.single
          have hb0 : b = [] := by
            have := congrArg List.length hb
            simp at this
            exact this
          exact hpb.of_nil hb0
      have memlead : ∀ i, i < o.n → lb o i ∈ us (lb o1 i) ∧ lb o1 i < o.n ∧ lb o1 (lb o1 i) = lb o1 i := by
        intro i hi
        have h1 : lb o1 i < o.n := p.lab_lt i hi
        have h2 : lb o1 (lb o1 i) = lb o1 i := p.lab_lab i hi
        exact ⟨(p.mem _ h1 h2 _).mpr ⟨inv.lab_lt i hi, inv.lab_lab i hi, p.up i hi⟩, h1, h2⟩
      refine finish inv sw.grow sw.wf ?_ ?_ ?_ ?_ ?_ ?_
      · intro u hu
        rw [hn] at hu
        by_cases hl : lb o u = u
        · obtain ⟨k1, k2, k3⟩ := memlead u hu
          rw [hl] at k1
          exact ((fin _ k2 k3).1 u k1).1
        · exact sw.idle u hu hl
      · intro i hi
        rw [hn] at hi ⊢
        rw [lbe]
        exact p.lab_lt i hi
      · intro i hi
        rw [hn] at hi
        rw [lbe, lbe]
        exact p.lab_lab i hi
      · intro i j hi hj
        rw [hn] at hi hj
        rw [lbe, lbe]
        exact p.lab i j hi hj
      · intro i j q hi hj h1 h2
        rw [hn] at hi hj
        rw [lbe, lbe]
        exact sw.below i j q hi hj h1 h2
      · intro i hi
        rw [hn] at hi
        rw [lbe]
        obtain ⟨k1, k2, k3⟩ := memlead i hi
        obtain ⟨f1, f2⟩ := fin _ k2 k3
        refine ⟨?_, f2⟩
        exact (sw.grow.mono inv (by omega) (inv.top i hi).1).trans (f1 _ k1).2

theorem new_inv (n : Nat) : Inv (new n) [] := by
  have hpar : ∀ x, par (new n) x = none := by
    intro x
    unfold par new at'
    simp only [Array.getElem?_replicate]
    split_ifs <;> rfl
  have hlb : ∀ x, x < n → lb (new n) x = x := by
    intro x hx
    unfold lb new at'
    simp [hx]
  have hrt : ∀ x, x < n → rt (new n) x = x := by
    intro x hx
    unfold rt new at'
    simp [hx]
  have hcr : ∀ x, cr (new n) x = 0 := by
    intro x
    unfold cr new at'
    simp only [Array.getElem?_replicate]
    split_ifs <;> rfl
  have hgs : (new n).g.size = n := by simp [new]
  have hanc : ∀ x y, Anc (new n) x y → x = y := fun x y h => h.top (hpar x)
  have hconn : ∀ t i j, Connected (edgesUpTo [] t) i j ↔ i = j := by
    intro t i j
    have he : edgesUpTo [] t = [] := by unfold edgesUpTo; simp
    rw [he]
    constructor
    · intro h
      induction h with
      | rel a b hab => cases hab
      | refl => rfl
      | symm _ _ _ ih => exact ih.symm
      | trans _ _ _ _ _ ih1 ih2 => exact ih1.trans ih2
    · rintro rfl
      exact .refl _
  refine ⟨⟨by rw [hgs]; exact Nat.le_refl _, by simp [new], by simp [new], by simp [new], by simp [new], ?_, ?_, ?_, ?_⟩, rfl, ?_, ?_, ?_, ?_, ?_, ?_, ?_⟩
  · intro x p h
    rw [hpar] at h
    cases h
  · intro p h1 h2
    rw [hgs] at h2
    change n ≤ p at h1
    omega
  · intro x _
    exact hcr x
  · intro x h1 h2
    rw [hgs] at h2
    change n ≤ x at h1
    omega
  · intro u hu
    unfold ch new at'
    simp only [Array.getElem?_replicate]
    split_ifs <;> rfl
  · intro i hi
    rw [hlb i hi]
    exact hi
  · intro i hi
    rw [hlb i hi, hlb i hi]
  · intro i j hi hj
    rw [hconn, hlb i hi, hlb j hj]
  · intro i j p hi hj h1 h2
    rw [hanc i p h1, hanc j p h2]
  · intro i hi
    rw [hlb i hi, hrt i hi]
    exact ⟨.refl, hpar i⟩
  · intro t i j _ _
    rw [hconn]
    constructor
    · exact .inl
    · rintro (h | ⟨p, h1, h2, -⟩)
      · exact h
      · rw [hanc i p h1, hanc j p h2]

end MergeHistory
