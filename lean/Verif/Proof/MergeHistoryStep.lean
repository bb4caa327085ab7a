import Verif.Proof.MergeHistoryBase

namespace MergeHistory
open Cxx
open UnionFind (Connected)

/-! ### Edges to a new node -/

/-- `o'` is `o` with the roots of `us` put under `new` and the lists of `us` cleared. -/
structure Folded (new : Nat) (us : List Nat) (o o' : Obj) : Prop where
  n : o'.n = o.n
  lab : o'.lab = o.lab
  root : o'.root = o.root
  time : o'.time = o.time
  created : o'.created = o.created
  gsz : o'.g.size = o.g.size
  psz : o'.parent.size = o.parent.size
  ch : ∀ p, MergeHistory.ch o' p = if p ∈ us then [] else if p = new then MergeHistory.ch o new ++ us.map (rt o) else MergeHistory.ch o p
  par : ∀ x, MergeHistory.par o' x = if x ∈ us.map (rt o) then some new else MergeHistory.par o x

theorem Folded.rt {new : Nat} {us : List Nat} {o o' : Obj} (h : Folded new us o o') (x : Nat) : MergeHistory.rt o' x = MergeHistory.rt o x := by
  unfold MergeHistory.rt
  rw [h.root]

theorem Folded.nil {new : Nat} {o : Obj} : Folded new [] o o :=
  ⟨rfl, rfl, rfl, rfl, rfl, rfl, rfl, fun p => by simp; intro e; rw [e], fun x => by simp⟩

theorem Folded.trans {new : Nat} {us vs : List Nat} {o o1 o2 : Obj} (h1 : Folded new us o o1) (h2 : Folded new vs o1 o2) (hu : new ∉ us) :
    Folded new (us ++ vs) o o2 := by
  have hrt : MergeHistory.rt o1 = MergeHistory.rt o := funext h1.rt
  refine ⟨h2.n.trans h1.n, h2.lab.trans h1.lab, h2.root.trans h1.root, h2.time.trans h1.time, h2.created.trans h1.created, h2.gsz.trans h1.gsz,
    h2.psz.trans h1.psz, ?_, ?_⟩
  · intro p
    rw [h2.ch, h1.ch, h1.ch, if_neg hu, if_pos rfl, hrt]
    simp only [List.mem_append, List.map_append]
    by_cases c3 : p = new
    · subst c3
      by_cases c2 : p ∈ vs <;> simp [hu, c2, List.append_assoc]
    · by_cases c1 : p ∈ us <;> by_cases c2 : p ∈ vs <;> simp [c1, c2, c3]
  · intro x
    rw [h2.par, h1.par, hrt]
    simp only [List.map_append, List.mem_append]
    by_cases c1 : x ∈ us.map (MergeHistory.rt o) <;> by_cases c2 : x ∈ vs.map (MergeHistory.rt o) <;> simp only [c1, c2, or_true, or_false, true_or, if_true, if_false]

theorem createEdge_tot {o : Obj} {new a : Nat} (hn : new < o.g.size) (ha : a < o.parent.size) :
    Tot (createEdge o new a) (fun o' => o'.n = o.n ∧ o'.lab = o.lab ∧ o'.root = o.root ∧ o'.time = o.time ∧ o'.created = o.created ∧ o'.g.size = o.g.size ∧
      o'.parent.size = o.parent.size ∧ (∀ p, ch o' p = if p = new then ch o new ++ [a] else ch o p) ∧ (∀ x, par o' x = if x = a then some new else par o x)) := by
  unfold createEdge
  rw [rd_at [] hn, ok_bind, wr_eq hn, ok_bind, wr_eq ha, ok_bind, pure_eq]
  refine tot_ok.mpr ⟨rfl, rfl, rfl, rfl, rfl, by simp, by simp, ?_, ?_⟩
  · intro p
    unfold ch
    dsimp only
    rw [at_set [] hn]
    by_cases e : new = p
    · subst e; simp
    · rw [if_neg e, if_neg (Ne.symm e)]
  · intro x
    unfold par
    dsimp only
    rw [at_set none ha]
    by_cases e : a = x
    · subst e; simp
    · rw [if_neg e, if_neg (Ne.symm e)]

theorem dfsEnd_tot {o : Obj} {u new : Nat} (hn : new < o.g.size) (hu : u < o.root.size) (hug : u < o.g.size) (hne : u ≠ new) (hr : rt o u < o.parent.size) :
    Tot (dfsEnd o u new) (Folded new [u] o) := by
  unfold dfsEnd
  rw [rd_at 0 hu, ok_bind]
  refine (createEdge_tot hn hr).bind ?_
  rintro o1 ⟨h1, h2, h3, h4, h5, h6, h7, h8, h9⟩
  rw [wr_eq (by omega), ok_bind, pure_eq]
  refine tot_ok.mpr ⟨h1, h2, h3, h4, h5, by simpa using h6, h7, ?_, ?_⟩
  · intro p
    show at' [] (o1.g.setIfInBounds u []) p = _
    rw [at_set [] (by omega)]
    have := h8 p
    unfold ch at this
    rw [this]
    by_cases e : u = p
    · subst e; simp
    · rw [if_neg e, if_neg (c := p ∈ [u]) (by simpa using Ne.symm e)]
      rfl
  · intro x
    have := h9 x
    show at' none o1.parent x = _
    unfold par at this
    rw [this]
    simp only [List.map_singleton, List.mem_singleton]
    rfl

/-- The order in which `merge_dfs` leaves the nodes below `vs`. -/
inductive Post (g : Nat → List Nat) : List Nat → List Nat → Prop
  | nil : Post g [] []
  | cons {v : Nat} {vs a b : List Nat} : Post g (g v) a → Post g vs b → Post g (v :: vs) (a ++ v :: b)

theorem Post.frame {g g' : Nat → List Nat} {vs us : List Nat} (h : Post g vs us) (he : ∀ u ∈ us, g' u = g u) : Post g' vs us := by
  induction h with
  | nil => exact .nil
  | @cons v vs a b _ _ ih1 ih2 =>
    have hv := he v (by simp)
    refine .cons ?_ (ih2 fun u hu => he u (by simp [hu]))
    rw [hv]
    exact ih1 fun u hu => he u (by simp [hu])

theorem Post.append {g : Nat → List Nat} {vs ws a b : List Nat} (h : Post g vs a) (h' : Post g ws b) : Post g (vs ++ ws) (a ++ b) := by
  induction h with
  | nil => exact h'
  | @cons v vs a b' h1 _ _ ih2 =>
    have := Post.cons h1 ih2
    simpa using this

theorem Post.single {g : Nat → List Nat} {v : Nat} {us : List Nat} (h : Post g [v] us) : ∃ a, us = a ++ [v] ∧ Post g (g v) a := by
  obtain _ | ⟨h1, h2⟩ := h
  cases h2
  exact ⟨_, rfl, h1⟩

theorem mergeDfs_nil {new k : Nat} {o : Obj} : mergeDfs new k [] o = .ok o := by
  cases k <;> (unfold mergeDfs; rfl)

theorem mergeDfs_tot {new : Nat} {g : Nat → List Nat} {vs us : List Nat} (h : Post g vs us) :
    ∀ k (o : Obj), us.Nodup → us.length ≤ k → new < o.g.size → (∀ u ∈ us, ch o u = g u ∧ u < o.root.size ∧ u < new ∧ rt o u < o.parent.size) →
      Tot (mergeDfs new k vs o) (Folded new us o) := by
  induction h with
  | nil =>
    intro k o _ _ _ _
    rw [mergeDfs_nil]
    exact tot_ok.mpr .nil
  | @cons v vs a b _ _ ih1 ih2 =>
    intro k o hnd hk hnew hu
    obtain ⟨k, rfl⟩ : ∃ j, k = j + 1 := ⟨k - 1, by simp at hk; omega⟩
    have hv := hu v (by simp)
    have hnu : ∀ u ∈ a ++ v :: b, u ≠ new := fun u h => by have := hu u h; omega
    rw [List.nodup_append, List.nodup_cons] at hnd
    obtain ⟨na, ⟨nv, nb⟩, nd⟩ := hnd
    have hnva : v ∉ a := fun h => nd v h v (by simp) rfl
    have hnab : ∀ u ∈ b, u ∉ a := fun u hb h => nd u h u (by simp [hb]) rfl
    unfold mergeDfs
    rw [rd_at [] (by omega), ok_bind]
    have e1 : at' [] o.g v = g v := hv.1
    rw [e1]
    refine (ih1 k o na (by simp at hk; omega) hnew fun u h => hu u (by simp [h])).bind ?_
    intro o1 f1
    have hn1 : new ∉ a := fun h => hnu new (by simp [h]) rfl
    refine (dfsEnd_tot (o := o1) (u := v) (new := new) (by rw [f1.gsz]; exact hnew) (by rw [f1.root]; exact hv.2.1) (by rw [f1.gsz]; omega) (by omega)
      (by rw [f1.rt, f1.psz]; exact hv.2.2.2)).bind ?_
    intro o2 f2
    have f12 := f1.trans f2 hn1
    have hn2 : new ∉ a ++ [v] := by
      rw [List.mem_append, List.mem_singleton]
      rintro (h | h)
      · exact hn1 h
      · omega
    refine (ih2 (k + 1) o2 nb (by simp at hk; omega) (by rw [f12.gsz]; exact hnew) ?_).mono ?_
    · intro u hub
      obtain ⟨k1, k2, k3, k4⟩ := hu u (by simp [hub])
      refine ⟨?_, by rw [f12.root]; exact k2, k3, by rw [f12.rt, f12.psz]; exact k4⟩
      rw [f12.ch, if_neg, if_neg (by omega), k1]
      rw [List.mem_append, List.mem_singleton]
      rintro (h | rfl)
      · exact hnab u hub h
      · exact nv hub
    · intro o3 f3
      have := f12.trans f3 hn2
      simpa using this

/-- The body of the second loop puts a new node above the tops of the tree of `s`. -/
theorem sweepNode_tot {o : Obj} (w : WF o) {s : Nat} {ul : List Nat} (hs : s < o.n) (hp : Post (ch o) [s] ul) (hnd : ul.Nodup)
    (hu : ∀ u ∈ ul, u < o.n ∧ rt o u < o.g.size ∧ par o (rt o u) = none) (hr : (ul.map (rt o)).Nodup) :
    Tot (sweepNode o s) (fun o' => Adopt o o' (ul.map (rt o)) ∧ o'.lab = o.lab ∧ (∀ x, rt o' x = if x = s then o.g.size else rt o x) ∧
      ∀ u, u < o.n → ch o' u = if u ∈ ul then [] else ch o u) := by
  have nm := w.nm
  have psz := w.psz
  have csz := w.csz
  have rsz := w.rsz
  have hlen : ul.length ≤ o.n := by
    have := List.Subperm.length_le (List.subperm_of_subset hnd (l₂ := List.range o.n) fun u h => List.mem_range.mpr (hu u h).1)
    simpa using this
  have hch : ∀ p, ch (createNode o).1 p = ch o p := by
    intro p
    unfold createNode ch
    dsimp only
    rw [at_push]
    split_ifs with e
    · rw [at_ge [] (by omega)]
    · rfl
  have hpar : ∀ p, par (createNode o).1 p = par o p := by
    intro p
    unfold createNode par
    dsimp only
    rw [at_push]
    split_ifs with e
    · rw [at_ge none (by omega)]
    · rfl
  have hrt : rt (createNode o).1 = rt o := rfl
  unfold sweepNode
  dsimp only
  have hsz : (createNode o).1.g.size = o.g.size + 1 := by simp [createNode]
  have hpsz : (createNode o).1.parent.size = o.g.size + 1 := by simp [createNode, psz]
  refine (mergeDfs_tot (new := (createNode o).2) hp (o.n + 1) (createNode o).1 hnd (by omega) (by rw [hsz]; exact Nat.lt_succ_self _) ?_).bind ?_
  · intro u hul
    obtain ⟨h1, h2, h3⟩ := hu u hul
    refine ⟨hch u, by show u < o.root.size; omega, by show u < o.g.size; omega, ?_⟩
    rw [hpsz, hrt]
    omega
  · intro o1 f
    rw [wr_eq (by rw [f.root]; show s < o.root.size; omega), ok_bind, pure_eq]
    refine tot_ok.mpr ⟨?_, f.lab, ?_, ?_⟩
    · refine ⟨f.n, f.time, by rw [← hsz]; exact f.gsz, by rw [psz, ← hpsz]; exact f.psz, ?_, ?_, by rw [show o.lab = (createNode o).1.lab from rfl, ← f.lab], ?_, ?_, ?_, ?_, hr, ?_⟩
      · show o1.created.size = _
        rw [f.created]
        simp [createNode]
      · show (o1.root.setIfInBounds _ _).size = _
        rw [Array.size_setIfInBounds, f.root]
        rfl
      · intro x
        have := f.par x
        rw [hpar, hrt] at this
        exact this
      · intro x
        show at' 0 o1.created x = _
        rw [f.created]
        show at' 0 (o.created.push o.time) x = _
        rw [at_push, csz]
        rfl
      · have := f.ch (createNode o).2
        rw [if_neg, if_pos rfl, hch, hrt] at this
        · have h0 : ch o (createNode o).2 = [] := at_ge [] (Nat.le_refl o.g.size)
          rw [h0] at this
          exact this
        · intro h
          have := (hu _ h).1
          have e : (createNode o).2 = o.g.size := rfl
          omega
      · intro p h1 h2
        have := f.ch p
        rw [if_neg, if_neg, hch] at this
        · exact this
        · show ¬p = o.g.size
          omega
        · intro h
          have := hu _ h
          omega
      · intro x hx
        obtain ⟨u, h1, rfl⟩ := List.mem_map.mp hx
        exact (hu u h1).2
    · intro x
      show at' 0 (o1.root.setIfInBounds s o.g.size) x = _
      rw [f.root]
      show at' 0 (o.root.setIfInBounds s o.g.size) x = _
      rw [at_set 0 (by omega)]
      by_cases e : s = x
      · rw [if_pos e, if_pos e.symm]
      · rw [if_neg e, if_neg (Ne.symm e)]
        rfl
    · intro u hun
      have := f.ch u
      rw [if_neg (c := u = _) (by show ¬u = o.g.size; omega), hch] at this
      exact this

/-- The creation of a node in `merge`. -/
theorem join_tot {pick : Array Nat → Nat → Nat → Bool} {o : Obj} (w : WF o) {ru rv : Nat} (hu : ru < o.n) (hv : rv < o.n)
    (h1 : rt o ru < o.g.size ∧ par o (rt o ru) = none) (h2 : rt o rv < o.g.size ∧ par o (rt o rv) = none) (hne : rt o ru ≠ rt o rv) :
    Tot (join pick o ru rv) (fun o' => Adopt o o' [rt o ru, rt o rv] ∧ o'.lab = (unite pick o ru rv).1.lab ∧
      (∀ x, rt o' x = if x = (unite pick o ru rv).2 then o.g.size else rt o x) ∧ ∀ u, u < o.n → ch o' u = ch o u) := by
  have nm := w.nm
  have psz := w.psz
  have csz := w.csz
  have rsz := w.rsz
  have hch : ∀ p, ch (createNode o).1 p = ch o p := by
    intro p
    unfold createNode ch
    dsimp only
    rw [at_push]
    split_ifs with e
    · rw [at_ge [] (by omega)]
    · rfl
  have hpar : ∀ p, par (createNode o).1 p = par o p := by
    intro p
    unfold createNode par
    dsimp only
    rw [at_push]
    split_ifs with e
    · rw [at_ge none (by omega)]
    · rfl
  have hsz : (createNode o).1.g.size = o.g.size + 1 := by simp [createNode]
  have hpsz : (createNode o).1.parent.size = o.g.size + 1 := by simp [createNode, psz]
  unfold join
  dsimp only
  rw [rd_at 0 (by show ru < o.root.size; omega), ok_bind]
  refine (createEdge_tot (o := (createNode o).1) (new := (createNode o).2) (a := rt o ru) (by rw [hsz]; exact Nat.lt_succ_self _) (by rw [hpsz]; omega)).bind ?_
  rintro o1 ⟨a1, a2, a3, a4, a5, a6, a7, a8, a9⟩
  rw [rd_at 0 (by rw [a3]; show rv < o.root.size; omega), ok_bind]
  have e1 : at' 0 o1.root rv = rt o rv := by rw [a3]; rfl
  rw [e1]
  refine (createEdge_tot (o := o1) (new := (createNode o).2) (a := rt o rv) (by rw [a6, hsz]; exact Nat.lt_succ_self _) (by rw [a7, hpsz]; omega)).bind ?_
  rintro o2 ⟨b1, b2, b3, b4, b5, b6, b7, b8, b9⟩
  have hlab : o2.lab = o.lab := b2.trans a2
  have hroot : o2.root = o.root := b3.trans a3
  have hm2 : (unite pick o2 ru rv).2 = (unite pick o ru rv).2 := by unfold unite; rw [hlab]
  have hml : (unite pick o2 ru rv).1.lab = (unite pick o ru rv).1.lab := by unfold unite; rw [hlab]
  have hlt : (unite pick o ru rv).2 < o.root.size := by
    rcases unite_pick (pick := pick) (o := o) (ru := ru) (rv := rv) with e | e <;> rw [e] <;> omega
  rw [hm2]
  rw [wr_eq (by show _ < o2.root.size; rw [hroot]; exact hlt), ok_bind, pure_eq]
  refine tot_ok.mpr ⟨?_, hml, ?_, ?_⟩
  · refine ⟨b1.trans a1, b4.trans a4, by rw [← hsz, ← a6, ← b6]; rfl, by rw [psz, ← hpsz, ← a7, ← b7]; rfl, ?_, ?_, ?_, ?_, ?_, ?_, ?_, ?_, ?_⟩
    · show o2.created.size = _
      rw [b5, a5]
      simp [createNode]
    · show (o2.root.setIfInBounds _ _).size = _
      rw [Array.size_setIfInBounds, hroot]
    · show ((unite pick o2 ru rv).1.lab).size = _
      rw [hml]
      simp [unite]
    · intro x
      show par o2 x = _
      rw [b9, a9, hpar]
      have : (createNode o).2 = o.g.size := rfl
      rw [this]
      by_cases c1 : x = rt o rv <;> by_cases c2 : x = rt o ru <;> simp [c1, c2]
    · intro x
      show at' 0 o2.created x = _
      rw [b5, a5]
      show at' 0 (o.created.push o.time) x = _
      rw [at_push, csz]
      rfl
    · show ch o2 (createNode o).2 = _
      have h0 : ch o (createNode o).2 = [] := at_ge [] (Nat.le_refl o.g.size)
      rw [b8, if_pos rfl, a8, if_pos rfl, hch, h0]
      rfl
    · intro p k1 k2
      show ch o2 p = _
      have hp : ¬p = (createNode o).2 := by show ¬p = o.g.size; omega
      rw [b8, if_neg hp, a8, if_neg hp, hch]
    · simpa using hne
    · intro x hx
      rcases List.mem_cons.mp hx with rfl | hx
      · exact h1
      · rw [List.mem_singleton.mp hx]
        exact h2
  · intro x
    show at' 0 (o2.root.setIfInBounds _ o.g.size) x = _
    rw [hroot, at_set 0 hlt]
    by_cases e : (unite pick o ru rv).2 = x
    · rw [if_pos e, if_pos e.symm]
    · rw [if_neg e, if_neg (Ne.symm e)]
      rfl
  · intro u hu'
    show ch o2 u = _
    have hp : ¬u = (createNode o).2 := by show ¬u = o.g.size; omega
    rw [b8, if_neg hp, a8, if_neg hp, hch]

end MergeHistory
