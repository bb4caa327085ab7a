import Verif.Proof.MatchingDfs

namespace BipartiteMatching
open Cxx Finset

/-! ## The reversed graph -/

theorem mem_nb {h : Array (Array Nat)} {r l : Nat} : l ∈ nb h r ↔ ∃ i, i < rsize h r ∧ ent h r i = l := by
  unfold nb rsize ent
  generalize at' #[] h r = row
  rw [Array.mem_toList_iff, Array.mem_iff_getElem]
  constructor
  · rintro ⟨i, hi, e⟩
    refine ⟨i, hi, ?_⟩
    unfold at'
    rw [Array.getElem?_eq_getElem hi]
    exact e
  · rintro ⟨i, hi, e⟩
    refine ⟨i, hi, ?_⟩
    unfold at' at e
    rw [Array.getElem?_eq_getElem hi] at e
    exact e

theorem pushRow_tot {g : Array (Array Nat)} {i : Nat} (x : Nat) (hi : i < g.size) :
    Tot (pushRow g i x) (fun g' => g'.size = g.size ∧ ∀ j, nb g' j = if i = j then nb g j ++ [x] else nb g j) := by
  unfold pushRow
  rw [rd_at #[] hi, ok_bind, wr_eq hi]
  refine tot_ok.mpr ⟨by simp, ?_⟩
  intro j
  unfold nb
  rw [at_set #[] hi]
  split_ifs with h
  · rw [h]
    simp
  · rfl

theorem reversed_tot {o : Obj} (ho : OK o) : Tot o.reversed (fun h => h.size = o.m ∧ ∀ r, r < o.m → ∀ l, l ∈ nb h r ↔ l < o.n ∧ r ∈ nb o.g l) := by
  unfold Obj.reversed
  refine Tot.forUp (lo := 0) (hi := o.n) (P := fun k (h : Array (Array Nat)) => h.size = o.m ∧ ∀ r, r < o.m → ∀ l, l ∈ nb h r ↔ l < k ∧ r ∈ nb o.g l) (by omega) ⟨by simp, ?_⟩ ?_
  · intro r hr l
    unfold nb at'
    rw [Array.getElem?_replicate, if_pos hr]
    simp
  · rintro i h _ hi ⟨h1, h2⟩
    rw [rd_at #[] (by rw [ho.gsz]; omega), ok_bind]
    refine (Tot.forEach (P := fun pre (h' : Array (Array Nat)) => h'.size = o.m ∧ ∀ r, r < o.m → ∀ l, l ∈ nb h' r ↔ (l < i ∧ r ∈ nb o.g l) ∨ (l = i ∧ r ∈ pre)) ⟨h1, ?_⟩ ?_).mono ?_
    · intro r hr l
      rw [h2 r hr]
      simp
    · rintro pre j post h' hpp ⟨h3, h4⟩
      have hj : j < o.m := ho.nbr i hi j (by unfold nb; rw [hpp]; simp)
      refine (pushRow_tot i (by rw [h3]; exact hj)).mono ?_
      rintro h'' ⟨h5, h6⟩
      refine ⟨h5.trans h3, ?_⟩
      intro r hr l
      rw [h6]
      split_ifs with hjr
      · rw [List.mem_append, h4 r hr, List.mem_singleton, List.mem_append, List.mem_singleton]
        constructor
        · rintro ((h | h) | h)
          · exact Or.inl h
          · exact Or.inr ⟨h.1, Or.inl h.2⟩
          · exact Or.inr ⟨h, Or.inr hjr.symm⟩
        · rintro (h | ⟨h, h' | h'⟩)
          · exact Or.inl (Or.inl h)
          · exact Or.inl (Or.inr ⟨h, h'⟩)
          · exact Or.inr h
      · rw [h4 r hr, List.mem_append, List.mem_singleton]
        constructor
        · rintro (h | h)
          · exact Or.inl h
          · exact Or.inr ⟨h.1, Or.inl h.2⟩
        · rintro (h | ⟨h, h' | h'⟩)
          · exact Or.inl h
          · exact Or.inr ⟨h, h'⟩
          · exact absurd h'.symm hjr
    · rintro h' ⟨h3, h4⟩
      refine ⟨h3, ?_⟩
      intro r hr l
      rw [h4 r hr]
      change _ ↔ _ ∧ r ∈ nb o.g l
      constructor
      · rintro (h | ⟨rfl, h⟩)
        · exact ⟨by omega, h.2⟩
        · exact ⟨by omega, h⟩
      · rintro ⟨h, h'⟩
        by_cases hli : l = i
        · rw [hli] at h' ⊢
          exact Or.inr ⟨rfl, h'⟩
        · exact Or.inl ⟨by omega, h'⟩

/-- The reversed graph of an object. -/
structure Rev (o : Obj) (h : Array (Array Nat)) : Prop where
  hsz : h.size = o.m
  mem : ∀ r, r < o.m → ∀ l, l ∈ nb h r ↔ l < o.n ∧ r ∈ nb o.g l

theorem Rev.rows {o : Obj} {h : Array (Array Nat)} (hr : Rev o h) : Rows o.n o.m h :=
  ⟨hr.hsz, fun r i hrm hi => ((hr.mem r hrm _).mp (mem_nb.mpr ⟨i, hi, rfl⟩)).1⟩

theorem Rev.edges {o : Obj} {h : Array (Array Nat)} (hr : Rev o h) (ho : OK o) : Edges h o.toL := by
  intro l r e
  have e' := ho.val.lr l r e
  have := ho.val.ltL e'
  exact mem_nb.mp ((hr.mem r this.2 l).mpr ⟨this.1, ho.edge l r e'⟩)

/-! ## A phase -/

/-- The number of matched right vertices. -/
def cnt (m : Nat) (toL : Array (Option Nat)) : Nat := ((range m).filter fun r => at' none toL r ≠ none).card

theorem cnt_le (m : Nat) (toL : Array (Option Nat)) : cnt m toL ≤ m := le_trans (card_filter_le _ _) (le_of_eq (card_range m))

theorem total_eq (h : Array (Array Nat)) : total h = ∑ r ∈ range h.size, rsize h r := by
  have key : ∀ (L : List (Array Nat)) (s : Nat), L.foldl (fun s r => s + r.size) s = s + ∑ r ∈ range L.length, (L.getD r #[]).size := by
    intro L
    induction L with
    | nil =>
      intro s
      simp
    | cons a L ih =>
      intro s
      rw [List.foldl_cons, ih, List.length_cons, sum_range_succ']
      simp only [List.getD_cons_succ, List.getD_cons_zero]
      omega
  unfold total
  rw [← Array.foldl_toList, key, Nat.zero_add, Array.length_toList]
  refine sum_congr rfl fun r hr => ?_
  unfold rsize at'
  rw [List.getD_eq_getElem?_getD, Array.getElem?_toList]

theorem left_le (n m : Nat) {h : Array (Array Nat)} (hh : h.size = m) (t : DSt) : left n m h t ≤ total h := by
  rw [total_eq, hh]
  unfold left
  exact sum_le_sum fun r _ => Nat.sub_le _ _

theorem Dead.weaken {n m : Nat} {h : Array (Array Nat)} {Lv : Nat → Int} {t : DSt} {a b : Int} (hd : Dead n m h Lv t a) (hab : b ≤ a) : Dead n m h Lv t b :=
  ⟨hd.kl, hd.kr, hd.kd, fun l hl hq => hd.q l hl (by omega)⟩

/-- The state between two searches of a phase that began with the matching of `o` and the levels `lev`. -/
structure PInv (o : Obj) (h : Array (Array Nat)) (lev : Array Int) (f : Nat) (j : Nat) (s : Nat × DSt) : Prop where
  gen : Gen o.n o.m h s.2
  val : Valid o.n o.m s.2.toR s.2.toL
  edges : Edges h s.2.toL
  le : f ≤ s.1
  num : cnt o.m s.2.toL + f = cnt o.m o.toL + s.1
  same : s.1 = f → s.2.toR = o.toR ∧ s.2.toL = o.toL ∧ Dead o.n o.m h (fun x => at' (-1) lev x) s.2 ((o.n : Int) + o.m) ∧
    ∀ j', j' < j → at' none o.toL j' = none → 0 ≤ at' (-1) lev (o.n + j') → at' (-1) s.2.level (o.n + j') = (o.n : Int) + o.m

theorem phase_step {o : Obj} {h : Array (Array Nat)} {lev : Array Int} {f j : Nat} {s : Nat × DSt} (ho : OK o) (hr : Rev o h) (hl : Levels o lev) (hj : j < o.m)
    (hs : PInv o h lev f j s) (hfree : at' none s.2.toL j = none) :
    Tot (dfs o.n o.m h j s.2) (fun res => PInv o h lev f (j + 1) (if res.1 then s.1 + 1 else s.1, res.2)) := by
  have hlt := fun x hx => hl.lt ho x hx
  unfold dfs
  rw [rd_at (-1) (by rw [hs.gen.lsz]; omega), ok_bind]
  split_ifs with hneg
  · refine tot_ok.mpr ?_
    dsimp only
    rw [if_neg (by simp)]
    refine ⟨hs.gen, hs.val, hs.edges, hs.le, hs.num, ?_⟩
    intro e
    obtain ⟨a, b, c, d⟩ := hs.same e
    refine ⟨a, b, c, ?_⟩
    intro j' hj' hf hlab
    by_cases hjj : j' = j
    · exfalso
      rw [hjj] at hlab
      rcases c.kr j hj with e | ⟨e, -⟩
      · omega
      · omega
    · exact d j' (by omega) hf hlab
  · obtain ⟨lv, hlv⟩ : ∃ lv, lv = at' (-1) s.2.level (o.n + j) := ⟨_, rfl⟩
    rw [← hlv] at hneg ⊢
    have hb : lv ≤ (o.n : Int) + o.m := by rw [hlv]; exact hs.gen.bd _ (by omega)
    refine (go_tot hr.rows (fun x => at' (-1) lev x) hlt _ j lv s.2 hj hs.gen hs.val hs.edges hlv.symm (by omega) ?_).mono ?_
    · have := left_le o.n o.m hr.hsz s.2
      omega
    · rintro ⟨b, t⟩ hp
      have hg := hp.gen
      cases b with
      | true =>
        dsimp only at hg ⊢
        rw [if_pos rfl]
        obtain ⟨s1, s2, s3, s4, s5, s6⟩ := hp.succ rfl
        dsimp only at s1 s2 s3 s4 s5 s6
        have hle := hs.le
        refine ⟨hg, ⟨hg.rsz, hg.tsz, ?_, s1⟩, s6, by dsimp only; omega, ?_, ?_⟩
        · intro l r e
          rcases s2 l r e with e' | ⟨-, e'⟩
          · exact e'
          · rw [hfree] at e'
            cases e'
        · have hc : cnt o.m t.toL = cnt o.m s.2.toL + 1 := by
            unfold cnt
            have : (range o.m).filter (fun r => at' none t.toL r ≠ none) = insert j ((range o.m).filter fun r => at' none s.2.toL r ≠ none) := by
              ext r
              rw [mem_insert, mem_filter, mem_filter, mem_range]
              by_cases hrj : r = j
              · rw [hrj]
                exact ⟨fun _ => Or.inl rfl, fun _ => ⟨hj, s4⟩⟩
              · constructor
                · rintro ⟨a, b⟩
                  exact Or.inr ⟨a, fun e => b ((s3 r hrj).mpr e)⟩
                · rintro (a | ⟨a, b⟩)
                  · exact absurd a hrj
                  · exact ⟨a, fun e => b ((s3 r hrj).mp e)⟩
            rw [this, card_insert_of_notMem]
            rw [mem_filter]
            rintro ⟨-, e⟩
            exact e hfree
          have := hs.num
          dsimp only
          omega
        · intro e
          dsimp only at e
          omega
      | false =>
        dsimp only at hg ⊢
        rw [if_neg (by simp)]
        obtain ⟨f1, f2, f3⟩ := hp.fail rfl
        have ffl := hp.frame.fl
        have ffr := hp.frame.fr
        dsimp only at f1 f2 f3 ffl ffr
        refine ⟨hg, by dsimp only; rw [f1, f2]; exact hs.val, by dsimp only; rw [f2]; exact hs.edges, hs.le, by dsimp only; rw [f2]; exact hs.num, ?_⟩
        intro e
        dsimp only at e ⊢
        obtain ⟨a, b, c, d⟩ := hs.same e
        have hlast : lv = at' (-1) lev (o.n + j) ∨ at' 0 s.2.iter (o.n + j) = rsize h j := by
          rcases c.kr j hj with e | ⟨-, e⟩
          · left
            rw [hlv]
            exact e
          · exact Or.inr e
        obtain ⟨k1, k2⟩ := f3 (c.weaken hb) hlast
        refine ⟨f1.trans a, f2.trans b, ⟨k1.kl, k1.kr, k1.kd, ?_⟩, ?_⟩
        · intro l hl' hq
          by_cases hlo : at' (-1) t.level l < lv
          · exact k1.q l hl' hlo
          · have e1 : at' (-1) t.level l = at' (-1) lev l := by
              rcases k1.kl l hl' with ⟨e, -⟩ | ⟨-, e, -⟩
              · exact e
              · omega
            have e2 : at' (-1) s.2.level l = at' (-1) lev l ∨ at' (-1) s.2.level l = (o.n : Int) + o.m := by
              rcases c.kl l hl' with ⟨e, -⟩ | ⟨-, e, -⟩
              · exact Or.inl e
              · exact Or.inr e
            obtain ⟨g1, g2, -⟩ := ffl l hl' (by rcases e2 with e2 | e2 <;> omega)
            rw [g2]
            exact c.q l hl' (by omega)
        · intro j' hj' hf hlab
          by_cases hjj : j' = j
          · rw [hjj]
            exact k2
          · have hd := d j' (by omega) hf hlab
            rw [← hd]
            exact (ffr j' (by omega) hjj (by omega)).1

/-- A vertex that the search can reach is not given up as long as there is a free vertex. -/
theorem dead_false {o : Obj} {h : Array (Array Nat)} {lev : Array Int} {t : DSt} {q : Int} (ho : OK o) (hr : Rev o h) (hl : Levels o lev) (hR : t.toR = o.toR) (hL : t.toL = o.toL)
    (hd : Dead o.n o.m h (fun x => at' (-1) lev x) t q) : ∀ (v : Nat) (r : Nat), r < o.m → at' (-1) lev (o.n + r) = (v : Int) → at' (-1) t.level (o.n + r) = (o.n : Int) + o.m → False := by
  intro v
  induction v using Nat.strong_induction_on with
  | _ v ih =>
    intro r hrm hv hdead
    have hlt := hl.lt ho (o.n + r) (by omega)
    have hit : at' 0 t.iter (o.n + r) = rsize h r := by
      rcases hd.kr r hrm with e | ⟨-, e⟩
      · omega
      · exact e
    obtain ⟨l, h1, h2, h3, h4, h5⟩ := hl.right r hrm (by omega)
    obtain ⟨i, hi, he⟩ := mem_nb.mp ((hr.mem r hrm l).mpr ⟨h1, h2⟩)
    have hk := hd.kd r hrm i (by rw [hit]; exact hi) (by rw [he]; omega) (by
      rw [he, hL]
      intro e
      exact h3 (ho.val.lr l r e))
    rw [he] at hk
    rcases hd.kl l h1 with ⟨-, e⟩ | ⟨-, -, nr, e1, e2⟩
    · omega
    · rw [hR] at e1
      obtain ⟨a, b⟩ := hl.matchL l nr e1 h4
      have := e2 a (by omega)
      exact ih (at' (-1) lev (o.n + nr)).toNat (by omega) nr (ho.val.ltL e1).2 (by omega) this

theorem phase_tot {o : Obj} {h : Array (Array Nat)} {lev : Array Int} (ho : OK o) (hr : Rev o h) (hl : Levels o lev) (f : Nat)
    (hex : ∃ j, j < o.m ∧ 0 ≤ at' (-1) lev (o.n + j) ∧ at' none o.toL j = none) :
    Tot (phase o.n o.m h f ⟨o.toR, o.toL, lev, Array.replicate (o.n + o.m) 0⟩) (fun s =>
      Gen o.n o.m h s.2 ∧ Valid o.n o.m s.2.toR s.2.toL ∧ Edges h s.2.toL ∧ f < s.1 ∧ cnt o.m s.2.toL + f = cnt o.m o.toL + s.1) := by
  have hz : ∀ x, at' 0 (Array.replicate (o.n + o.m) 0) x = 0 := by
    intro x
    unfold at'
    rw [Array.getElem?_replicate]
    split_ifs <;> rfl
  unfold phase
  refine (Tot.forUp (lo := 0) (hi := o.m) (P := fun j (s : Nat × DSt) => PInv o h lev f j s) (by omega) ?_ ?_).mono ?_
  · refine ⟨⟨ho.val.rsz, ho.val.lsz, hl.lsz, by simp, fun x hx => le_of_lt (hl.lt ho x hx), fun r _ => ?_⟩, ho.val, hr.edges ho, le_refl _, rfl, fun _ => ⟨rfl, rfl, ?_, fun j' hj => absurd hj (by omega)⟩⟩
    · dsimp only
      rw [hz]
      exact Nat.zero_le _
    · refine ⟨fun l _ => Or.inl ⟨rfl, ?_⟩, fun r _ => Or.inl rfl, ?_, fun l _ _ => hz l⟩
      · dsimp only
        rw [hz]
        exact Nat.zero_le _
      · intro r _ i hi
        dsimp only at hi
        rw [hz] at hi
        omega
  · intro j s _ hj hs
    rw [rd_at none (by rw [hs.gen.tsz]; exact hj), ok_bind]
    cases hc : at' none s.2.toL j with
    | some x =>
      dsimp only
      refine tot_ok.mpr ⟨hs.gen, hs.val, hs.edges, hs.le, hs.num, ?_⟩
      intro e
      obtain ⟨a, b, c, d⟩ := hs.same e
      refine ⟨a, b, c, ?_⟩
      intro j' hj' hf hlab
      by_cases hjj : j' = j
      · rw [b, ← hjj, hf] at hc
        cases hc
      · exact d j' (by omega) hf hlab
    | none =>
      dsimp only
      refine (phase_step ho hr hl hj hs hc).bind ?_
      intro res hp
      exact tot_ok.mpr hp
  · intro s hs
    refine ⟨hs.gen, hs.val, hs.edges, ?_, hs.num⟩
    by_contra hc
    have hle := hs.le
    obtain ⟨a, b, c, d⟩ := hs.same (by omega)
    obtain ⟨j, h1, h2, h3⟩ := hex
    exact dead_false ho hr hl a b c (at' (-1) lev (o.n + j)).toNat j h1 (by omega) (d j h1 h3 h2)

/-- The matching of the object cannot be extended. -/
def Final (o : Obj) : Prop := ∃ lev, Levels o lev ∧ ∀ j, j < o.m → 0 ≤ at' (-1) lev (o.n + j) → at' none o.toL j ≠ none

/-- `Final` does not depend on `_f`. -/
theorem Final.congr {o o' : Obj} (hf : Final o) (h1 : o'.n = o.n) (h2 : o'.m = o.m) (h3 : o'.toR = o.toR) (h4 : o'.toL = o.toL) (h5 : o'.g = o.g) : Final o' := by
  obtain ⟨lev, hl, hn⟩ := hf
  refine ⟨lev, ⟨?_, ?_, ?_, ?_, ?_, ?_⟩, ?_⟩
  · rw [h1, h2]; exact hl.lsz
  · rw [h1, h3]; exact hl.free
  · rw [h1, h3]; exact hl.matchL
  · rw [h1, h2, h3, h5]; exact hl.right
  · rw [h1, h2, h4]; exact hl.mate
  · rw [h1, h3, h5]; exact hl.done
  · rw [h1, h2, h4]; exact hn

theorem OK.congr {o o' : Obj} (hf : OK o) (h1 : o'.n = o.n) (h2 : o'.m = o.m) (h3 : o'.toR = o.toR) (h4 : o'.toL = o.toL) (h5 : o'.g = o.g) : OK o' :=
  ⟨by rw [h1, h2, h3, h4]; exact hf.val, by rw [h1, h2, h5]; exact hf.gsz, by rw [h1, h2, h5]; exact hf.nbr, by rw [h3, h5]; exact hf.edge⟩

theorem solve_tot {o : Obj} (ho : OK o) (hf : o.f = none) :
    Tot o.solve (fun r => OK r.1 ∧ Final r.1 ∧ r.1.n = o.n ∧ r.1.m = o.m ∧ r.1.g = o.g ∧ r.1.f = some r.2 ∧ cnt o.m r.1.toL = cnt o.m o.toL + r.2) := by
  unfold Obj.solve
  rw [hf]
  dsimp only
  refine (reversed_tot ho).bind ?_
  rintro h ⟨h1, h2⟩
  refine (Tot.loop (P := fun s : Obj × Nat × Array Int => OK s.1 ∧ s.1.n = o.n ∧ s.1.m = o.m ∧ s.1.g = o.g ∧ s.2.2.size = o.n + o.m ∧ cnt o.m s.1.toL = cnt o.m o.toL + s.2.1)
    (Q := fun s : Obj × Nat × Array Int => OK s.1 ∧ Final s.1 ∧ s.1.n = o.n ∧ s.1.m = o.m ∧ s.1.g = o.g ∧ cnt o.m s.1.toL = cnt o.m o.toL + s.2.1)
    (μ := fun s => o.m - cnt o.m s.1.toL) ?_ (s := (o, 0, Array.replicate (o.n + o.m) 0)) ⟨ho, rfl, rfl, rfl, by simp, rfl⟩ (Nat.sub_le _ _)).bind ?_
  · rintro ⟨o1, f, lev0⟩ ⟨k1, k2, k3, k4, k5, k6⟩
    dsimp only at k1 k2 k3 k4 k5 k6
    have hrev : Rev o1 h := ⟨by rw [k3]; exact h1, by rw [k2, k3, k4]; exact h2⟩
    unfold solveStep
    refine (bfs_tot k1 (lev := lev0) (by rw [k2, k3]; exact k5)).bind ?_
    rintro ⟨lev, b⟩ ⟨hl, hb⟩
    dsimp only at hl hb ⊢
    cases b with
    | true =>
      rw [if_pos rfl]
      refine (phase_tot k1 hrev hl f (hb.mp rfl)).bind ?_
      rintro ⟨f', t⟩ ⟨p1, p2, p3, p4, p5⟩
      dsimp only at p1 p2 p3 p4 p5
      refine tot_ok.mpr ?_
      dsimp only
      rw [k3] at p5
      have hcl := cnt_le o.m t.toL
      refine ⟨⟨⟨p2, k1.gsz, k1.nbr, ?_⟩, k2, k3, k4, by rw [p1.lsz, k2, k3], by omega⟩, by omega⟩
      intro l r e
      obtain ⟨a, b⟩ := p2.ltL e
      exact ((hrev.mem r b l).mp (mem_nb.mpr (p3 l r (p2.rl l r e)))).2
    | false =>
      rw [if_neg (by simp)]
      refine tot_ok.mpr ⟨k1, ⟨lev, hl, ?_⟩, k2, k3, k4, k6⟩
      intro j hj hlab e
      have := hb.mpr ⟨j, hj, hlab, e⟩
      cases this
  · rintro ⟨o1, f, lev0⟩ ⟨k1, k2, k3, k4, k5, k6⟩
    dsimp only at k1 k2 k3 k4 k5 k6 ⊢
    refine tot_ok.mpr ⟨k1.congr rfl rfl rfl rfl rfl, k2.congr rfl rfl rfl rfl rfl, k3, k4, k5, rfl, k6⟩

end BipartiteMatching
