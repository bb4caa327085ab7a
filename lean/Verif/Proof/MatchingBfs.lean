import Verif.Model.BipartiteMatching
import Verif.Spec.BipartiteMatching
import Mathlib.Data.Finset.Card
import Mathlib.Tactic.Linarith

namespace BipartiteMatching
open Cxx Finset

/-- The two arrays describe the same pairs. -/
structure Valid (n m : Nat) (toR toL : Array (Option Nat)) : Prop where
  rsz : toR.size = n
  lsz : toL.size = m
  rl : ∀ l r, at' none toR l = some r → at' none toL r = some l
  lr : ∀ l r, at' none toL r = some l → at' none toR l = some r

theorem lt_of_some {a : Array (Option Nat)} {i x : Nat} (h : at' none a i = some x) : i < a.size := by
  by_contra hc
  rw [at_ge none (by omega)] at h
  cases h

theorem Valid.ltL {n m : Nat} {toR toL : Array (Option Nat)} (h : Valid n m toR toL) {l r : Nat} (e : at' none toR l = some r) : l < n ∧ r < m := by
  have h1 := lt_of_some e
  have h2 := lt_of_some (h.rl l r e)
  rw [h.rsz] at h1
  rw [h.lsz] at h2
  exact ⟨h1, h2⟩

/-- The neighbours. -/
def nb (g : Array (Array Nat)) (l : Nat) : List Nat := (at' #[] g l).toList

/-- The object holds a matching of its graph. -/
structure OK (o : Obj) : Prop where
  val : Valid o.n o.m o.toR o.toL
  gsz : o.g.size = o.n + o.m
  nbr : ∀ l, l < o.n → ∀ r ∈ nb o.g l, r < o.m
  edge : ∀ l r, at' none o.toR l = some r → r ∈ nb o.g l

/-- The search so far; `cur` is the vertex whose neighbours are being scanned and `pre` the part of the list already scanned. -/
structure BInv (o : Obj) (cur : Nat) (pre : List Nat) (t : BSt) : Prop where
  lsz : t.level.size = o.n + o.m
  free : ∀ l, l < o.n → at' none o.toR l = none → at' (-1) t.level l = 0
  matchL : ∀ l r, at' none o.toR l = some r → 0 ≤ at' (-1) t.level l → 0 ≤ at' (-1) t.level (o.n + r) ∧ at' (-1) t.level l = at' (-1) t.level (o.n + r) + 1
  right : ∀ r, r < o.m → 0 ≤ at' (-1) t.level (o.n + r) → ∃ l, l < o.n ∧ r ∈ nb o.g l ∧ at' none o.toR l ≠ some r ∧ 0 ≤ at' (-1) t.level l ∧ at' (-1) t.level (o.n + r) = at' (-1) t.level l + 1
  mate : ∀ r, r < o.m → 0 ≤ at' (-1) t.level (o.n + r) → ∀ l, at' none o.toL r = some l → 0 ≤ at' (-1) t.level l
  okk : t.ok = true ↔ ∃ r, r < o.m ∧ 0 ≤ at' (-1) t.level (o.n + r) ∧ at' none o.toL r = none
  done : ∀ l, l < o.n → 0 ≤ at' (-1) t.level l → l ∉ t.que → ∀ r ∈ nb o.g l, at' none o.toR l ≠ some r → (l = cur → r ∈ pre) → 0 ≤ at' (-1) t.level (o.n + r)
  queL : ∀ l ∈ t.que, l < o.n ∧ 0 ≤ at' (-1) t.level l

/-- The left vertices without a level. -/
def unl (n : Nat) (level : Array Int) : Nat := ((range n).filter fun l => at' (-1) level l < 0).card

theorem scan_tot {o : Obj} (ho : OK o) {cur r : Nat} {pre : List Nat} {t : BSt} (h : BInv o cur pre t) (hc : cur < o.n) (hcl : 0 ≤ at' (-1) t.level cur) (hr : r ∈ nb o.g cur) :
    Tot (o.scan cur t r) (fun t' => BInv o cur (pre ++ [r]) t' ∧ 0 ≤ at' (-1) t'.level cur ∧ t'.que.length + unl o.n t'.level = t.que.length + unl o.n t.level) := by
  have hrm := ho.nbr cur hc r hr
  have hv := ho.val
  unfold Obj.scan
  rw [rd_at none (by rw [hv.rsz]; exact hc), ok_bind]
  -- nothing changes
  have skip : (at' none o.toR cur = some r ∨ 0 ≤ at' (-1) t.level (o.n + r)) → BInv o cur (pre ++ [r]) t := by
    intro hs
    refine ⟨h.lsz, h.free, h.matchL, h.right, h.mate, h.okk, ?_, h.queL⟩
    intro l hl hll hq r' hr' hne hp
    by_cases hlc : l = cur
    · have hp' := hp hlc
      rw [List.mem_append, List.mem_singleton] at hp'
      rcases hp' with hp' | hp'
      · exact h.done l hl hll hq r' hr' hne fun _ => hp'
      · rw [hp'] at hne ⊢
        rcases hs with hs | hs
        · rw [hlc] at hne
          exact absurd hs hne
        · exact hs
    · exact h.done l hl hll hq r' hr' hne fun hc => absurd hc hlc
  by_cases hm : at' none o.toR cur = some r
  · rw [if_pos hm]
    exact tot_ok.mpr ⟨skip (Or.inl hm), hcl, rfl⟩
  rw [if_neg hm]
  have hri : o.n + r < t.level.size := by rw [h.lsz]; omega
  rw [rd_at (-1) hri, ok_bind]
  by_cases hlr : at' (-1) t.level (o.n + r) < 0
  · rw [if_pos hlr, rd_at none (by rw [hv.lsz]; exact hrm), ok_bind, rd_at (-1) (by rw [h.lsz]; omega), ok_bind, wr_eq hri, ok_bind]
    obtain ⟨c, hcdef⟩ : ∃ c, c = at' (-1) t.level cur := ⟨_, rfl⟩
    rw [← hcdef] at hcl ⊢
    obtain ⟨lev, hlev⟩ : ∃ lev, lev = t.level.setIfInBounds (o.n + r) (c + 1) := ⟨_, rfl⟩
    rw [← hlev]
    have hl1 : ∀ x, at' (-1) lev x = if o.n + r = x then c + 1 else at' (-1) t.level x := fun x => by rw [hlev]; exact at_set (-1) hri _ x
    have hsz1 : lev.size = o.n + o.m := by rw [hlev]; simp [h.lsz]
    have hleft : ∀ l, l < o.n → at' (-1) lev l = at' (-1) t.level l := fun l hl => by rw [hl1, if_neg (by omega)]
    have hunl : unl o.n lev = unl o.n t.level := by
      unfold unl
      congr 1
      refine filter_congr fun l hl => ?_
      rw [hleft l (mem_range.mp hl)]
    have hup : ∀ x, 0 ≤ at' (-1) t.level x → 0 ≤ at' (-1) lev x := by
      intro x hx
      rw [hl1]
      split_ifs <;> omega
    cases htl : at' none o.toL r with
    | none =>
      dsimp only
      refine tot_ok.mpr ⟨⟨hsz1, ?_, ?_, ?_, ?_, ?_, ?_, ?_⟩, ?_, ?_⟩
      · intro l hl hf
        dsimp only
        rw [hleft l hl]
        exact h.free l hl hf
      · intro l r' hlr' h0
        dsimp only at h0 ⊢
        have hlt := hv.ltL hlr'
        rw [hleft l hlt.1] at h0 ⊢
        have hne : r' ≠ r := by
          rintro rfl
          rw [hv.rl l r' hlr'] at htl
          cases htl
        rw [hl1, if_neg (by omega)]
        exact h.matchL l r' hlr' h0
      · intro r' hr' h0
        dsimp only at h0 ⊢
        by_cases hrr : r' = r
        · refine ⟨cur, hc, by rw [hrr]; exact hr, by rw [hrr]; exact hm, by rw [hleft cur hc, ← hcdef]; exact hcl, ?_⟩
          rw [hl1, if_pos (by rw [hrr]), hleft cur hc, hcdef]
        · rw [hl1, if_neg (by omega)] at h0 ⊢
          obtain ⟨l, l1, l2, l3, l4, l5⟩ := h.right r' hr' h0
          exact ⟨l, l1, l2, l3, by rw [hleft l l1]; exact l4, by rw [hleft l l1]; exact l5⟩
      · intro r' hr' h0 l hl
        dsimp only at h0 ⊢
        have hne : r' ≠ r := by
          rintro rfl
          rw [hl] at htl
          cases htl
        rw [hl1, if_neg (by omega)] at h0
        exact hup l (h.mate r' hr' h0 l hl)
      · dsimp only
        refine ⟨fun _ => ⟨r, hrm, ?_, htl⟩, fun _ => rfl⟩
        rw [hl1, if_pos rfl]
        omega
      · intro l hl hll hq r' hr' hne hp
        dsimp only at hll hq ⊢
        rw [hleft l hl] at hll
        by_cases hrr : r' = r
        · rw [hrr, hl1, if_pos rfl]
          omega
        · refine hup _ (h.done l hl hll hq r' hr' hne fun hlc => ?_)
          have := hp hlc
          rw [List.mem_append, List.mem_singleton] at this
          exact this.resolve_right hrr
      · intro l hl
        have := h.queL l hl
        exact ⟨this.1, hup l this.2⟩
      · dsimp only
        rw [hleft cur hc, ← hcdef]
        exact hcl
      · dsimp only
        rw [hunl]
    | some x =>
      have hxR := hv.lr x r htl
      have hxn := (hv.ltL hxR).1
      dsimp only
      rw [rd_at (-1) (by rw [hsz1]; omega), ok_bind]
      have hx0 : at' (-1) t.level x < 0 := by
        by_contra hx
        have := (h.matchL x r hxR (by omega)).1
        omega
      rw [if_pos (by rw [hleft x hxn]; exact hx0), wr_eq (by rw [hsz1]; omega), ok_bind]
      have hxi : x < lev.size := by rw [hsz1]; omega
      obtain ⟨lev2, hlev2⟩ : ∃ lev2, lev2 = lev.setIfInBounds x (c + 2) := ⟨_, rfl⟩
      rw [← hlev2]
      have hl2 : ∀ y, at' (-1) lev2 y = if x = y then c + 2 else at' (-1) lev y := fun y => by rw [hlev2]; exact at_set (-1) hxi _ y
      have hsz2 : lev2.size = o.n + o.m := by rw [hlev2]; simp [hsz1]
      have hcx : cur ≠ x := by
        rintro rfl
        omega
      have hleft2 : ∀ l, l < o.n → l ≠ x → at' (-1) lev2 l = at' (-1) t.level l := fun l hl hlx => by rw [hl2, if_neg (Ne.symm hlx), hleft l hl]
      have hright2 : ∀ r', r' ≠ r → at' (-1) lev2 (o.n + r') = at' (-1) t.level (o.n + r') := fun r' hr' => by
        rw [hl2, if_neg (by omega), hl1, if_neg (by omega)]
      have hr2 : at' (-1) lev2 (o.n + r) = c + 1 := by rw [hl2, if_neg (by omega), hl1, if_pos rfl]
      have hx2 : at' (-1) lev2 x = c + 2 := by rw [hl2, if_pos rfl]
      have hc2 : at' (-1) lev2 cur = c := by rw [hleft2 cur hc hcx, hcdef]
      have hup2 : ∀ y, 0 ≤ at' (-1) t.level y → 0 ≤ at' (-1) lev2 y := by
        intro y hy
        rw [hl2]
        split_ifs
        · omega
        · exact hup y hy
      refine tot_ok.mpr ⟨⟨hsz2, ?_, ?_, ?_, ?_, ?_, ?_, ?_⟩, ?_, ?_⟩
      · intro l hl hf
        dsimp only
        have hlx : l ≠ x := by
          rintro rfl
          rw [hxR] at hf
          cases hf
        rw [hleft2 l hl hlx]
        exact h.free l hl hf
      · intro l r' hlr' h0
        dsimp only at h0 ⊢
        have hlt := hv.ltL hlr'
        by_cases hlx : l = x
        · have : r' = r := by
            rw [hlx, hxR] at hlr'
            exact (Option.some.inj hlr').symm
          rw [this, hlx, hr2, hx2]
          omega
        · rw [hleft2 l hlt.1 hlx] at h0 ⊢
          have hne : r' ≠ r := by
            rintro rfl
            have := hv.rl l r' hlr'
            rw [htl] at this
            exact hlx (Option.some.inj this).symm
          rw [hright2 r' hne]
          exact h.matchL l r' hlr' h0
      · intro r' hr' h0
        dsimp only at h0 ⊢
        by_cases hrr : r' = r
        · refine ⟨cur, hc, by rw [hrr]; exact hr, by rw [hrr]; exact hm, by rw [hc2]; exact hcl, ?_⟩
          rw [hrr, hr2, hc2]
        · rw [hright2 r' hrr] at h0 ⊢
          obtain ⟨l, l1, l2, l3, l4, l5⟩ := h.right r' hr' h0
          have hlx : l ≠ x := by
            rintro rfl
            omega
          exact ⟨l, l1, l2, l3, by rw [hleft2 l l1 hlx]; exact l4, by rw [hleft2 l l1 hlx]; exact l5⟩
      · intro r' hr' h0 l hl
        dsimp only at h0 ⊢
        by_cases hrr : r' = r
        · rw [hrr, htl] at hl
          rw [← Option.some.inj hl, hx2]
          omega
        · rw [hright2 r' hrr] at h0
          exact hup2 l (h.mate r' hr' h0 l hl)
      · dsimp only
        rw [h.okk]
        constructor
        · rintro ⟨r', r1, r2, r3⟩
          exact ⟨r', r1, hup2 _ r2, r3⟩
        · rintro ⟨r', r1, r2, r3⟩
          have hrr : r' ≠ r := by
            rintro rfl
            rw [htl] at r3
            cases r3
          rw [hright2 r' hrr] at r2
          exact ⟨r', r1, r2, r3⟩
      · intro l hl hll hq r' hr' hne hp
        dsimp only at hll hq ⊢
        rw [List.mem_append, List.mem_singleton, not_or] at hq
        rw [hleft2 l hl hq.2] at hll
        by_cases hrr : r' = r
        · rw [hrr, hr2]
          omega
        · refine hup2 _ (h.done l hl hll hq.1 r' hr' hne fun hlc => ?_)
          have := hp hlc
          rw [List.mem_append, List.mem_singleton] at this
          exact this.resolve_right hrr
      · intro l hl
        dsimp only at hl ⊢
        rw [List.mem_append, List.mem_singleton] at hl
        rcases hl with hl | hl
        · have := h.queL l hl
          exact ⟨this.1, hup2 l this.2⟩
        · rw [hl, hx2]
          exact ⟨hxn, by omega⟩
      · dsimp only
        rw [hc2]
        exact hcl
      · dsimp only
        rw [List.length_append, List.length_singleton]
        have : unl o.n t.level = unl o.n lev2 + 1 := by
          unfold unl
          have e : ((range o.n).filter fun l => at' (-1) t.level l < 0) = insert x ((range o.n).filter fun l => at' (-1) lev2 l < 0) := by
            ext l
            rw [mem_insert, mem_filter, mem_filter, mem_range]
            by_cases hlx : l = x
            · rw [hlx]
              simp [hxn, hx0]
            · constructor
              · rintro ⟨h1, h2⟩
                exact Or.inr ⟨h1, by rw [hleft2 l h1 hlx]; exact h2⟩
              · rintro (h1 | ⟨h1, h2⟩)
                · exact absurd h1 hlx
                · exact ⟨h1, by rw [hleft2 l h1 hlx] at h2; exact h2⟩
          rw [e, card_insert_of_notMem]
          rw [mem_filter, hx2]
          rintro ⟨-, h2⟩
          omega
        omega
  · rw [if_neg hlr]
    exact tot_ok.mpr ⟨skip (Or.inr (by omega)), hcl, rfl⟩

/-- The levels when the search is finished. -/
structure Levels (o : Obj) (lev : Array Int) : Prop where
  lsz : lev.size = o.n + o.m
  free : ∀ l, l < o.n → at' none o.toR l = none → at' (-1) lev l = 0
  matchL : ∀ l r, at' none o.toR l = some r → 0 ≤ at' (-1) lev l → 0 ≤ at' (-1) lev (o.n + r) ∧ at' (-1) lev l = at' (-1) lev (o.n + r) + 1
  right : ∀ r, r < o.m → 0 ≤ at' (-1) lev (o.n + r) → ∃ l, l < o.n ∧ r ∈ nb o.g l ∧ at' none o.toR l ≠ some r ∧ 0 ≤ at' (-1) lev l ∧ at' (-1) lev (o.n + r) = at' (-1) lev l + 1
  mate : ∀ r, r < o.m → 0 ≤ at' (-1) lev (o.n + r) → ∀ l, at' none o.toL r = some l → 0 ≤ at' (-1) lev l
  done : ∀ l, l < o.n → 0 ≤ at' (-1) lev l → ∀ r ∈ nb o.g l, at' none o.toR l ≠ some r → 0 ≤ at' (-1) lev (o.n + r)

theorem bfsInit_tot {o : Obj} (ho : OK o) {lev : Array Int} (hl : lev.size = o.n + o.m) :
    Tot (o.bfsInit lev) (fun t => t.level.size = o.n + o.m ∧ t.ok = false ∧ (∀ l, l < o.n → at' (-1) t.level l = if at' none o.toR l = none then 0 else -1) ∧
      (∀ l, l ∈ t.que ↔ l < o.n ∧ at' none o.toR l = none) ∧ t.que.Nodup) := by
  unfold Obj.bfsInit
  refine Tot.forUp (lo := 0) (hi := o.n) (P := fun i (t : BSt) => t.level.size = o.n + o.m ∧ t.ok = false ∧ (∀ l, l < i → at' (-1) t.level l = if at' none o.toR l = none then 0 else -1) ∧
      (∀ l, l ∈ t.que ↔ l < i ∧ at' none o.toR l = none) ∧ t.que.Nodup) (by omega) ⟨hl, rfl, fun l h => (by omega), fun l => (by simp), by simp⟩ ?_
  rintro i t _ hi ⟨h1, h2, h3, h4, h5⟩
  rw [rd_at none (by rw [ho.val.rsz]; exact hi), ok_bind]
  have hi' : i < t.level.size := by rw [h1]; omega
  cases hr : at' none o.toR i with
  | none =>
    dsimp only
    rw [wr_eq hi', ok_bind]
    refine tot_ok.mpr ⟨by simp [h1], h2, ?_, ?_, ?_⟩
    · intro l hl
      dsimp only
      rw [at_set (-1) hi']
      split_ifs with e1 e2 e2
      · rfl
      · rw [← e1, hr] at e2
        exact absurd rfl e2
      · rw [h3 l (by omega), if_pos e2]
      · rw [h3 l (by omega), if_neg e2]
    · intro l
      dsimp only
      rw [List.mem_append, List.mem_singleton, h4]
      constructor
      · rintro (⟨a, b⟩ | rfl)
        · exact ⟨by omega, b⟩
        · exact ⟨by omega, hr⟩
      · rintro ⟨a, b⟩
        by_cases hli : l = i
        · exact Or.inr hli
        · exact Or.inl ⟨by omega, b⟩
    · dsimp only
      rw [List.nodup_append]
      refine ⟨h5, by simp, ?_⟩
      intro a ha b hb hab
      have := ((h4 a).mp ha).1
      have hb' : b = i := by simpa using hb
      omega
  | some r =>
    dsimp only
    rw [wr_eq hi', ok_bind]
    refine tot_ok.mpr ⟨by simp [h1], h2, ?_, ?_, h5⟩
    · intro l hl
      dsimp only
      rw [at_set (-1) hi']
      split_ifs with e1 e2 e2
      · rw [← e1, hr] at e2
        cases e2
      · rfl
      · rw [h3 l (by omega), if_pos e2]
      · rw [h3 l (by omega), if_neg e2]
    · intro l
      dsimp only
      rw [h4]
      constructor
      · rintro ⟨a, b⟩
        exact ⟨by omega, b⟩
      · rintro ⟨a, b⟩
        refine ⟨?_, b⟩
        have : l ≠ i := by
          rintro rfl
          rw [hr] at b
          cases b
        omega

theorem bfs_tot {o : Obj} (ho : OK o) {lev : Array Int} (hl : lev.size = o.n + o.m) :
    Tot (o.bfs lev) (fun r => Levels o r.1 ∧ (r.2 = true ↔ ∃ j, j < o.m ∧ 0 ≤ at' (-1) r.1 (o.n + j) ∧ at' none o.toL j = none)) := by
  unfold Obj.bfs
  refine (bfsInit_tot ho hl).bind ?_
  rintro t ⟨h1, h2, h3, h4, h5⟩
  refine (Tot.forUp (lo := o.n) (hi := o.n + o.m) (P := fun i (a : Array Int) => a.size = o.n + o.m ∧ (∀ l, l < o.n → at' (-1) a l = at' (-1) t.level l) ∧ ∀ l, o.n ≤ l → l < i → at' (-1) a l = -1)
    (by omega) ⟨h1, fun _ _ => rfl, fun l a b => (by omega)⟩ ?_).bind ?_
  · rintro i a hi hi2 ⟨a1, a2, a3⟩
    have hia : i < a.size := by rw [a1]; exact hi2
    rw [wr_eq hia]
    refine tot_ok.mpr ⟨by simp [a1], ?_, ?_⟩
    · intro l hl
      rw [at_set (-1) hia, if_neg (by omega)]
      exact a2 l hl
    · intro l hl hl'
      rw [at_set (-1) hia]
      split_ifs with e
      · rfl
      · exact a3 l hl (by omega)
  rintro lev' ⟨a1, a2, a3⟩
  have hrneg : ∀ r, r < o.m → at' (-1) lev' (o.n + r) = -1 := fun r hr => a3 _ (by omega) (by omega)
  have hleft : ∀ l, l < o.n → at' (-1) lev' l = if at' none o.toR l = none then 0 else -1 := fun l hl => by rw [a2 l hl, h3 l hl]
  have hinv0 : BInv o o.n [] { t with level := lev' } := by
    refine ⟨a1, ?_, ?_, ?_, ?_, ?_, ?_, ?_⟩
    · intro l hl hf
      dsimp only
      rw [hleft l hl, if_pos hf]
    · intro l r hlr h0
      dsimp only at h0
      rw [hleft l (ho.val.ltL hlr).1, if_neg (by rw [hlr]; simp)] at h0
      omega
    · intro r hr h0
      dsimp only at h0
      rw [hrneg r hr] at h0
      omega
    · intro r hr h0
      dsimp only at h0
      rw [hrneg r hr] at h0
      omega
    · dsimp only
      rw [h2]
      constructor
      · intro h
        cases h
      · rintro ⟨r, r1, r2, -⟩
        rw [hrneg r r1] at r2
        omega
    · intro l hl h0 hq
      dsimp only at h0 hq
      exfalso
      rw [hleft l hl] at h0
      split_ifs at h0 with hf
      · exact hq ((h4 l).mpr ⟨hl, hf⟩)
      · omega
    · intro l hl
      dsimp only at hl ⊢
      have := (h4 l).mp hl
      rw [hleft l this.1, if_pos this.2]
      exact ⟨this.1, le_refl 0⟩
  refine (Tot.loop (P := fun t => ∃ cur, o.n ≤ cur ∧ BInv o cur [] t) (Q := fun t => t.que = [] ∧ ∃ cur, o.n ≤ cur ∧ BInv o cur [] t) (fun t => t.que.length + unl o.n t.level) ?_ (s := { t with level := lev' })
    ⟨o.n, le_refl _, hinv0⟩ ?_).bind ?_
  · rintro ⟨lv, que, ok⟩ ⟨cur, hcur, hb⟩
    unfold Obj.bfsStep
    cases que with
    | nil => exact tot_ok.mpr ⟨rfl, cur, hcur, hb⟩
    | cons l que =>
      dsimp only
      have hql := hb.queL l (by simp)
      dsimp only at hql
      rw [rd_at #[] (by rw [ho.gsz]; omega), ok_bind]
      have hb' : BInv o l [] ⟨lv, que, ok⟩ := by
        refine ⟨hb.lsz, hb.free, hb.matchL, hb.right, hb.mate, hb.okk, ?_, fun x hx => hb.queL x (by simp [hx])⟩
        intro x hx h0 hq r hr hne hp
        dsimp only at h0 hq
        by_cases hxl : x = l
        · exact absurd (hp hxl) (by simp)
        · exact hb.done x hx h0 (by simp [hxl, hq]) r hr hne fun hc => (by omega)
      refine (Tot.forEach (P := fun pre (t : BSt) => BInv o l pre t ∧ 0 ≤ at' (-1) t.level l ∧ t.que.length + unl o.n t.level = que.length + unl o.n lv) ⟨hb', hql.2, rfl⟩ ?_).bind ?_
      · rintro pre x post t hsp ⟨t1, t2, t3⟩
        have hx : x ∈ nb o.g l := by
          unfold nb
          rw [hsp]
          simp
        refine (scan_tot ho t1 hql.1 t2 hx).mono ?_
        rintro t' ⟨u1, u2, u3⟩
        exact ⟨u1, u2, by omega⟩
      · rintro t ⟨t1, t2, t3⟩
        refine tot_ok.mpr ⟨⟨o.n, le_refl _, ⟨t1.lsz, t1.free, t1.matchL, t1.right, t1.mate, t1.okk, ?_, t1.queL⟩⟩, ?_⟩
        · intro x hx h0 hq r hr hne hp
          refine t1.done x hx h0 hq r hr hne ?_
          rintro rfl
          exact hr
        · rw [List.length_cons]
          omega
  · dsimp only
    have e1 : t.que.length = ((range o.n).filter fun l => at' none o.toR l = none).card := by
      rw [← List.toFinset_card_of_nodup h5]
      congr 1
      ext l
      rw [List.mem_toFinset, h4, mem_filter, mem_range]
    have e2 : unl o.n lev' = ((range o.n).filter fun l => ¬ at' none o.toR l = none).card := by
      unfold unl
      congr 1
      refine filter_congr fun l hl => ?_
      rw [hleft l (mem_range.mp hl)]
      split_ifs with hf <;> simp [hf]
    rw [e1, e2, card_filter_add_card_filter_not, card_range]
  · rintro t' ⟨u1, cur, hcur, hb⟩
    refine tot_ok.mpr ⟨⟨hb.lsz, hb.free, hb.matchL, hb.right, hb.mate, ?_⟩, hb.okk⟩
    intro l hl h0 r hr hne
    exact hb.done l hl h0 (by rw [u1]; simp) r hr hne fun hc => (by omega)

/-- Levels are smaller than the number of vertices. -/
theorem Levels.lt {o : Obj} {lev : Array Int} (ho : OK o) (h : Levels o lev) (x : Nat) (hx : x < o.n + o.m) : at' (-1) lev x < (o.n : Int) + o.m := by
  have key : ∀ v : Nat, ∀ x, x < o.n + o.m → at' (-1) lev x = (v : Int) → v + 1 ≤ ((range (o.n + o.m)).filter fun y => 0 ≤ at' (-1) lev y ∧ at' (-1) lev y ≤ (v : Int)).card := by
    intro v
    induction v with
    | zero =>
      intro x hx hv
      refine card_pos.mpr ⟨x, ?_⟩
      rw [mem_filter, mem_range, hv]
      simp [hx]
    | succ v ih =>
      intro x hx hv
      obtain ⟨y, hy, hyv⟩ : ∃ y, y < o.n + o.m ∧ at' (-1) lev y = (v : Int) := by
        by_cases hxn : x < o.n
        · cases hr : at' none o.toR x with
          | none =>
            rw [h.free x hxn hr] at hv
            push_cast at hv
            omega
          | some r =>
            have h1 := (h.matchL x r hr (by rw [hv]; push_cast; omega)).2
            have h2 := (ho.val.ltL hr).2
            refine ⟨o.n + r, by omega, ?_⟩
            rw [hv] at h1
            push_cast at h1
            omega
        · obtain ⟨r, rfl⟩ : ∃ r, x = o.n + r := ⟨x - o.n, by omega⟩
          obtain ⟨l, l1, -, -, -, l5⟩ := h.right r (by omega) (by rw [hv]; push_cast; omega)
          refine ⟨l, by omega, ?_⟩
          rw [hv] at l5
          push_cast at l5
          omega
      have h1 := ih y hy hyv
      have h2 : insert x ((range (o.n + o.m)).filter fun y => 0 ≤ at' (-1) lev y ∧ at' (-1) lev y ≤ (v : Int)) ⊆
          (range (o.n + o.m)).filter fun y => 0 ≤ at' (-1) lev y ∧ at' (-1) lev y ≤ ((v + 1 : Nat) : Int) := by
        intro z hz
        rw [mem_insert] at hz
        rw [mem_filter, mem_range]
        rcases hz with rfl | hz
        · rw [hv]
          push_cast
          exact ⟨hx, by omega, by omega⟩
        · rw [mem_filter, mem_range] at hz
          push_cast
          exact ⟨hz.1, hz.2.1, by omega⟩
      have h3 := card_le_card h2
      rw [card_insert_of_notMem (by
        rw [mem_filter, hv]
        push_cast
        rintro ⟨-, -, h'⟩
        omega)] at h3
      omega
  by_cases h0 : 0 ≤ at' (-1) lev x
  · have h1 := key (at' (-1) lev x).toNat x hx (by omega)
    have h2 := card_filter_le (range (o.n + o.m)) fun y => 0 ≤ at' (-1) lev y ∧ at' (-1) lev y ≤ (((at' (-1) lev x).toNat : Nat) : Int)
    rw [card_range] at h2
    omega
  · omega

end BipartiteMatching
