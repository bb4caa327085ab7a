import Verif.Proof.MatchingBfs
import Mathlib.Algebra.BigOperators.Group.Finset.Basic
import Mathlib.Algebra.Order.BigOperators.Group.Finset

namespace BipartiteMatching
open Cxx Finset

/-- The number of entries of a row. -/
def rsize (h : Array (Array Nat)) (r : Nat) : Nat := (at' #[] h r).size

/-- An entry of a row. -/
def ent (h : Array (Array Nat)) (r i : Nat) : Nat := at' 0 (at' #[] h r) i

section
variable (n m : Nat) (h : Array (Array Nat))

/-- The rows hold left vertices. -/
structure Rows : Prop where
  hsz : h.size = m
  lt : ∀ r i, r < m → i < rsize h r → ent h r i < n

/-- Sizes and bounds. -/
structure Gen (t : DSt) : Prop where
  rsz : t.toR.size = n
  tsz : t.toL.size = m
  lsz : t.level.size = n + m
  isz : t.iter.size = n + m
  bd : ∀ x, x < n + m → at' (-1) t.level x ≤ (n : Int) + m
  ib : ∀ r, r < m → at' 0 t.iter (n + r) ≤ rsize h r

/-- The pairs of a matching are edges. -/
def Edges (toL : Array (Option Nat)) : Prop := ∀ l r, at' none toL r = some l → ∃ i, i < rsize h r ∧ ent h r i = l

/-- The entries that are left. -/
def left (t : DSt) : Nat := ∑ r ∈ range m, (rsize h r - at' 0 t.iter (n + r))

/-- What a search from `r` with level `lv` does not touch. -/
structure Frame (r : Nat) (lv : Int) (t t' : DSt) : Prop where
  fl : ∀ l, l < n → lv ≤ at' (-1) t.level l → at' (-1) t'.level l = at' (-1) t.level l ∧ at' 0 t'.iter l = at' 0 t.iter l ∧ at' none t'.toR l = at' none t.toR l
  fr : ∀ r', r' < m → r' ≠ r → lv ≤ at' (-1) t.level (n + r') →
    at' (-1) t'.level (n + r') = at' (-1) t.level (n + r') ∧ at' 0 t'.iter (n + r') = at' 0 t.iter (n + r') ∧ at' none t'.toL r' = at' none t.toL r'

/-- The vertices that the search has given up, while it has found nothing since the levels were `Lv`. -/
structure Dead (Lv : Nat → Int) (t : DSt) (lv : Int) : Prop where
  kl : ∀ l, l < n → (at' (-1) t.level l = Lv l ∧ at' 0 t.iter l ≤ m) ∨
    (at' 0 t.iter l = m + 1 ∧ at' (-1) t.level l = (n : Int) + m ∧ ∃ nr, at' none t.toR l = some nr ∧ (0 ≤ Lv (n + nr) → Lv (n + nr) < Lv l → at' (-1) t.level (n + nr) = (n : Int) + m))
  kr : ∀ r, r < m → at' (-1) t.level (n + r) = Lv (n + r) ∨ (at' (-1) t.level (n + r) = (n : Int) + m ∧ at' 0 t.iter (n + r) = rsize h r)
  kd : ∀ r, r < m → ∀ i, i < at' 0 t.iter (n + r) → Lv (ent h r i) < Lv (n + r) → at' none t.toL r ≠ some (ent h r i) → at' 0 t.iter (ent h r i) = m + 1
  q : ∀ l, l < n → at' (-1) t.level l < lv → at' 0 t.iter l = 0

/-- The pairs after a successful search from `r`: the former partner of `r` still points to `r`. -/
structure Succ (r : Nat) (t t' : DSt) : Prop where
  lr : ∀ l' r', at' none t'.toL r' = some l' → at' none t'.toR l' = some r'
  rl : ∀ l' r', at' none t'.toR l' = some r' → at' none t'.toL r' = some l' ∨ (r' = r ∧ at' none t.toL r = some l')
  keep : ∀ r', r' ≠ r → (at' none t'.toL r' = none ↔ at' none t.toL r' = none)
  gain : at' none t'.toL r ≠ none
  new : at' none t'.toL r ≠ at' none t.toL r
  edge : Edges h t'.toL

/-- The result of a search from `r`. -/
structure Post (Lv : Nat → Int) (r : Nat) (lv : Int) (t : DSt) (res : Bool × DSt) : Prop where
  gen : Gen n m h res.2
  le : left n m h res.2 ≤ left n m h t
  frame : Frame n m r lv t res.2
  fail : res.1 = false → res.2.toR = t.toR ∧ res.2.toL = t.toL ∧
    (Dead n m h Lv t lv → (lv = Lv (n + r) ∨ at' 0 t.iter (n + r) = rsize h r) → Dead n m h Lv res.2 lv ∧ at' (-1) res.2.level (n + r) = (n : Int) + m)
  succ : res.1 = true → Succ h r t res.2

end

section
variable {n m : Nat} {h : Array (Array Nat)}

theorem bump_eq {t : DSt} {x : Nat} (hx : x < t.iter.size) : t.bump x = .ok { t with iter := t.iter.setIfInBounds x (at' 0 t.iter x + 1) } := by
  unfold DSt.bump
  rw [rd_at 0 hx, ok_bind, wr_eq hx, ok_bind]
  rfl

theorem kill_eq {t : DSt} {l : Nat} (hi : l < t.iter.size) (hl : l < t.level.size) :
    t.kill n m l = .ok { t with iter := t.iter.setIfInBounds l (m + 1), level := t.level.setIfInBounds l ((n : Int) + m) } := by
  unfold DSt.kill
  rw [wr_eq hi, ok_bind, wr_eq hl, ok_bind]
  rfl

theorem pair_eq {t : DSt} {l r : Nat} (hl : l < t.toR.size) (hr : r < t.toL.size) :
    t.pair l r = .ok { t with toR := t.toR.setIfInBounds l (some r), toL := t.toL.setIfInBounds r (some l) } := by
  unfold DSt.pair
  rw [wr_eq hl, ok_bind, wr_eq hr, ok_bind]
  rfl

theorem Frame.refl (r : Nat) (lv : Int) (t : DSt) : Frame n m r lv t t := ⟨fun _ _ _ => ⟨rfl, rfl, rfl⟩, fun _ _ _ _ => ⟨rfl, rfl, rfl⟩⟩

theorem Frame.trans {r : Nat} {lv : Int} {t t1 t2 : DSt} (a : Frame n m r lv t t1) (b : Frame n m r lv t1 t2) : Frame n m r lv t t2 := by
  refine ⟨?_, ?_⟩
  · intro l hl hlv
    obtain ⟨a1, a2, a3⟩ := a.fl l hl hlv
    obtain ⟨b1, b2, b3⟩ := b.fl l hl (by rw [a1]; exact hlv)
    exact ⟨b1.trans a1, b2.trans a2, b3.trans a3⟩
  · intro r' hr hne hlv
    obtain ⟨a1, a2, a3⟩ := a.fr r' hr hne hlv
    obtain ⟨b1, b2, b3⟩ := b.fr r' hr hne (by rw [a1]; exact hlv)
    exact ⟨b1.trans a1, b2.trans a2, b3.trans a3⟩

/-- A search of lower level touches less. -/
theorem Frame.lift {r nr : Nat} {lv lnr : Int} {t t1 : DSt} (a : Frame n m nr lnr t t1) (hlt : lnr < lv) (hnr : at' (-1) t.level (n + nr) = lnr) : Frame n m r lv t t1 := by
  refine ⟨fun l hl hlv => a.fl l hl (by omega), fun r' hr hne hlv => a.fr r' hr ?_ (by omega)⟩
  rintro rfl
  omega

theorem left_congr {t t' : DSt} (e : ∀ r, r < m → at' 0 t'.iter (n + r) = at' 0 t.iter (n + r)) : left n m h t' = left n m h t := by
  unfold left
  refine sum_congr rfl fun r hr => ?_
  rw [e r (mem_range.mp hr)]

theorem left_bump {t t' : DSt} {r : Nat} (hr : r < m) (hlt : at' 0 t.iter (n + r) < rsize h r)
    (e : ∀ r', at' 0 t'.iter (n + r') = if r = r' then at' 0 t.iter (n + r) + 1 else at' 0 t.iter (n + r')) : left n m h t' + 1 = left n m h t := by
  unfold left
  rw [← insert_erase (mem_range.mpr hr), sum_insert (notMem_erase _ _), sum_insert (notMem_erase _ _)]
  have : ∑ x ∈ (range m).erase r, (rsize h x - at' 0 t'.iter (n + x)) = ∑ x ∈ (range m).erase r, (rsize h x - at' 0 t.iter (n + x)) := by
    refine sum_congr rfl fun x hx => ?_
    rw [e x, if_neg (ne_of_mem_erase hx).symm]
  rw [this, e r, if_pos rfl]
  omega

theorem go_tot (hrows : Rows n m h) (Lv : Nat → Int) (hLv : ∀ x, x < n + m → Lv x < (n : Int) + m) : ∀ (k r : Nat) (lv : Int) (t : DSt), r < m → Gen n m h t → Valid n m t.toR t.toL → Edges h t.toL →
    at' (-1) t.level (n + r) = lv → 0 ≤ lv → left n m h t + lv.toNat + 1 ≤ k → Tot (go n m h k r lv t) (Post n m h Lv r lv t) := by
  intro k
  induction k with
  | zero =>
    intro r lv t _ _ _ _ _ _ hk
    omega
  | succ k ih =>
    intro r lv t hr hg hv he hlv hlv0 hk
    unfold go
    have hnr : n + r < t.iter.size := by rw [hg.isz]; omega
    have hnl : n + r < t.level.size := by rw [hg.lsz]; omega
    rw [rd_at 0 hnr, ok_bind, rd_at #[] (by rw [hrows.hsz]; exact hr), ok_bind]
    obtain ⟨i, hi⟩ : ∃ i, i = at' 0 t.iter (n + r) := ⟨_, rfl⟩
    rw [← hi]
    have hlvb : lv ≤ (n : Int) + m := by rw [← hlv]; exact hg.bd _ (by omega)
    by_cases hsz : i < (at' #[] h r).size
    · rw [if_pos hsz]
      rw [rd_at 0 hsz, ok_bind]
      obtain ⟨l, hldef⟩ : ∃ l, l = at' 0 (at' #[] h r) i := ⟨_, rfl⟩
      have hent : ent h r i = l := hldef.symm
      rw [← hldef]
      have hl : l < n := by
        rw [← hent]
        exact hrows.lt r i hr hsz
      have hli : l < t.iter.size := by rw [hg.isz]; omega
      have hll : l < t.level.size := by rw [hg.lsz]; omega
      rw [rd_at (-1) hll, ok_bind, rd_at none (by rw [hg.tsz]; exact hr), ok_bind, rd_at 0 hli, ok_bind]
      -- the next round of the loop
      have next : ∀ t1 : DSt, Gen n m h t1 → t1.toR = t.toR → t1.toL = t.toL → at' (-1) t1.level (n + r) = lv → at' 0 t1.iter (n + r) = i → left n m h t1 ≤ left n m h t → Frame n m r lv t t1 →
          (Dead n m h Lv t lv → lv = Lv (n + r) → Dead n m h Lv t1 lv ∧ (Lv l < Lv (n + r) → at' none t.toL r ≠ some l → at' 0 t1.iter l = m + 1)) →
          Tot (do let t ← t1.bump (n + r); go n m h k r lv t) (Post n m h Lv r lv t) := by
        intro t1 g1 eR eL e1 e2 e3 e4 e5
        have hb1 : n + r < t1.iter.size := by rw [g1.isz]; omega
        rw [bump_eq hb1, ok_bind]
        obtain ⟨t2, ht2⟩ : ∃ t2 : DSt, t2 = { t1 with iter := t1.iter.setIfInBounds (n + r) (at' 0 t1.iter (n + r) + 1) } := ⟨_, rfl⟩
        rw [← ht2]
        have q1 : t2.toR = t.toR := by rw [ht2]; exact eR
        have q2 : t2.toL = t.toL := by rw [ht2]; exact eL
        have q3 : t2.level = t1.level := by rw [ht2]
        have q4 : ∀ x, at' 0 t2.iter x = if n + r = x then i + 1 else at' 0 t1.iter x := by
          intro x
          rw [ht2, ← e2]
          exact at_set 0 hb1 _ x
        have g2 : Gen n m h t2 := by
          refine ⟨by rw [q1]; exact hg.rsz, by rw [q2]; exact hg.tsz, by rw [q3]; exact g1.lsz, by rw [ht2]; simp [g1.isz], by rw [q3]; exact g1.bd, ?_⟩
          intro r' hr'
          rw [q4]
          split_ifs with e
          · have : r' = r := by omega
            rw [this]
            exact hsz
          · exact g1.ib r' hr'
        have hleft : left n m h t2 + 1 = left n m h t1 := by
          refine left_bump hr (by rw [e2]; exact hsz) fun r' => ?_
          rw [q4, e2]
          by_cases hrr : r = r'
          · rw [if_pos (by omega), if_pos hrr]
          · rw [if_neg (by omega), if_neg hrr]
        have f12 : Frame n m r lv t1 t2 := by
          refine ⟨?_, ?_⟩
          · intro l' hl' _
            refine ⟨by rw [q3], ?_, by rw [q1, eR]⟩
            rw [q4, if_neg (by omega)]
          · intro r' hr' hne _
            refine ⟨by rw [q3], ?_, by rw [q2, eL]⟩
            rw [q4, if_neg (by omega)]
        refine (ih r lv t2 hr g2 (by rw [q1, q2]; exact hv) (by rw [q2]; exact he) (by rw [q3]; exact e1) hlv0 (by omega)).mono ?_
        intro res hp
        refine ⟨hp.gen, by have := hp.le; omega, (e4.trans f12).trans hp.frame, ?_, ?_⟩
        · intro hf
          obtain ⟨p1, p2, p3⟩ := hp.fail hf
          refine ⟨p1.trans q1, p2.trans q2, ?_⟩
          intro hK hlast
          have hlast' : lv = Lv (n + r) := by
            rcases hlast with h' | h'
            · exact h'
            · exfalso
              unfold rsize at h'
              omega
          obtain ⟨k1, k2⟩ := e5 hK hlast'
          refine p3 ?_ (Or.inl hlast')
          refine ⟨?_, ?_, ?_, ?_⟩
          · intro l' hl'
            rw [q3, q1, q4, if_neg (by omega), ← eR]
            exact k1.kl l' hl'
          · intro r' hr'
            rw [q3, q4]
            by_cases hrr : n + r = n + r'
            · have : r' = r := by omega
              rw [this, e1]
              exact Or.inl hlast'
            · rw [if_neg hrr]
              exact k1.kr r' hr'
          · intro r' hr' j hj hlt hne
            rw [q4] at hj
            rw [q2] at hne
            by_cases hej : n + r = ent h r' j
            · exfalso
              rw [q4] at *
              split_ifs at hj with hrr
              · have : r' = r := by omega
                have hj' : j < rsize h r' := by rw [this]; unfold rsize; omega
                have := hrows.lt r' j hr' hj'
                omega
              · have hj' : j < rsize h r' := lt_of_lt_of_le hj (g1.ib r' hr')
                have := hrows.lt r' j hr' hj'
                omega
            · rw [q4, if_neg hej]
              split_ifs at hj with hrr
              · have hr'r : r' = r := by omega
                rw [hr'r] at hlt hne ⊢
                by_cases hji : j = i
                · rw [hji, hent] at hlt hne ⊢
                  exact k2 hlt hne
                · exact k1.kd r hr j (by omega) hlt (by rw [eL]; exact hne)
              · exact k1.kd r' hr' j hj hlt (by rw [eL]; exact hne)
          · intro l' hl' hq
            rw [q3] at hq
            rw [q4, if_neg (by omega)]
            exact k1.q l' hl' hq
        · intro hs
          obtain ⟨s1, s2, s3, s4, s5, s6⟩ := hp.succ hs
          rw [q2] at s2 s3 s5
          exact ⟨s1, s2, s3, s4, s5, s6⟩
      by_cases hskip : lv ≤ at' (-1) t.level l ∨ at' none t.toL r = some l ∨ m < at' 0 t.iter l
      · rw [if_pos hskip]
        refine next t hg rfl rfl hlv hi.symm (le_refl _) (Frame.refl _ _ _) ?_
        intro hK hL
        refine ⟨hK, ?_⟩
        intro hlt hne
        rcases hK.kl l hl with ⟨k1, k2⟩ | ⟨k1, -, -⟩
        · rcases hskip with h1 | h1 | h1
          · omega
          · exact absurd h1 hne
          · omega
        · exact k1
      rw [if_neg hskip]
      rw [not_or, not_or] at hskip
      obtain ⟨c1, c2, c3⟩ := hskip
      have hlR : l < t.toR.size := by rw [hg.rsz]; exact hl
      rw [rd_at none hlR, ok_bind]
      cases htr : at' none t.toR l with
      | none =>
        dsimp only
        rw [kill_eq hli hll, ok_bind]
        rw [pair_eq (by exact hlR) (by rw [hg.tsz]; exact hr), ok_bind]
        dsimp only
        obtain ⟨t2, ht2⟩ : ∃ t2 : DSt, t2 = ⟨t.toR.setIfInBounds l (some r), t.toL.setIfInBounds r (some l), t.level.setIfInBounds l ((n : Int) + m), t.iter.setIfInBounds l (m + 1)⟩ := ⟨_, rfl⟩
        have hrL : r < t.toL.size := by rw [hg.tsz]; exact hr
        have q1 : ∀ x, at' none t2.toR x = if l = x then some r else at' none t.toR x := fun x => by rw [ht2]; exact at_set none hlR _ x
        have q2 : ∀ x, at' none t2.toL x = if r = x then some l else at' none t.toL x := fun x => by rw [ht2]; exact at_set none hrL _ x
        have q3 : ∀ x, at' (-1) t2.level x = if l = x then (n : Int) + m else at' (-1) t.level x := fun x => by rw [ht2]; exact at_set (-1) hll _ x
        have q4 : ∀ x, at' 0 t2.iter x = if l = x then m + 1 else at' 0 t.iter x := fun x => by rw [ht2]; exact at_set 0 hli _ x
        refine tot_ok.mpr ?_
        change Post n m h Lv r lv t (true, ⟨_, _, _, _⟩)
        rw [← ht2]
        refine ⟨⟨by rw [ht2]; simp [hg.rsz], by rw [ht2]; simp [hg.tsz], by rw [ht2]; simp [hg.lsz], by rw [ht2]; simp [hg.isz], ?_, ?_⟩, ?_, ?_, ?_, ?_⟩
        · intro x hx
          rw [q3]
          split_ifs
          · exact le_refl _
          · exact hg.bd x hx
        · intro r' hr'
          rw [q4, if_neg (by omega)]
          exact hg.ib r' hr'
        · refine le_of_eq (left_congr fun r' _ => ?_)
          rw [q4, if_neg (by omega)]
        · refine ⟨?_, ?_⟩
          · intro l' hl' hlv'
            have hne : l ≠ l' := by
              rintro rfl
              exact c1 hlv'
            rw [q1, q3, q4, if_neg hne, if_neg hne, if_neg hne]
            exact ⟨rfl, rfl, rfl⟩
          · intro r' hr' hne hlv'
            rw [q2, q3, q4, if_neg (by omega), if_neg (by omega), if_neg (Ne.symm hne)]
            exact ⟨rfl, rfl, rfl⟩
        · intro hf
          cases hf
        · intro _
          refine ⟨?_, ?_, ?_, ?_, ?_, ?_⟩
          · intro l' r' e
            rw [q2] at e
            rw [q1]
            split_ifs at e with hrr
            · rw [if_pos (Option.some.inj e), hrr]
            · have e' := hv.lr l' r' e
              rw [if_neg, e']
              rintro rfl
              rw [htr] at e'
              cases e'
          · intro l' r' e
            rw [q1] at e
            rw [q2]
            split_ifs at e with hll'
            · left
              rw [if_pos (Option.some.inj e), hll']
            · have e' := hv.rl l' r' e
              by_cases hrr : r = r'
              · right
                exact ⟨hrr.symm, by rw [hrr]; exact e'⟩
              · left
                rw [if_neg hrr]
                exact e'
          · intro r' hne
            rw [q2, if_neg (Ne.symm hne)]
          · rw [q2, if_pos rfl]
            simp
          · rw [q2, if_pos rfl]
            exact fun e => c2 e.symm
          · intro l' r' e
            rw [q2] at e
            split_ifs at e with hrr
            · rw [← hrr, ← Option.some.inj e]
              exact ⟨i, hsz, hent⟩
            · exact he l' r' e
      | some nr =>
        dsimp only
        have hnrL := hv.rl l nr htr
        have hnrm := (hv.ltL htr).2
        by_cases hil : at' 0 t.iter l ≤ nr
        · rw [if_pos hil, wr_eq hli, ok_bind]
          obtain ⟨t1, ht1⟩ : ∃ t1 : DSt, t1 = { t with iter := t.iter.setIfInBounds l (nr + 1) } := ⟨_, rfl⟩
          rw [← ht1]
          have p1 : t1.toR = t.toR := by rw [ht1]
          have p2 : t1.toL = t.toL := by rw [ht1]
          have p3 : t1.level = t.level := by rw [ht1]
          have p4 : ∀ x, at' 0 t1.iter x = if l = x then nr + 1 else at' 0 t.iter x := fun x => by rw [ht1]; exact at_set 0 hli _ x
          have g1 : Gen n m h t1 := by
            refine ⟨by rw [p1]; exact hg.rsz, by rw [p2]; exact hg.tsz, by rw [p3]; exact hg.lsz, by rw [ht1]; simp [hg.isz], by rw [p3]; exact hg.bd, ?_⟩
            intro r' hr'
            rw [p4, if_neg (by omega)]
            exact hg.ib r' hr'
          have hleft1 : left n m h t1 = left n m h t := left_congr fun r' _ => by rw [p4, if_neg (by omega)]
          have f1 : Frame n m r lv t t1 := by
            refine ⟨?_, ?_⟩
            · intro l' hl' hlv'
              have hne : l ≠ l' := by
                rintro rfl
                exact c1 hlv'
              rw [p1, p3, p4, if_neg hne]
              exact ⟨rfl, rfl, rfl⟩
            · intro r' hr' _ _
              rw [p2, p3, p4, if_neg (by omega)]
              exact ⟨rfl, rfl, rfl⟩
          have hnri : n + nr < t.level.size := by rw [hg.lsz]; omega
          rw [rd_at (-1) hnri, ok_bind]
          obtain ⟨lnr, hlnr⟩ : ∃ lnr, lnr = at' (-1) t.level (n + nr) := ⟨_, rfl⟩
          rw [← hlnr]
          -- giving up `l`
          have give : ∀ t2 : DSt, Gen n m h t2 → t2.toR = t.toR → t2.toL = t.toL → at' (-1) t2.level (n + r) = lv → at' 0 t2.iter (n + r) = i → left n m h t2 ≤ left n m h t → Frame n m r lv t t2 →
              (Dead n m h Lv t lv → lv = Lv (n + r) → (∀ l', l' < n → l' ≠ l → (at' (-1) t2.level l' = Lv l' ∧ at' 0 t2.iter l' ≤ m) ∨
                (at' 0 t2.iter l' = m + 1 ∧ at' (-1) t2.level l' = (n : Int) + m ∧ ∃ nr, at' none t.toR l' = some nr ∧ (0 ≤ Lv (n + nr) → Lv (n + nr) < Lv l' → at' (-1) t2.level (n + nr) = (n : Int) + m))) ∧
                (0 ≤ Lv (n + nr) → Lv (n + nr) < Lv l → at' (-1) t2.level (n + nr) = (n : Int) + m) ∧
                (∀ r, r < m → at' (-1) t2.level (n + r) = Lv (n + r) ∨ (at' (-1) t2.level (n + r) = (n : Int) + m ∧ at' 0 t2.iter (n + r) = rsize h r)) ∧
                (∀ r, r < m → ∀ i, i < at' 0 t2.iter (n + r) → Lv (ent h r i) < Lv (n + r) → at' none t.toL r ≠ some (ent h r i) → ent h r i ≠ l → at' 0 t2.iter (ent h r i) = m + 1) ∧
                (∀ l', l' < n → l' ≠ l → at' (-1) t2.level l' < lv → at' 0 t2.iter l' = 0)) →
              Tot (do let t ← t2.kill n m l; let t ← t.bump (n + r); go n m h k r lv t) (Post n m h Lv r lv t) := by
            intro t2 g2 eR eL e1 e2 e3 e4 e5
            have h2i : l < t2.iter.size := by rw [g2.isz]; omega
            have h2l : l < t2.level.size := by rw [g2.lsz]; omega
            rw [kill_eq h2i h2l, ok_bind]
            obtain ⟨t3, ht3⟩ : ∃ t3 : DSt, t3 = { t2 with iter := t2.iter.setIfInBounds l (m + 1), level := t2.level.setIfInBounds l ((n : Int) + m) } := ⟨_, rfl⟩
            have q1 : t3.toR = t.toR := by rw [ht3]; exact eR
            have q2 : t3.toL = t.toL := by rw [ht3]; exact eL
            have q3 : ∀ x, at' (-1) t3.level x = if l = x then (n : Int) + m else at' (-1) t2.level x := fun x => by rw [ht3]; exact at_set (-1) h2l _ x
            have q4 : ∀ x, at' 0 t3.iter x = if l = x then m + 1 else at' 0 t2.iter x := fun x => by rw [ht3]; exact at_set 0 h2i _ x
            rw [← ht3]
            refine next t3 ?_ q1 q2 ?_ ?_ ?_ ?_ ?_
            · refine ⟨by rw [q1]; exact hg.rsz, by rw [q2]; exact hg.tsz, by rw [ht3]; simp [g2.lsz], by rw [ht3]; simp [g2.isz], ?_, ?_⟩
              · intro x hx
                rw [q3]
                split_ifs
                · exact le_refl _
                · exact g2.bd x hx
              · intro r' hr'
                rw [q4, if_neg (by omega)]
                exact g2.ib r' hr'
            · rw [q3, if_neg (by omega)]
              exact e1
            · rw [q4, if_neg (by omega)]
              exact e2
            · refine le_trans (le_of_eq (left_congr fun r' _ => ?_)) e3
              rw [q4, if_neg (by omega)]
            · refine ⟨?_, ?_⟩
              · intro l' hl' hlv'
                have hne : l ≠ l' := by
                  rintro rfl
                  exact c1 hlv'
                rw [q1, q3, q4, if_neg hne, if_neg hne]
                obtain ⟨a, b, -⟩ := e4.fl l' hl' hlv'
                exact ⟨a, b, rfl⟩
              · intro r' hr' hne hlv'
                rw [q2, q3, q4, if_neg (by omega), if_neg (by omega)]
                obtain ⟨a, b, -⟩ := e4.fr r' hr' hne hlv'
                exact ⟨a, b, rfl⟩
            · intro hK hL
              obtain ⟨d1, d2, d3, d4, d5⟩ := e5 hK hL
              refine ⟨⟨?_, ?_, ?_, ?_⟩, fun _ _ => by rw [q4, if_pos rfl]⟩
              · intro l' hl'
                by_cases hll' : l' = l
                · right
                  rw [hll', q4, if_pos rfl, q3, if_pos rfl, q1]
                  refine ⟨rfl, rfl, nr, htr, ?_⟩
                  intro a b
                  rw [q3, if_neg (by omega)]
                  exact d2 a b
                · rw [q3, q4, if_neg (Ne.symm hll'), if_neg (Ne.symm hll'), q1]
                  rcases d1 l' hl' hll' with d | ⟨da, db, nr', dc, dd⟩
                  · exact Or.inl d
                  · refine Or.inr ⟨da, db, nr', dc, ?_⟩
                    intro a b
                    rw [q3, if_neg (by omega)]
                    exact dd a b
              · intro r' hr'
                rw [q3, q4, if_neg (by omega), if_neg (by omega)]
                exact d3 r' hr'
              · intro r' hr' j hj hlt hne
                rw [q4, if_neg (by omega)] at hj
                rw [q2] at hne
                rw [q4]
                split_ifs with hel
                · rfl
                · exact d4 r' hr' j hj hlt hne (Ne.symm hel)
              · intro l' hl' hq
                by_cases hll' : l' = l
                · exfalso
                  rw [hll', q3, if_pos rfl] at hq
                  omega
                · rw [q3, if_neg (Ne.symm hll')] at hq
                  rw [q4, if_neg (Ne.symm hll')]
                  exact d5 l' hl' hll' hq
          have hkl1 : Dead n m h Lv t lv → at' (-1) t.level l = Lv l := by
            intro hK
            rcases hK.kl l hl with ⟨a, -⟩ | ⟨a, -, -⟩
            · exact a
            · omega
          by_cases hrec : lnr < at' (-1) t.level l ∧ 0 ≤ lnr
          · rw [if_pos hrec]
            have hlt : lnr < lv := by omega
            have hrnr : r ≠ nr := by
              rintro rfl
              omega
            refine (ih nr lnr t1 hnrm g1 (by rw [p1, p2]; exact hv) (by rw [p2]; exact he) (by rw [p3, ← hlnr]) hrec.2 (by omega)).bind ?_
            rintro ⟨b, t2⟩ hp
            have f12 : Frame n m r lv t1 t2 := hp.frame.lift hlt (by rw [p3, ← hlnr])
            have f2 := f1.trans f12
            cases b with
            | true =>
              rw [if_pos rfl]
              obtain ⟨s1, s2, s3, s4, s5, s6⟩ := hp.succ rfl
              have g2 := hp.gen
              dsimp only at s1 s2 s3 s4 s5 s6 g2
              have hlR2 : l < t2.toR.size := by rw [g2.rsz]; exact hl
              have hrL2 : r < t2.toL.size := by rw [g2.tsz]; exact hr
              rw [pair_eq hlR2 hrL2, ok_bind]
              obtain ⟨t3, ht3⟩ : ∃ t3 : DSt, t3 = { t2 with toR := t2.toR.setIfInBounds l (some r), toL := t2.toL.setIfInBounds r (some l) } := ⟨_, rfl⟩
              rw [← ht3]
              have q1 : ∀ x, at' none t3.toR x = if l = x then some r else at' none t2.toR x := fun x => by rw [ht3]; exact at_set none hlR2 _ x
              have q2 : ∀ x, at' none t3.toL x = if r = x then some l else at' none t2.toL x := fun x => by rw [ht3]; exact at_set none hrL2 _ x
              have q3 : t3.level = t2.level := by rw [ht3]
              have q4 : t3.iter = t2.iter := by rw [ht3]
              have hRl : at' none t2.toR l = some nr := by
                rw [(hp.frame.fl l hl (by rw [p3]; omega)).2.2, p1]
                exact htr
              have hLr : at' none t2.toL r = at' none t.toL r := by
                rw [(hp.frame.fr r hr hrnr (by rw [p3, hlv]; omega)).2.2, p2]
              rw [p2] at s2 s3 s5
              refine tot_ok.mpr ⟨⟨by rw [ht3]; simp [g2.rsz], by rw [ht3]; simp [g2.tsz], by rw [q3]; exact g2.lsz, by rw [q4]; exact g2.isz, by rw [q3]; exact g2.bd, by rw [q4]; exact g2.ib⟩, ?_, ?_, ?_, ?_⟩
              · have := hp.le
                have e : left n m h t3 = left n m h t2 := left_congr fun r' _ => by rw [q4]
                dsimp only at this ⊢
                omega
              · dsimp only
                refine ⟨?_, ?_⟩
                · intro l' hl' hlv'
                  have hne : l ≠ l' := by
                    rintro rfl
                    exact c1 hlv'
                  rw [q3, q4, q1, if_neg hne]
                  exact f2.fl l' hl' hlv'
                · intro r' hr' hne hlv'
                  rw [q3, q4, q2, if_neg (Ne.symm hne)]
                  exact f2.fr r' hr' hne hlv'
              · intro hf
                cases hf
              · intro _
                dsimp only
                have hnew : at' none t2.toL nr ≠ some l := by rw [← hnrL]; exact s5
                refine ⟨?_, ?_, ?_, ?_, ?_, ?_⟩
                · intro l' r' e
                  rw [q2] at e
                  rw [q1]
                  split_ifs at e with hrr
                  · rw [if_pos (Option.some.inj e), hrr]
                  · have e' := s1 l' r' e
                    rw [if_neg, e']
                    rintro rfl
                    rw [hRl] at e'
                    have := Option.some.inj e'
                    rw [← this] at e
                    exact hnew e
                · intro l' r' e
                  rw [q1] at e
                  rw [q2]
                  split_ifs at e with hll'
                  · left
                    rw [if_pos (Option.some.inj e), hll']
                  · rcases s2 l' r' e with e' | ⟨e', e''⟩
                    · by_cases hrr : r = r'
                      · right
                        refine ⟨hrr.symm, ?_⟩
                        rw [← hLr, hrr]
                        exact e'
                      · left
                        rw [if_neg hrr]
                        exact e'
                    · rw [hnrL] at e''
                      exact absurd (Option.some.inj e'') hll'
                · intro r' hne
                  rw [q2, if_neg (Ne.symm hne)]
                  by_cases hrr : r' = nr
                  · rw [hrr, hnrL]
                    constructor
                    · intro e
                      exact absurd e s4
                    · intro e
                      cases e
                  · exact s3 r' hrr
                · rw [q2, if_pos rfl]
                  simp
                · rw [q2, if_pos rfl]
                  exact fun e => c2 e.symm
                · intro l' r' e
                  rw [q2] at e
                  split_ifs at e with hrr
                  · rw [← hrr, ← Option.some.inj e]
                    exact ⟨i, hsz, hent⟩
                  · exact s6 l' r' e
            | false =>
              rw [if_neg (by simp)]
              obtain ⟨u1, u2, u3⟩ := hp.fail rfl
              have g2 := hp.gen
              have hle := hp.le
              have hfr := hp.frame.fr r hr hrnr (by rw [p3, hlv]; omega)
              have hfl := hp.frame.fl
              dsimp only at u1 u2 u3 g2 hle hfr hfl
              rw [p3, p4, if_neg (by omega : l ≠ n + r)] at hfr
              refine give t2 g2 (u1.trans p1) (u2.trans p2) (hfr.1.trans hlv) (hfr.2.1.trans hi.symm) (by omega) f2 ?_
              intro hK hL
              have hK1 : Dead n m h Lv t1 lnr := by
                refine ⟨?_, ?_, ?_, ?_⟩
                · intro l' hl'
                  rw [p1, p3, p4]
                  split_ifs with hll'
                  · left
                    rw [← hll']
                    exact ⟨hkl1 hK, by omega⟩
                  · exact hK.kl l' hl'
                · intro r' hr'
                  rw [p3, p4, if_neg (by omega)]
                  exact hK.kr r' hr'
                · intro r' hr' j hj hlt' hne
                  rw [p4, if_neg (by omega)] at hj
                  rw [p2] at hne
                  have := hK.kd r' hr' j hj hlt' hne
                  rw [p4]
                  split_ifs with hel
                  · rw [← hel] at this
                    omega
                  · exact this
                · intro l' hl' hq
                  rw [p3] at hq
                  have hne : l ≠ l' := by
                    rintro rfl
                    omega
                  rw [p4, if_neg hne]
                  exact hK.q l' hl' (by omega)
              have hlast : lnr = Lv (n + nr) ∨ at' 0 t1.iter (n + nr) = rsize h nr := by
                rcases hK.kr nr hnrm with a | ⟨a, b⟩
                · left
                  rw [hlnr, a]
                · right
                  rw [p4, if_neg (by omega), b]
              obtain ⟨k1, k2⟩ := u3 hK1 hlast
              have eR2 : t2.toR = t.toR := u1.trans p1
              have eL2 : t2.toL = t.toL := u2.trans p2
              refine ⟨?_, fun _ _ => k2, k1.kr, ?_, ?_⟩
              · intro l' hl' _
                have := k1.kl l' hl'
                rw [eR2] at this
                exact this
              · intro r' hr' j hj hlt' hne _
                exact k1.kd r' hr' j hj hlt' (by rw [eL2]; exact hne)
              · intro l' hl' hne hq
                by_cases hlow : lnr ≤ at' (-1) t1.level l'
                · obtain ⟨a, b, -⟩ := hfl l' hl' hlow
                  rw [b, p4, if_neg (Ne.symm hne)]
                  rw [a, p3] at hq
                  exact hK.q l' hl' hq
                · refine k1.q l' hl' ?_
                  rcases k1.kl l' hl' with ⟨a, -⟩ | ⟨-, a, -⟩
                  · rcases hK1.kl l' hl' with ⟨b, -⟩ | ⟨-, b, -⟩
                    · omega
                    · have := hg.bd l (by omega)
                      omega
                  · omega
          · rw [if_neg hrec, pure_eq, ok_bind, if_neg (by simp)]
            refine give t1 g1 p1 p2 (by rw [p3]; exact hlv) (by rw [p4, if_neg (by omega), hi]) (by omega) f1 ?_
            intro hK hL
            refine ⟨?_, ?_, ?_, ?_, ?_⟩
            · intro l' hl' hne
              rw [p3, p4, if_neg (Ne.symm hne)]
              exact hK.kl l' hl'
            · intro a b
              rw [p3]
              rcases hK.kr nr hnrm with c | ⟨c, -⟩
              · exfalso
                have := hkl1 hK
                apply hrec
                rw [hlnr, c, this]
                exact ⟨b, a⟩
              · exact c
            · intro r' hr'
              rw [p3, p4, if_neg (by omega)]
              exact hK.kr r' hr'
            · intro r' hr' j hj hlt hne hnl
              rw [p4, if_neg (by omega)] at hj
              rw [p4, if_neg (Ne.symm hnl)]
              exact hK.kd r' hr' j hj hlt hne
            · intro l' hl' hne hq
              rw [p3] at hq
              rw [p4, if_neg (Ne.symm hne)]
              exact hK.q l' hl' hq
        · rw [if_neg hil]
          refine next t hg rfl rfl hlv hi.symm (le_refl _) (Frame.refl _ _ _) ?_
          intro hK hL
          have := hK.q l hl (by omega)
          omega
    · rw [if_neg hsz, wr_eq hnl, ok_bind]
      obtain ⟨t1, ht1⟩ : ∃ t1 : DSt, t1 = { t with level := t.level.setIfInBounds (n + r) ((n : Int) + m) } := ⟨_, rfl⟩
      rw [← ht1]
      have p1 : t1.toR = t.toR := by rw [ht1]
      have p2 : t1.toL = t.toL := by rw [ht1]
      have p3 : ∀ x, at' (-1) t1.level x = if n + r = x then (n : Int) + m else at' (-1) t.level x := fun x => by rw [ht1]; exact at_set (-1) hnl _ x
      have p4 : t1.iter = t.iter := by rw [ht1]
      refine tot_ok.mpr ⟨?_, ?_, ?_, ?_, ?_⟩
      · refine ⟨by dsimp only; rw [p1]; exact hg.rsz, by dsimp only; rw [p2]; exact hg.tsz, by rw [ht1]; simp [hg.lsz], by dsimp only; rw [p4]; exact hg.isz, ?_, by dsimp only; rw [p4]; exact hg.ib⟩
        intro x hx
        dsimp only
        rw [p3]
        split_ifs
        · exact le_refl _
        · exact hg.bd x hx
      · exact le_of_eq (left_congr fun r' _ => by dsimp only; rw [p4])
      · dsimp only
        refine ⟨?_, ?_⟩
        · intro l' hl' _
          rw [p1, p3, p4, if_neg (by omega)]
          exact ⟨rfl, rfl, rfl⟩
        · intro r' hr' hne _
          rw [p2, p3, p4, if_neg (by omega)]
          exact ⟨rfl, rfl, rfl⟩
      · intro _
        dsimp only
        refine ⟨p1, p2, ?_⟩
        intro hK hlast
        refine ⟨⟨?_, ?_, ?_, ?_⟩, by rw [p3, if_pos rfl]⟩
        · intro l' hl'
          rw [p1, p3, p4, if_neg (by omega)]
          rcases hK.kl l' hl' with a | ⟨a, b, nr, c, d⟩
          · exact Or.inl a
          · refine Or.inr ⟨a, b, nr, c, ?_⟩
            intro e f
            rw [p3]
            split_ifs
            · rfl
            · exact d e f
        · intro r' hr'
          rw [p3, p4]
          split_ifs with hrr
          · right
            have : r' = r := by omega
            rw [this]
            have := hg.ib r hr
            unfold rsize at this ⊢
            exact ⟨rfl, by omega⟩
          · exact hK.kr r' hr'
        · intro r' hr' j hj hlt hne
          rw [p4] at hj ⊢
          rw [p2] at hne
          exact hK.kd r' hr' j hj hlt hne
        · intro l' hl' hq
          rw [p3, if_neg (by omega)] at hq
          rw [p4]
          exact hK.q l' hl' hq
      · intro hs
        cases hs

end

end BipartiteMatching
