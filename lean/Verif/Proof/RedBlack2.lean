import Verif.Proof.RedBlack

/-! # Red-black trees: merging and splitting -/

namespace RedBlack
open Cxx

variable {T F : Type} {O : Ops T F} {K : Kind} {P : Prop}

theorem rotate_spec [DecidableEq F] (L : Lawful O K P) (i : Bool) (o c : Tree T F) (v : T) (s h : Int) (w : Nat) (ro : RB o w) (co : color o = .black) (rc : RB c (w + 1)) (cc : color c = .black) (hh : height c = w)
    (hx : ∀ x, child (!i) c = .ok x → color x = .black) (dO : Dat O K P o) (dc : Dat O K P c) (hlen : (seq O o).length + (seq O c).length ≤ maxLen) :
    Tot (rotate O K (mk O i .red o c v s h) i) (fun u => Dat O K P u ∧ seq O u = cat i (seq O o) (seq O c) ∧ RB u (w + 1) ∧ color u = .black) := by
  have hw := ro.pos.1
  rw [rotate, push_mk, ok_bind, child_mk, ok_bind]
  obtain ⟨k, x, y, v1, s1, h1, e, rx, ry, dx, dy, hsq, hk, _, hk1, _, hh1, _, hcx, _⟩ := push_branch L i c dc (w + 1) (Or.inl ⟨rc, by omega⟩)
  have hwh : h1 = w := by omega
  subst hwh
  rw [e, ok_bind, child_mk', ok_bind, setChild_mk, ok_bind]
  have hcx' : color x = .black := by
    cases c with
    | nul => simp [isNul, height] at hh; omega
    | node kk a b vv ss hhh z r =>
      rw [hcx _ rfl]
      exact hx _ rfl
  rw [hsq, cat_length] at hlen
  obtain ⟨v2, s2, e2, d2, q2⟩ := update_mk L i .red o x v s h ro.isNul' rx.isNul' dO dx (by omega) _ ro.newLev rx.newLev
  rw [e2, ok_bind, setChild_mk', ok_bind]
  have r2 : RB (mk O i .red o x v2 s2 h1) h1 := rb_red i ro rx co hcx' rfl
  obtain ⟨v3, s3, e3, d3, q3⟩ := update_mk L i k (mk O i .red o x v2 s2 h1) y v1 s1 h1 r2.isNul' ry.isNul' d2 dy (by rw [q2, cat_length]; omega) _ r2.newLev ry.newLev
  rw [e3]
  refine tot_ok.2 ⟨d3, ?_, ?_, ?_⟩
  · rw [q3, q2, hsq, cat_assoc]
  · rw [hk, cc]
    exact rb_black i r2 ry rfl
  · rw [color_mk, hk, cc]

theorem fix_spec [DecidableEq F] (L : Lawful O K P) (fb i : Bool) (t0 : Tree T F) (xs : List T) (o c : Tree T F) (v : T) (s : Int) (h : Int) (w : Nat) (ro : RB o w) (wc : Wk i c w)
    (dO : Dat O K P o) (dc : Dat O K P c) (hlen : (seq O o).length + (seq O c).length ≤ maxLen) (hsq : cat i (seq O o) (seq O c) = cat i (seq O t0) xs) :
    Tot (fix O K fb i (mk O i .black o c v s h) c) (fun u => (fb = false → Res O K P i t0 xs (w + 1) u) ∧ (fb = true → ResB O K P (cat i (seq O t0) xs) u)) := by
  obtain ⟨a, b, vc, sc, zc, rc, rfl, ra, rb, cab⟩ := wc
  rw [fix, getCol_mk, ok_bind]
  have g1 : getCol (Tree.node .red a b vc sc w zc rc) = .ok Color.red := rfl
  have g2 : setCol .black (Tree.node .red a b vc sc w zc rc) = .ok (Tree.node .black a b vc sc w zc rc) := rfl
  rw [g1, ok_bind, g2, ok_bind, setCol_mk, ok_bind, child_mk', ok_bind, getCol_eq ro.isNul', ok_bind]
  obtain ⟨o', e, co, no, _, so, do', bo, _⟩ := setCol_eq (O := O) (K := K) (P := P) .black ro.isNul'
  rw [e, ok_bind, setChild_mk', ok_bind, setChild_mk, ok_bind]
  have rc' : RB (Tree.node .black a b vc sc w zc rc) (w + 1) := RB.black _ _ _ _ _ _ _ ra rb
  have dc' : Dat O K P (Tree.node .black a b vc sc w zc rc) := dc
  have sc' : seq O (Tree.node .black a b vc sc w zc rc) = seq O (Tree.node .red a b vc sc w zc rc) := rfl
  by_cases hco : color o = .black
  · rw [if_pos hco]
    have : o' = o := by rw [bo rfl, blacken_black hco]
    subst this
    refine (rotate_spec L i o' _ v s h w ro co rc' rfl rfl ?_ dO dc' (by rw [sc']; exact hlen)).mono ?_
    · intro x hx
      simp only [child, Except.ok.injEq] at hx
      subst hx
      cases i <;> simpa using cab
    · rintro u ⟨d, q, r, cu⟩
      rw [sc', hsq] at q
      exact ⟨fun _ => ⟨d, q, Or.inl r⟩, fun _ => ⟨d, q, ⟨_, r⟩, cu⟩⟩
  · rw [if_neg hco]
    have ro' : RB o' (w + 1) := by
      rw [bo rfl]
      exact blacken_red ro (by cases hx : color o <;> simp_all)
    obtain ⟨v2, s2, e2, d2, q2⟩ := update_mk L i .red o' (Tree.node .black a b vc sc w zc rc) v s h no rfl (do' dO) dc' (by rw [so, sc']; exact hlen) _ ro'.newLev rc'.newLev
    rw [e2, ok_bind]
    have r2 : RB (mk O i .red o' (Tree.node .black a b vc sc w zc rc) v2 s2 ((w + 1 : Nat) : Int)) (w + 1) := rb_red i ro' rc' co rfl rfl
    refine force_spec fb _ i t0 xs (w + 1) ⟨d2, ?_, Or.inl r2⟩ fun _ => r2
    rw [q2, so, sc', hsq]

theorem descend_spec [DecidableEq F] (L : Lawful O K P) (fb i : Bool) (t : Tree T F) (xs : List T) (w : Nat) (rt : RB t w) (h0 : 0 < height t) (dt : Dat O K P t) (hfb : fb = true → color t = .black)
    (rec : Tree T F → M (Tree T F)) (hlen : (seq O t).length + xs.length ≤ maxLen)
    (hrec : ∀ c h, RB c h → (h : Int) = height t → Dat O K P c → nodes c < nodes t → (seq O c).length ≤ (seq O t).length → Tot (rec c) (Res O K P i c xs h)) :
    Tot (descend O K fb i rec t) (fun u => (fb = false → Res O K P i t xs w u) ∧ (fb = true → ResB O K P (cat i (seq O t) xs) u)) := by
  obtain ⟨k, o, c, v, s, h, e, ro, rc, dO, dc, hsq, hk, hn, hk1, hk2, hh, hk3, _, _⟩ := push_branch L i t dt w (Or.inl ⟨rt, h0⟩)
  have hl : (seq O t).length = (seq O o).length + (seq O c).length := by rw [hsq, cat_length]
  rw [descend, e, ok_bind, child_mk, ok_bind]
  refine (hrec c h rc hh.symm dc (by omega) (by omega)).bind fun u hu => ?_
  rw [setChild_mk, ok_bind]
  have un : isNul u = false := by
    rcases hu.rb with hu | ⟨_, a, b, _, _, _, _, rfl, _⟩
    · exact hu.isNul'
    · rfl
  have hlu : (seq O u).length = (seq O c).length + xs.length := by rw [hu.seq, cat_length]
  have hcat : cat i (seq O o) (seq O u) = cat i (seq O t) xs := by rw [hu.seq, hsq, cat_assoc]
  obtain ⟨bb, hbb, hb1, hb2⟩ : ∃ bb, redRed i (mk O i k o u v s h) u = .ok bb ∧ (bb = true → k = .black ∧ Wk i u h) ∧ (bb = false → k = .black → RB u h) := by
    rw [redRed, getCol_mk, ok_bind, getCol_eq un, ok_bind]
    rcases hu.rb with hr | ⟨hc, hw⟩
    · cases hr with
      | leaf =>
        refine ⟨_, rfl, ?_, ?_⟩
        · simp [color]
        · intros; exact RB.leaf ..
      | red a b v s z r w ha hb ca cb =>
        refine ⟨_, rfl, ?_, ?_⟩
        · cases i <;> simp [ca, cb]
        · intros; exact RB.red _ _ _ _ _ _ _ ha hb ca cb
      | black a b v s z r w ha hb =>
        refine ⟨_, rfl, ?_, ?_⟩
        · simp [color]
        · intros; exact RB.black _ _ _ _ _ _ _ ha hb
    · have hw' := hw
      obtain ⟨a, b, vu, su, zu, ru, rfl, ra, rb, cab⟩ := hw
      refine ⟨_, rfl, ?_, ?_⟩
      · intro hx
        simp only [Bool.and_eq_true, decide_eq_true_eq] at hx
        exact ⟨hx.1.1, hw'⟩
      · intro hx hkb
        have : color (if i then b else a) = .black := by
          have e1 : color (Tree.node .red a b vu su h zu ru) = .red := rfl
          rw [e1] at hx
          simp only [hkb, decide_true, Bool.true_and, decide_eq_false_iff_not] at hx
          cases hy : color (if i then b else a)
          · exact absurd hy hx
          · rfl
        cases i
        · exact RB.red _ _ _ _ _ _ _ ra rb this cab
        · exact RB.red _ _ _ _ _ _ _ ra rb cab this
  rw [hbb, ok_bind]
  cases bb with
  | true =>
    rw [if_pos rfl]
    obtain ⟨hkb, hw⟩ := hb1 rfl
    rw [hkb]
    have hww := hk1 hkb
    subst hww
    exact fix_spec L fb i t xs o u v s h h ro hw dO hu.dat (by omega) hcat
  | false =>
    rw [if_neg (by simp)]
    have hnl : newLev u = h := by
      rcases hu.rb with hr | ⟨hc, a, b, vu, su, zu, ru, rfl, ra, rb, cab⟩
      · exact hr.newLev
      · simp [newLev, isNul, color, height]
    obtain ⟨v2, s2, e2, d2, q2⟩ := update_mk L i k o u v s h ro.isNul' un dO hu.dat (by omega) h ro.newLev hnl
    rw [e2, ok_bind]
    rw [hcat] at q2
    by_cases hkb : k = .black
    · have r2 : RB (mk O i k o u v2 s2 h) w := by
        rw [hkb, hk1 hkb]
        exact rb_black i ro (hb2 rfl hkb) rfl
      exact force_spec fb _ i t xs w ⟨d2, q2, Or.inl r2⟩ fun _ => r2
    · have hkr : k = .red := by cases k <;> simp_all
      obtain ⟨hwh, hoc⟩ := hk2 hkr
      subst hwh
      have hct : color t = .red := by rw [← hk, hkr]
      refine force_spec fb _ i t xs w ⟨d2, q2, Or.inr ⟨hct, ?_⟩⟩ fun x => by rw [hfb x] at hct; exact absurd hct (by simp)
      have ru : RB u w := by
        rcases hu.rb with hr | ⟨hc, _⟩
        · exact hr
        · rw [hk3 hkr rt] at hc
          exact absurd hc (by simp)
      cases i
      · exact ⟨u, o, v2, s2, O.id, false, by rw [hkr]; rfl, ru, ro, hoc⟩
      · exact ⟨o, u, v2, s2, O.id, false, by rw [hkr]; rfl, ro, ru, hoc⟩

theorem branchF_spec (L : Lawful O K P) (fb : Bool) (l r : Tree T F) (w : Nat) (rl : RB l w) (rr : RB r w) (cl : color l = .black) (cr : color r = .black) (dl : Dat O K P l) (dr : Dat O K P r) (hlen : (seq O l).length + (seq O r).length ≤ maxLen) :
    Tot (branchF O K fb l r) (fun u => (fb = false → Res O K P true l (seq O r) w u ∧ Res O K P false r (seq O l) w u) ∧ (fb = true → ResB O K P (seq O l ++ seq O r) u)) := by
  obtain ⟨v2, s2, e2, d2, q2⟩ := update_mk L true .red l r O.e (size l + size r) 0 rl.isNul' rr.isNul' dl dr hlen w rl.newLev rr.newLev
  rw [branchF, branch]
  change Tot (update O K (mk O true .red l r O.e (size l + size r) 0) >>= fun t => force fb t) _
  rw [e2, ok_bind]
  have r2 : RB (mk O true .red l r v2 s2 w) w := rb_red true rl rr cl cr rfl
  have s1 := force_spec fb _ true l (seq O r) w ⟨d2, q2, Or.inl r2⟩ fun _ => r2
  have s2 := force_spec fb _ false r (seq O l) w ⟨d2, q2, Or.inl r2⟩ fun _ => r2
  obtain ⟨u, hu, s1⟩ := s1
  obtain ⟨u', hu', s2⟩ := s2
  rw [hu] at hu'
  cases hu'
  exact ⟨u, hu, fun x => ⟨s1.1 x, s2.1 x⟩, s1.2⟩

theorem mergeF_spec [DecidableEq F] (L : Lawful O K P) (fuel : Nat) : ∀ (l r : Tree T F) (wl wr : Nat), nodes l + nodes r < fuel → RB l wl → RB r wr → Dat O K P l → Dat O K P r → (seq O l).length + (seq O r).length ≤ maxLen →
    (color r = .black → wr ≤ wl → Tot (mergeF O K fuel false l r) (Res O K P true l (seq O r) wl)) ∧
    (color l = .black → wl ≤ wr → Tot (mergeF O K fuel false l r) (Res O K P false r (seq O l) wr)) := by
  induction fuel with
  | zero => intro l r wl wr h; omega
  | succ fuel ih =>
    intro l r wl wr hf rl rr dl dr hlen
    have hl := rl.height
    have hr := rr.height
    have pl := rl.pos.1
    have pr := rr.pos.1
    rw [mergeF, rl.isNul', rr.isNul', if_neg (by simp), if_neg (by simp)]
    have eqcase : height l = height r → color l = .black → color r = .black → wl = wr ∧ Tot (branchF O K false l r) (fun u => Res O K P true l (seq O r) wl u ∧ Res O K P false r (seq O l) wr u) := by
      intro hh cl cr
      rw [cl] at hl
      rw [cr] at hr
      simp only [if_true] at hl hr
      have hw : wl = wr := by omega
      subst hw
      exact ⟨rfl, (branchF_spec L false l r wl rl rr cl cr dl dr hlen).mono fun u hu => hu.1 rfl⟩
    constructor
    · intro cr hw
      rw [cr] at hr
      simp only [if_true] at hr
      by_cases h1 : height l > height r
      · rw [if_pos h1]
        refine (descend_spec L false true l (seq O r) wl rl (by omega) dl nofun _ hlen ?_).mono fun u hu => hu.1 rfl
        intro c h rc hh dc hn hln
        exact (ih c r h wr (by omega) rc rr dc dr (by omega)).1 cr (by omega)
      · rw [if_neg h1]
        have cl : color l = .black := by
          cases hc : color l
          · rw [hc] at hl; simp at hl; omega
          · rfl
        rw [cl] at hl
        simp only [if_true] at hl
        rw [if_neg (by omega)]
        exact (eqcase (by omega) cl cr).2.mono fun u hu => hu.1
    · intro cl hw
      rw [cl] at hl
      simp only [if_true] at hl
      by_cases h1 : height r > height l
      · rw [if_neg (by omega), if_pos h1]
        refine (descend_spec L false false r (seq O l) wr rr (by omega) dr nofun _ (by omega) ?_).mono fun u hu => hu.1 rfl
        intro c h rc hh dc hn hln
        exact (ih l c wl h (by omega) rl rc dl dc (by omega)).2 cl (by omega)
      · have cr : color r = .black := by
          cases hc : color r
          · rw [hc] at hr; simp at hr; omega
          · rfl
        rw [cr] at hr
        simp only [if_true] at hr
        rw [if_neg (by omega), if_neg h1]
        exact (eqcase (by omega) cl cr).2.mono fun u hu => hu.2

/-- A tree that represents `xs`. -/
structure Rep (O : Ops T F) (K : Kind) (P : Prop) (xs : List T) (t : Tree T F) : Prop where
  dat : Dat O K P t
  seq : seq O t = xs
  rb : t = .nul ∨ ∃ w, RB t w
  col : color t = .black
  len : xs.length ≤ maxLen

theorem merge_spec [DecidableEq F] (L : Lawful O K P) {l r : Tree T F} {xs ys : List T} (hl : Rep O K P xs l) (hr : Rep O K P ys r) (hlen : xs.length + ys.length ≤ maxLen) :
    Tot (merge O K l r) (Rep O K P (xs ++ ys)) := by
  rw [merge, mergeF]
  obtain ⟨dl, sl, bl, cl, _⟩ := hl
  obtain ⟨dr, sr, br, cr, _⟩ := hr
  rcases bl with rfl | ⟨wl, rl⟩
  · rw [if_pos (by rfl)]
    subst sl
    exact tot_ok.2 ⟨dr, sr, br, cr, by simpa using hlen⟩
  rcases br with rfl | ⟨wr, rr⟩
  · rw [rl.isNul', if_neg (by simp), if_pos (by rfl)]
    subst sr
    exact tot_ok.2 ⟨dl, by rw [sl]; simp [RedBlack.seq], Or.inr ⟨_, rl⟩, cl, by simpa using hlen⟩
  rw [rl.isNul', rr.isNul', if_neg (by simp), if_neg (by simp)]
  subst sl sr
  have hl := rl.height
  have hr := rr.height
  have pl := rl.pos.1
  have pr := rr.pos.1
  rw [cl] at hl
  rw [cr] at hr
  simp only [if_true] at hl hr
  have fin : ∀ u, ResB O K P (seq O l ++ seq O r) u → Rep O K P (seq O l ++ seq O r) u := fun u hu => ⟨hu.dat, hu.seq, Or.inr hu.rb, hu.col, by simpa using hlen⟩
  by_cases h1 : height l > height r
  · rw [if_pos h1]
    refine (descend_spec L true true l (seq O r) wl rl (by omega) dl (fun _ => cl) _ hlen ?_).mono fun u hu => fin u (hu.2 rfl)
    intro c h rc hh dc hn hln
    exact (mergeF_spec L _ c r h wr (by omega) rc rr dc dr (by omega)).1 cr (by omega)
  · rw [if_neg h1]
    by_cases h2 : height r > height l
    · rw [if_pos h2]
      refine (descend_spec L true false r (seq O l) wr rr (by omega) dr (fun _ => cr) _ (by omega) ?_).mono fun u hu => fin u (hu.2 rfl)
      intro c h rc hh dc hn hln
      exact (mergeF_spec L _ l c wl h (by omega) rl rc dl dc (by omega)).2 cl (by omega)
    · rw [if_neg h2]
      have hw : wl = wr := by omega
      subst hw
      exact (branchF_spec L true l r wl rl rr cl cr dl dr hlen).mono fun u hu => fin u (hu.2 rfl)

theorem rep_nul : Rep O K P [] (.nul : Tree T F) := ⟨trivial, rfl, Or.inl rfl, rfl, by simp⟩

theorem rep_leaf (v : T) : Rep O K P [v] (leaf O v) := ⟨⟨fun _ => rfl, fun _ => rfl, Or.inl ⟨rfl, rfl, rfl⟩⟩, rfl, Or.inr ⟨_, RB.leaf ..⟩, rfl, by simp [maxLen]⟩

theorem Rep.size {t : Tree T F} {xs : List T} (h : Rep O K P xs t) : RedBlack.size t = xs.length := by rw [h.dat.size, h.seq]

theorem blacken_rep {t : Tree T F} {w : Nat} (h : RB t w) (d : Dat O K P t) (hl : (seq O t).length ≤ maxLen) : Rep O K P (seq O t) (blacken t) ∧ nodes (blacken t) = nodes t ∧ size (blacken t) = (seq O t).length := by
  by_cases hc : color t = .black
  · rw [blacken_black hc]
    exact ⟨⟨d, rfl, Or.inr ⟨_, h⟩, hc, hl⟩, rfl, d.size⟩
  · have hr := blacken_red h (by cases hx : color t <;> simp_all)
    cases t with
    | nul => exact absurd h.isNul' (by simp [isNul])
    | node k a b v s hh z r => exact ⟨⟨d, rfl, Or.inr ⟨_, hr⟩, rfl, hl⟩, rfl, d.size⟩

theorem splitF_spec [DecidableEq F] (L : Lawful O K P) (fuel : Nat) : ∀ (t : Tree T F) (xs : List T) (k : Nat), nodes t < fuel → Rep O K P xs t → k ≤ xs.length →
    Tot (splitF O K fuel t k) (fun p => Rep O K P (xs.take k) p.1 ∧ Rep O K P (xs.drop k) p.2) := by
  induction fuel with
  | zero => intro t xs k h; omega
  | succ fuel ih =>
    intro t xs k hf ht hk
    have hlen := ht.len
    have hsz := ht.size
    obtain ⟨d, hs, hrb, hc, _⟩ := ht
    rw [splitF]
    rcases hrb with rfl | ⟨w, hrb⟩
    · rw [if_pos (by rfl)]
      subst hs
      refine tot_ok.2 ⟨?_, ?_⟩
      · simpa [RedBlack.seq] using rep_nul
      · simpa [RedBlack.seq] using rep_nul
    rw [hrb.isNul', if_neg (by simp)]
    subst hs
    by_cases h0 : 0 < height t
    · obtain ⟨kk, o, c, v, s, h, e, ro, rc, dO, dc, hsq, hkk, hn, hk1, hk2, hh, hk3, _, _⟩ := push_branch L true t d w (Or.inl ⟨hrb, h0⟩)
      -- the pushed tree represents the same list
      have hpt : Rep O K P (seq O t) (mk O true kk o c v s h) := by
        cases t with
        | nul => exact absurd hrb.isNul' (by simp [isNul])
        | node k1 a b v1 s1 h1 z r =>
          obtain ⟨a', b', e', sa, sb, d', q'⟩ := push_spec L k1 a b v1 s1 h1 z r d
          rw [e] at e'
          cases e'
          refine ⟨d', q', Or.inr ⟨w, ?_⟩, ?_, hlen⟩
          · rw [hkk, hc, hk1 (hkk.trans hc)]
            exact RB.black _ _ _ _ _ _ _ ro rc
          · rw [color_mk, hkk, hc]
      rw [e, ok_bind]
      have hlc : (seq O t).length = (seq O o).length + (seq O c).length := by rw [hsq, cat_length]
      by_cases hk0 : k = 0
      · subst hk0
        rw [if_pos (by rfl)]
        exact tot_ok.2 ⟨by simpa using rep_nul, by simpa using hpt⟩
      rw [if_neg (by omega)]
      by_cases hks : k = (seq O t).length
      · rw [if_pos (by rw [hpt.size]; omega)]
        refine tot_ok.2 ⟨?_, ?_⟩
        · rw [hks, List.take_length]; exact hpt
        · rw [hks, List.drop_length]; exact rep_nul
      rw [if_neg (by rw [hpt.size]; omega)]
      have g1 : child false (mk O true kk o c v s h) = .ok o := rfl
      have g2 : child true (mk O true kk o c v s h) = .ok c := rfl
      rw [g1, ok_bind, g2, ok_bind, splitAt]
      obtain ⟨bo, no, so⟩ := blacken_rep ro dO (by omega)
      obtain ⟨bc, nc, sc⟩ := blacken_rep rc dc (by omega)
      have hsq' : seq O t = seq O o ++ seq O c := hsq
      by_cases h1 : k < (seq O o).length
      · rw [if_pos (by rw [so]; omega)]
        refine (ih _ _ k (by omega) bo (by omega)).bind fun p hp => ?_
        refine (merge_spec L hp.2 bc (by rw [List.length_drop]; omega)).bind fun m hm => tot_ok.2 ⟨?_, ?_⟩
        · rw [hsq', List.take_append_of_le_length (by omega)]; exact hp.1
        · rw [hsq', List.drop_append_of_le_length (by omega)]; exact hm
      rw [if_neg (by rw [so]; omega)]
      by_cases h2 : (seq O o).length < k
      · rw [if_pos (by rw [so]; omega), so]
        have e1 : (k : Int) - (seq O o).length = ((k - (seq O o).length : Nat) : Int) := by omega
        rw [e1]
        refine (ih _ _ (k - (seq O o).length) (by omega) bc (by omega)).bind fun p hp => ?_
        refine (merge_spec L bo hp.1 (by rw [List.length_take]; omega)).bind fun m hm => tot_ok.2 ⟨?_, ?_⟩
        · rw [hsq', List.take_append, List.take_of_length_le (by omega)]; exact hm
        · rw [hsq', List.drop_append, List.drop_of_length_le (by omega)]; exact hp.2
      · rw [if_neg (by rw [so]; omega)]
        have hko : k = (seq O o).length := by omega
        refine tot_ok.2 ⟨?_, ?_⟩
        · rw [hsq', hko, List.take_left]; exact bo
        · rw [hsq', hko, List.drop_left]; exact bc
    · -- a leaf
      cases hrb with
      | red a b v s z r w ha hb ca cb => exact absurd hc (by simp [color])
      | black a b v s z r w ha hb => simp only [height] at h0; have := ha.pos.1; omega
      | leaf v s z r =>
        obtain ⟨a', b', e', sa, sb, d', q'⟩ := push_spec L .black .nul .nul v s 0 z r d
        have ha' : a' = .nul := (isNul_iff _).1 sa.isNul
        have hb' : b' = .nul := (isNul_iff _).1 sb.isNul
        subst ha' hb'
        rw [e', ok_bind]
        have hpt : Rep O K P [v] (Tree.node .black .nul .nul v s 0 O.id false) := ⟨d', rfl, Or.inr ⟨_, RB.leaf ..⟩, rfl, hlen⟩
        have hq : seq O (Tree.node .black .nul .nul v s 0 z r) = [v] := rfl
        rw [hq] at hk ⊢
        by_cases hk0 : k = 0
        · subst hk0
          rw [if_pos (by rfl)]
          exact tot_ok.2 ⟨rep_nul, hpt⟩
        · have hk1 : k = 1 := by simp at hk; omega
          subst hk1
          rw [if_neg (by omega), if_pos (by rw [hpt.size]; rfl)]
          exact tot_ok.2 ⟨hpt, rep_nul⟩

theorem split_spec [DecidableEq F] (L : Lawful O K P) {t : Tree T F} {xs : List T} (k : Nat) (h : Rep O K P xs t) (hk : k ≤ xs.length) :
    Tot (split O K t k) (fun p => Rep O K P (xs.take k) p.1 ∧ Rep O K P (xs.drop k) p.2) := splitF_spec L _ t xs k (by omega) h hk

theorem splitRange_spec [DecidableEq F] (L : Lawful O K P) {t : Tree T F} {xs : List T} (l r : Nat) (h : Rep O K P xs t) (hl : l ≤ r) (hr : r ≤ xs.length) :
    Tot (splitRange O K t l r) (fun p => Rep O K P (xs.take l) p.1 ∧ Rep O K P ((xs.take r).drop l) p.2.1 ∧ Rep O K P (xs.drop r) p.2.2) := by
  rw [splitRange]
  refine (split_spec L r h hr).bind fun p hp => ?_
  refine (split_spec L l hp.1 (by rw [List.length_take]; omega)).bind fun q hq => tot_ok.2 ⟨?_, hq.2, hp.2⟩
  have := hq.1
  rwa [List.take_take, Nat.min_eq_left hl] at this

theorem merge3_spec [DecidableEq F] (L : Lawful O K P) {a b c : Tree T F} {xs ys zs : List T} (ha : Rep O K P xs a) (hb : Rep O K P ys b) (hc : Rep O K P zs c) (hlen : xs.length + ys.length + zs.length ≤ maxLen) :
    Tot (merge3 O K a b c) (Rep O K P (xs ++ ys ++ zs)) := by
  rw [merge3]
  exact (merge_spec L ha hb (by omega)).bind fun u hu => merge_spec L hu hc (by rw [List.length_append]; omega)

theorem insert_spec [DecidableEq F] (L : Lawful O K P) {t : Tree T F} {xs : List T} (k : Nat) (v : T) (h : Rep O K P xs t) (hk : k ≤ xs.length) (hlen : xs.length < maxLen) :
    Tot (insert O K t k v) (Rep O K P (xs.take k ++ v :: xs.drop k)) := by
  rw [insert]
  refine (split_spec L k h hk).bind fun p hp => (merge3_spec L hp.1 (rep_leaf v) hp.2 ?_).mono fun u hu => ?_
  · simp only [List.length_take, List.length_drop, List.length_singleton]; omega
  · simpa using hu

theorem range_one (xs : List T) (k : Nat) (hk : k < xs.length) : (xs.take (k + 1)).drop k = [xs[k]] := by
  rw [List.take_succ_eq_append_getElem hk, List.drop_append, List.drop_of_length_le (by rw [List.length_take]; exact Nat.min_le_left _ _)]
  simp [Nat.min_eq_left (Nat.le_of_lt hk)]

theorem rep_single {t : Tree T F} {x : T} (h : Rep O K P [x] t) : getVal t = .ok x ∧ ∀ y, Tot (setVal y t) (Rep O K P [y]) := by
  obtain ⟨d, q, b, c, l⟩ := h
  cases t with
  | nul => simp [RedBlack.seq] at q
  | node k a b' v s hh z r =>
    have hab : isNul a = true ∧ isNul b' = true ∧ s = 1 := by
      obtain ⟨_, _, d | d⟩ := d
      · exact d
      · exfalso
        have h1 := List.length_pos_iff.2 (d.2.2.1.seq_ne d.1)
        have h2 := List.length_pos_iff.2 (d.2.2.2.1.seq_ne d.2.1)
        rw [RedBlack.seq, d.1, d.2.1] at q
        have := congrArg List.length q
        cases r <;> simp at this <;> omega
    have ha := (isNul_iff _).1 hab.1
    have hb := (isNul_iff _).1 hab.2.1
    subst ha hb
    simp only [RedBlack.seq, isNul, Bool.and_self, if_true, List.cons.injEq, and_true] at q
    subst q
    refine ⟨rfl, fun y => tot_ok.2 ⟨⟨d.1, d.2.1, Or.inl hab⟩, rfl, ?_, c, l⟩⟩
    rcases b with b | ⟨w, b⟩
    · exact absurd b (by simp)
    · exact Or.inr ⟨w, (alike_same ..).rb w b⟩

theorem one_spec [DecidableEq F] (L : Lawful O K P) {t : Tree T F} {xs : List T} (k : Nat) (h : Rep O K P xs t) (hk : k < xs.length) :
    Tot (splitRange O K t k (k + 1)) (fun p => Rep O K P (xs.take k) p.1 ∧ Rep O K P [xs[k]] p.2.1 ∧ Rep O K P (xs.drop (k + 1)) p.2.2) := by
  have := splitRange_spec L k (k + 1) h (by omega) (by omega)
  rw [range_one xs k hk] at this
  exact this

theorem erase_spec [DecidableEq F] (L : Lawful O K P) {t : Tree T F} {xs : List T} (k : Nat) (h : Rep O K P xs t) (hk : k < xs.length) :
    Tot (erase O K t k) (fun u => Rep O K P (xs.eraseIdx k) u.1 ∧ u.2 = xs[k]) := by
  have := h.len
  rw [erase]
  refine (one_spec L k h hk).bind fun p hp => ?_
  rw [(rep_single hp.2.1).1, ok_bind]
  refine (merge_spec L hp.1 hp.2.2 ?_).bind fun u hu => tot_ok.2 ⟨?_, rfl⟩
  · simp only [List.length_take, List.length_drop]; omega
  · rw [List.eraseIdx_eq_take_drop_succ]; exact hu

theorem updateValue_spec [DecidableEq F] (L : Lawful O K P) {t : Tree T F} {xs : List T} (k : Nat) (g : T → T) (h : Rep O K P xs t) (hk : k < xs.length) :
    Tot (updateValue O K t k g) (Rep O K P (xs.modify k g)) := by
  have := h.len
  rw [updateValue]
  refine (one_spec L k h hk).bind fun p hp => ?_
  rw [(rep_single hp.2.1).1, ok_bind]
  refine ((rep_single hp.2.1).2 _).bind fun m hm => (merge3_spec L hp.1 hm hp.2.2 ?_).mono fun u hu => ?_
  · simp only [List.length_take, List.length_drop, List.length_singleton]; omega
  · rw [List.modify_eq_take_cons_drop hk]
    simpa using hu

theorem get_spec [DecidableEq F] (L : Lawful O K P) {t : Tree T F} {xs : List T} (k : Nat) (h : Rep O K P xs t) (hk : k < xs.length) :
    Tot (get O K t k) (fun u => Rep O K P xs u.1 ∧ u.2 = xs[k]) := by
  have := h.len
  rw [get]
  refine (one_spec L k h hk).bind fun p hp => ?_
  rw [(rep_single hp.2.1).1, ok_bind]
  refine (merge3_spec L hp.1 hp.2.1 hp.2.2 ?_).bind fun u hu => tot_ok.2 ⟨?_, rfl⟩
  · simp only [List.length_take, List.length_drop, List.length_singleton]; omega
  · rw [List.append_assoc, List.singleton_append, ← List.drop_eq_getElem_cons hk, List.take_append_drop] at hu
    exact hu

theorem range_join (xs : List T) (l r : Nat) (hl : l ≤ r) : xs.take l ++ (xs.take r).drop l ++ xs.drop r = xs := by
  have : xs.take l = (xs.take r).take l := by rw [List.take_take, Nat.min_eq_left hl]
  rw [this, List.take_append_drop, List.take_append_drop]

theorem range_len (xs : List T) (l r : Nat) (hl : l ≤ r) (hr : r ≤ xs.length) : (xs.take l).length + ((xs.take r).drop l).length + (xs.drop r).length = xs.length := by
  simp only [List.length_take, List.length_drop]; omega

theorem prod_spec [DecidableEq F] (L : Lawful O K P) {t : Tree T F} {xs : List T} (l r : Nat) (h : Rep O K P xs t) (hl : l ≤ r) (hr : r ≤ xs.length) :
    Tot (prod O K t l r) (fun u => Rep O K P xs u.1 ∧ (P → u.2 = prodL O ((xs.take r).drop l))) := by
  have := h.len
  rw [prod]
  refine (splitRange_spec L l r h hl hr).bind fun p hp => ?_
  refine (merge3_spec L hp.1 hp.2.1 hp.2.2 (by rw [range_len xs l r hl hr]; exact this)).bind fun u hu => tot_ok.2 ⟨?_, fun hP => ?_⟩
  · rwa [range_join xs l r hl] at hu
  · rw [hp.2.1.dat.value L hP, hp.2.1.seq]

theorem Rep.alike {t u : Tree T F} {xs ys : List T} (h : Rep O K P xs t) (a : Alike t u) (d : Dat O K P u) (q : RedBlack.seq O u = ys) (hl : ys.length = xs.length) : Rep O K P ys u := by
  refine ⟨d, q, ?_, by rw [a.col, h.col], by rw [hl]; exact h.len⟩
  rcases h.rb with rfl | ⟨w, hw⟩
  · exact Or.inl ((isNul_iff _).1 a.isNul)
  · exact Or.inr ⟨w, a.rb w hw⟩

theorem applyAll_rep (L : Lawful O K P) (hk : K.lazy = true) (f : F) {t : Tree T F} {xs : List T} (h : Rep O K P xs t) : Rep O K P (xs.map fun x => O.mapping f x 1) (applyAll O f t) := by
  obtain ⟨d, q, a⟩ := applyAll_spec L hk f t h.dat
  exact h.alike a d (by rw [q, h.seq]) (by simp)

theorem reverseAll_rep (L : Lawful O K P) (hk : K.rev = true) {t : Tree T F} {xs : List T} (h : Rep O K P xs t) : Rep O K P xs.reverse (reverseAll t) := by
  obtain ⟨d, q, a⟩ := reverseAll_spec L hk t h.dat
  exact h.alike a d (by rw [q, h.seq]) (by simp)

theorem apply_spec [DecidableEq F] (L : Lawful O K P) (hk : K.lazy = true) {t : Tree T F} {xs : List T} (l r : Nat) (f : F) (h : Rep O K P xs t) (hl : l ≤ r) (hr : r ≤ xs.length) :
    Tot (apply O K t l r f) (Rep O K P (xs.take l ++ ((xs.take r).drop l).map (fun x => O.mapping f x 1) ++ xs.drop r)) := by
  have := h.len
  have := range_len xs l r hl hr
  rw [apply]
  exact (splitRange_spec L l r h hl hr).bind fun p hp => merge3_spec L hp.1 (applyAll_rep L hk f hp.2.1) hp.2.2 (by rw [List.length_map]; omega)

theorem reverse_spec [DecidableEq F] (L : Lawful O K P) (hk : K.rev = true) {t : Tree T F} {xs : List T} (l r : Nat) (h : Rep O K P xs t) (hl : l ≤ r) (hr : r ≤ xs.length) :
    Tot (reverse O K t l r) (Rep O K P (xs.take l ++ ((xs.take r).drop l).reverse ++ xs.drop r)) := by
  have := h.len
  have := range_len xs l r hl hr
  rw [reverse]
  exact (splitRange_spec L l r h hl hr).bind fun p hp => merge3_spec L hp.1 (reverseAll_rep L hk hp.2.1) hp.2.2 (by rw [List.length_reverse]; omega)

theorem buildF_spec [DecidableEq F] (L : Lawful O K P) (a : Array T) (hlen : a.size ≤ maxLen) (fuel : Nat) : ∀ l r, l < r → r ≤ a.size → r - l < fuel →
    Tot (buildF O K a fuel l r) (Rep O K P ((a.toList.take r).drop l)) := by
  induction fuel with
  | zero => intro l r _ _ h; omega
  | succ fuel ih =>
    intro l r hlr hr hf
    rw [buildF]
    by_cases h1 : r = l + 1
    · subst h1
      rw [if_pos (by omega), rd_eq (by omega), ok_bind, range_one _ _ (by rw [Array.length_toList]; omega)]
      exact tot_ok.2 (rep_leaf _)
    · rw [if_neg (by omega)]
      refine (ih l ((l + r) / 2) (by omega) (by omega) (by omega)).bind fun x hx => ?_
      refine (ih ((l + r) / 2) r (by omega) (by omega) (by omega)).bind fun y hy => ?_
      refine (merge_spec L hx hy ?_).mono fun u hu => ?_
      · simp only [List.length_drop, List.length_take, Array.length_toList]; omega
      · have : (a.toList.take r).drop l = (a.toList.take ((l + r) / 2)).drop l ++ (a.toList.take r).drop ((l + r) / 2) := by
          have e1 : (a.toList.take r).drop l = (((a.toList.take r).drop l).take ((l + r) / 2 - l)) ++ (((a.toList.take r).drop l).drop ((l + r) / 2 - l)) := (List.take_append_drop _ _).symm
          rw [e1, List.drop_drop, List.take_drop, List.take_take]
          congr 3 <;> omega
        rw [this]
        exact hu

theorem build_spec [DecidableEq F] (L : Lawful O K P) (a : Array T) (hlen : a.size ≤ maxLen) : Tot (build O K a) (Rep O K P a.toList) := by
  rw [build]
  by_cases h : a.size = 0
  · rw [if_pos h]
    have : a.toList = [] := by rw [← List.length_eq_zero_iff]; simpa using h
    rw [this]
    exact tot_ok.2 rep_nul
  · rw [if_neg h]
    have := buildF_spec L a hlen (a.size + 1) 0 a.size (by omega) (Nat.le_refl _) (by omega)
    rw [List.drop_zero, List.take_of_length_le (by simp)] at this
    exact this

theorem made_rep [DecidableEq F] (L : Lawful O K P) {t : Tree T F} {xs : List T} (h : Made O K t xs) : Rep O K P xs t := by
  have use : ∀ {α : Type} {m : M α} {x : α} {Q : α → Prop}, m = .ok x → Tot m Q → Q x := by
    intro α m x Q e ⟨y, hy, hq⟩
    rw [e] at hy
    cases hy
    exact hq
  induction h with
  | empty => exact rep_nul
  | build a t hl e => exact use e (build_spec L a hl)
  | merge l r t xs ys _ _ hlen e hl hr => exact use e (merge_spec L hl hr hlen)
  | splitL t xs k p _ hk e h => exact (use e (split_spec L k h hk)).1
  | splitR t xs k p _ hk e h => exact (use e (split_spec L k h hk)).2
  | splitRange1 t xs l r p _ hl hr e h => exact (use e (splitRange_spec L l r h hl hr)).1
  | splitRange2 t xs l r p _ hl hr e h => exact (use e (splitRange_spec L l r h hl hr)).2.1
  | splitRange3 t xs l r p _ hl hr e h => exact (use e (splitRange_spec L l r h hl hr)).2.2
  | insert t xs k v u _ hk hl e h => exact use e (insert_spec L k v h hk hl)
  | pushFront t xs v u _ hl e h => exact use e (insert_spec L 0 v h (by omega) hl)
  | pushBack t xs v u _ hl e h =>
    rw [pushBack, h.size] at e
    have := use e (insert_spec L xs.length v h (Nat.le_refl _) hl)
    simpa using this
  | erase t xs k u _ hk e h => exact (use e (erase_spec L k h hk)).1
  | popFront t x xs u _ e h => exact (use e (erase_spec L 0 h (by simp))).1
  | popBack t x xs u _ e h =>
    rw [popBack, h.size] at e
    have e1 : ((xs ++ [x]).length : Int) - 1 = (xs.length : Nat) := by simp
    rw [e1] at e
    have := (use e (erase_spec L xs.length h (by simp))).1
    rwa [List.eraseIdx_append_of_length_le (Nat.le_refl _), Nat.sub_self, List.eraseIdx_zero, List.tail_cons, List.append_nil] at this
  | updateValue t xs k g u _ hk e h => exact use e (updateValue_spec L k g h hk)
  | get t xs k u _ hk e h => exact (use e (get_spec L k h hk)).1
  | prod t xs l r u _ hl hr e h => exact (use e (prod_spec L l r h hl hr)).1
  | apply t xs l r f u hk _ hl hr e h => exact use e (apply_spec L hk l r f h hl hr)
  | applyAll t xs f hk _ h => exact applyAll_rep L hk f h
  | reverse t xs l r u hk _ hl hr e h => exact use e (reverse_spec L hk l r h hl hr)
  | reverseAll t xs hk _ h => exact reverseAll_rep L hk h

theorem dumpGo_spec (L : Lawful O K P) (hk : K.lazy = false) (hr : K.rev = false) (t : Tree T F) : isNul t = false → Dat O K P t → dumpGo t = .ok (seq O t) := by
  induction t with
  | nul => intro h; simp [isNul] at h
  | node k a b v s hh z r iha ihb =>
    intro _ hd
    rw [dumpGo, seq]
    obtain ⟨hz, hrr, hd | hd⟩ := hd
    · rw [hd.1, hd.2.1]; rfl
    · rw [hd.1, hd.2.1, if_neg (by simp), if_neg (by simp), iha hd.1 hd.2.2.1, ok_bind, ihb hd.2.1 hd.2.2.2.1, ok_bind, hz hk, hrr hr]
      simp [L.map_id]

theorem dumpLazGo_spec (L : Lawful O K P) (t : Tree T F) : ∀ f rv, isNul t = false → Dat O K P t → dumpLazGo O t f rv = .ok ((if rv then (seq O t).reverse else seq O t).map fun x => O.mapping f x 1) := by
  induction t with
  | nul => intro f rv h; simp [isNul] at h
  | node k a b v s hh z r iha ihb =>
    intro f rv _ hd
    rw [dumpLazGo, seq]
    obtain ⟨hz, hrr, hd | hd⟩ := hd
    · rw [hd.1, hd.2.1]; simp
    · simp only [hd.1, hd.2.1, iha _ _ hd.1 hd.2.2.1, ihb _ _ hd.2.1 hd.2.2.2.1, ok_bind, Bool.and_self, Bool.false_eq_true, if_false]
      cases r <;> cases rv <;> simp [L.map_comp, Function.comp_def]

theorem dump_spec (L : Lawful O K P) (hk : K.lazy = false → K.rev = false) {t : Tree T F} {xs : List T} (h : Rep O K P xs t) : dump O K t = .ok xs := by
  rw [dump]
  cases hn : isNul t with
  | true =>
    have := (isNul_iff _).1 hn
    subst this
    rw [if_pos (by rfl), ← h.seq]
    rfl
  | false =>
    rw [if_neg (by simp)]
    by_cases hl : K.lazy = true
    · rw [if_pos hl, dumpLazGo_spec L t _ _ hn h.dat, h.seq]
      simp [L.map_id]
    · rw [if_neg hl, dumpGo_spec L (by simpa using hl) (hk (by simpa using hl)) t hn h.dat, h.seq]

/-- The number of nodes above the first black child. -/
def cw : Color → Nat
  | .red => 2
  | .black => 1

theorem rb_depth {t : Tree T F} {w : Nat} (h : RB t w) : Dat O K P t → 2 ^ (w - 1) ≤ (seq O t).length ∧ depth t ≤ 2 * (w - 1) + cw (color t) := by
  have sum : ∀ (k : Color) (a b : Tree T F) (v : T) (s h : Int) (z : F) (r : Bool), isNul a = false → (seq O (.node k a b v s h z r)).length = (seq O a).length + (seq O b).length := by
    intro k a b v s h z r ha
    rw [seq, ha]
    cases r <;> simp
  have sub : ∀ (k : Color) (a b : Tree T F) (v : T) (s h : Int) (z : F) (r : Bool), isNul a = false → Dat O K P (.node k a b v s h z r) → Dat O K P a ∧ Dat O K P b := by
    intro k a b v s h z r ha ⟨_, _, d⟩
    rcases d with d | d
    · rw [ha] at d; exact absurd d.1 (by simp)
    · exact ⟨d.2.2.1, d.2.2.2.1⟩
  induction h with
  | leaf v s z r => intro _; exact ⟨by simp [seq, isNul], by simp [depth, color, cw]⟩
  | red a b v s z r w ha hb ca cb iha ihb =>
    intro d
    obtain ⟨da, db⟩ := sub _ _ _ _ _ _ _ _ ha.isNul' d
    have i1 := iha da
    have i2 := ihb db
    rw [ca] at i1
    rw [cb] at i2
    rw [sum _ _ _ _ _ _ _ _ ha.isNul', depth]
    simp only [color, cw] at i1 i2 ⊢
    exact ⟨by omega, by omega⟩
  | black a b v s z r w ha hb iha ihb =>
    intro d
    obtain ⟨da, db⟩ := sub _ _ _ _ _ _ _ _ ha.isNul' d
    have i1 := iha da
    have i2 := ihb db
    have hw := ha.pos.1
    rw [sum _ _ _ _ _ _ _ _ ha.isNul', depth]
    have e : w + 1 - 1 = (w - 1) + 1 := by omega
    rw [e, Nat.pow_succ]
    have cwl : ∀ k, cw k ≤ 2 := fun k => by cases k <;> simp [cw]
    have c1 := cwl (color a)
    have c2 := cwl (color b)
    simp only [color, cw] at i1 i2 c1 c2 ⊢
    exact ⟨by omega, by omega⟩

theorem depth_spec {t : Tree T F} {xs : List T} (h : Rep O K P xs t) : depth t ≤ 2 * Nat.log2 xs.length + 1 := by
  rcases h.rb with rfl | ⟨w, hw⟩
  · simp [depth]
  · obtain ⟨h1, h2⟩ := rb_depth hw h.dat
    rw [h.seq] at h1
    rw [h.col, cw] at h2
    have : w - 1 ≤ Nat.log2 xs.length := by
      have h0 : xs.length ≠ 0 := by have := Nat.two_pow_pos (w - 1); omega
      exact (Nat.le_log2 h0).2 h1
    omega

theorem checkGo_spec {t : Tree T F} {w : Nat} (h : RB t w) : checkGo t = .ok (w : Int) := by
  induction h with
  | leaf v s z r => rfl
  | red a b v s z r w ha hb ca cb iha ihb =>
    rw [checkGo, ca, cb]
    simp [check_true, iha, ihb, ok_bind, pure_eq]
  | black a b v s z r w ha hb iha ihb =>
    rw [checkGo]
    simp [check_true, iha, ihb, ok_bind, pure_eq]

theorem checkProperties_spec {t : Tree T F} {xs : List T} (h : Rep O K P xs t) : checkProperties t = .ok () := by
  rw [checkProperties, h.col]
  rcases h.rb with rfl | ⟨w, hw⟩
  · rfl
  · simp [check_true, checkGo_spec hw, ok_bind, pure_eq]

end RedBlack
