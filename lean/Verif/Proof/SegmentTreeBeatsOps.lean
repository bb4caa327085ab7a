import Verif.Proof.SegmentTreeBeats

/-! # SegmentTreeBeats: the public operations -/

namespace Beats
open Cxx SegTree
open LazySegmentTree (div_pow_pos div_pow_lt forDown_empty forUp_empty str_left str_right not_str S S_up ctz_ok ctz_big Ch ch_up)

variable {T F V : Type} {p : Params T F} {In : V → Prop} {act : F → V → V} {Ok : F → Prop} {Desc : T → List V → Prop}
variable {B B' : Nat → Prop} {s s' : State T F} {t k n m lg : Nat} {g g' : Nat → V}

variable (p In act Ok Desc) in
/-- The tree represents the values `g` (leaf `x` is node `x`); nodes in `B` may be out of date. -/
structure Rep (B : Nat → Prop) (n m lg : Nat) (g : Nat → V) (s : State T F) : Prop where
  sz : Sz n m lg s
  hm : m = 2 ^ lg
  hle : n ≤ m
  loc : Loc p In act Ok Desc (n + m) B s lg 1 g

theorem Rep.m_pos (h : Rep p In act Ok Desc B n m lg g s) : 1 ≤ m := by rw [h.hm]; exact pow_pos' lg

theorem Rep.mono (h : Rep p In act Ok Desc B n m lg g s) (hB : ∀ x, 1 ≤ x → B x → B' x) : Rep p In act Ok Desc B' n m lg g s :=
  ⟨h.sz, h.hm, h.hle, h.loc.frame fun x hx => ⟨rfl, rfl, hB x (sub_le hx)⟩⟩

theorem depth (hm : m = 2 ^ lg) (h1 : m ≤ k * 2 ^ t) (h2 : (k + 1) * 2 ^ t ≤ 2 * m) : ∃ d, lg = t + d ∧ k / 2 ^ d = 1 := by
  have hk : 1 ≤ k := by
    rcases Nat.eq_zero_or_pos k with rfl | h
    · have := pow_pos' lg; omega
    · exact h
  have htl : t ≤ lg := by
    have : 2 * 2 ^ t ≤ (k + 1) * 2 ^ t := Nat.mul_le_mul_right _ (by omega)
    have h3 : 2 ^ t ≤ 2 ^ lg := by omega
    exact (Nat.pow_le_pow_iff_right (by omega)).1 h3
  obtain ⟨d, rfl⟩ := Nat.exists_eq_add_of_le htl
  refine ⟨d, rfl, div_eq_iff.2 ⟨?_, ?_⟩⟩
  · rw [hm, pow_add, mul_comm (2 ^ t)] at h1
    rw [one_mul]
    exact Nat.le_of_mul_le_mul_right h1 (pow_pos' t)
  · rw [hm, pow_add, show 2 * (2 ^ t * 2 ^ d) = ((1 + 1) * 2 ^ d) * 2 ^ t by ring] at h2
    exact Nat.le_of_mul_le_mul_right h2 (pow_pos' t)

theorem closed {Q : Nat → Prop} (hQ : ∀ x, Q x → 1 ≤ x / 2 → Q (x / 2)) {x : Nat} (hx : Q x) (e : Nat) (h1 : 1 ≤ x / 2 ^ e) : Q (x / 2 ^ e) := by
  induction e with
  | zero => simpa using hx
  | succ e ih =>
    rw [pow_succ, ← Nat.div_div_eq_div_mul] at h1 ⊢
    exact hQ _ (ih (by omega)) h1

/-- `push` changes no true value. -/
theorem push_tot (L : Law p In act Ok Desc) (h : Rep p In act Ok Desc (fun _ => False) n m lg g s) {q i : Nat} (hq1 : m ≤ q) (hq2 : q < 2 * m)
    (hi1 : 1 ≤ i) (hi : i ≤ lg) :
    Tot (push p s (q / 2 ^ i)) fun s' => Rep p In act Ok Desc (fun _ => False) n m lg g s' ∧ laz p s' (q / 2 ^ i) = p.id ∧
      (∀ x, laz p s x = p.id → (Sub (q / 2 ^ i) x → laz p s (q / 2 ^ i) = p.id) → laz p s' x = p.id) := by
  obtain ⟨k, hk⟩ : ∃ k, k = q / 2 ^ i := ⟨_, rfl⟩
  obtain ⟨t, rfl⟩ := Nat.exists_eq_add_of_le' hi1
  have hk1 : 1 ≤ k := hk ▸ div_pow_pos h.hm hq1 hi
  have hkm : k < m := hk ▸ div_pow_lt hq2 hi1
  have b1 := (div_eq_iff.1 hk.symm)
  have h1 : m ≤ k * 2 ^ (t + 1) := by
    have e : m = 2 ^ (lg - (t + 1)) * 2 ^ (t + 1) := by rw [h.hm, ← pow_add]; congr 1; omega
    rw [e]
    refine Nat.mul_le_mul_right _ ?_
    rw [hk, Nat.le_div_iff_mul_le (pow_pos' _), ← e]
    exact hq1
  have h2 : (k + 1) * 2 ^ (t + 1) ≤ 2 * m := by
    have e : 2 * m = (2 * 2 ^ (lg - (t + 1))) * 2 ^ (t + 1) := by rw [h.hm, mul_assoc, ← pow_add]; congr 2; omega
    rw [e]
    refine Nat.mul_le_mul_right _ ?_
    rw [hk, Nat.succ_le_iff, Nat.div_lt_iff_lt_mul (pow_pos' _), ← e]
    exact hq2
  rw [← hk]
  obtain ⟨d, rfl, hd⟩ := depth h.hm h1 h2
  obtain ⟨h', l1, -, z⟩ := zoom L le_rfl hd h.loc
  obtain ⟨g1, g2, g3, h0, ll, lr, g4⟩ := l1
  unfold push
  rw [h.sz.hlg]
  refine (pushWith_tot L (t := t) (B := fun _ => False) (N := n + m) (app := allApply p (t + 1 + d + 1))
    (fun {s k g f} a b c d' e f' g' => allApply_tot L (by omega) a h.m_pos b c d' e f' g') h.sz hk1 h1 h2 hkm
    (fun _ _ _ => id) ll lr g3 (fun x a b => by rw [← g4 x a b]; exact g1 x a b)).mono ?_
  rintro s' ⟨z1, l1, r1, e1, d1, m1, i1⟩
  refine ⟨⟨z1, h.hm, h.hle, ?_⟩, e1, ?_⟩
  · refine (z (fun _ => False) s' h' ?_ m1 fun _ _ => id).1 fun _ _ _ => rfl
    refine ⟨g1, fun hB => by rw [d1]; exact g2 hB, by rw [e1]; exact L.okId, _, l1, r1, fun x a b => ?_⟩
    rw [e1, ← g4 x a b, L.actId (g1 x a b)]
  · intro x hx hs
    by_cases c : Sub k x
    · exact i1 (hs c) x hx
    · rw [(m1 x c).2]; exact hx

/-- Pushing along a path from the root: afterwards the path has no pending maps. -/
theorem pushChain_tot (L : Law p In act Ok Desc) (h : Rep p In act Ok Desc (fun _ => False) n m lg g s) {q lo : Nat} (hp1 : m ≤ q)
    (hp2 : q < 2 * m ∨ lg < lo) (hlo : 1 ≤ lo) {C : Nat → Prop} (hC : ∀ x, C x → 1 ≤ x / 2 → C (x / 2)) (hCz : ∀ x, 1 ≤ x → C x → laz p s x = p.id) :
    Tot (pushChain p s q lo) fun s' => Rep p In act Ok Desc (fun _ => False) n m lg g s' ∧ ∀ x, 1 ≤ x → (C x ∨ (q < 2 * m ∧ Ch q lo x)) → laz p s' x = p.id := by
  unfold pushChain
  rw [h.sz.hlg]
  have hzero : ∀ t, lg < t → q < 2 * m → q / 2 ^ t = 0 := by
    intro t ht hp
    apply Nat.div_eq_of_lt
    have := Nat.pow_le_pow_right (n := 2) (by omega) (show lg + 1 ≤ t by omega)
    rw [pow_succ, ← h.hm] at this
    omega
  rcases Nat.lt_or_ge lg lo with hc | hc
  · rw [forDown_empty (by omega)]
    refine Tot.pure ⟨h, ?_⟩
    rintro x hx (hx' | ⟨hp, t, ht, rfl⟩)
    · exact hCz x hx hx'
    · rw [hzero t (by omega) hp] at hx; omega
  · have hp2' : q < 2 * m := by omega
    refine (Tot.forDown (P := fun i (s : State T F) => Rep p In act Ok Desc (fun _ => False) n m lg g s ∧ ∀ x, 1 ≤ x → (C x ∨ Ch q i x) → laz p s x = p.id)
      (by omega) ⟨h, ?_⟩ ?_).mono ?_
    · rintro x hx (hx' | ⟨t, ht, rfl⟩)
      · exact hCz x hx hx'
      · rw [hzero t (by omega) hp2'] at hx; omega
    · rintro i s h1 h2 ⟨h3, h4⟩
      rw [Nat.shiftRight_eq_div_pow]
      refine (push_tot L h3 hp1 hp2' (by omega) (by omega)).mono ?_
      rintro s' ⟨r1, r2, r3⟩
      refine ⟨r1, ?_⟩
      rintro x hx hx'
      by_cases e : x = q / 2 ^ i
      · rw [e]; exact r2
      · have hx'' : C x ∨ Ch q (i + 1) x := by
          rcases hx' with hx' | ⟨t, ht, rfl⟩
          · exact Or.inl hx'
          · refine Or.inr ⟨t, ?_, rfl⟩
            rcases Nat.lt_or_ge i t with h | h
            · omega
            · exact absurd (by rw [show t = i by omega]) e
        refine r3 x (h4 x hx hx'') ?_
        rintro ⟨d, hd⟩
        have hpos := div_pow_pos h3.hm hp1 (show i ≤ lg by omega)
        refine h4 _ hpos ?_
        rw [← hd] at hpos ⊢
        refine closed (Q := fun x => C x ∨ Ch q (i + 1) x) ?_ hx'' d hpos
        rintro y (hy | hy) hy1
        · exact Or.inl (hC y hy hy1)
        · exact Or.inr (ch_up hy)
    · rintro s' ⟨r1, r2⟩
      refine ⟨r1, ?_⟩
      rintro x hx (hx' | ⟨-, hx'⟩)
      · exact r2 x hx (Or.inl hx')
      · exact r2 x hx (Or.inr hx')

/-- Recomputing the nodes of a path, bottom up. -/
theorem updChain_tot (L : Law p In act Ok Desc) {C : Nat → Prop} {q lo : Nat} (h : Rep p In act Ok Desc (fun x => C x ∨ (q < 2 * m ∧ Ch q lo x)) n m lg g s)
    (hC : ∀ x, C x → C (x / 2)) (hp1 : m ≤ q)
    (hp2 : q < 2 * m ∨ lg < lo) (hlo : 1 ≤ lo) (hz : ∀ x, 1 ≤ x → x < m → q < 2 * m → Ch q lo x → laz p s x = p.id) :
    Tot (updChain p s q lo) fun s' => Rep p In act Ok Desc C n m lg g s' ∧ s'.lazy = s.lazy := by
  unfold updChain
  rw [h.sz.hlg]
  have hzero : ∀ t, lg < t → q < 2 * m → q / 2 ^ t = 0 := by
    intro t ht hp
    apply Nat.div_eq_of_lt
    have := Nat.pow_le_pow_right (n := 2) (by omega) (show lg + 1 ≤ t by omega)
    rw [pow_succ, ← h.hm] at this
    omega
  rcases Nat.lt_or_ge lg lo with hc | hc
  · rw [forUp_empty (by omega)]
    refine Tot.pure ⟨h.mono ?_, rfl⟩
    rintro x hx (hx' | ⟨hp, t, ht, rfl⟩)
    · exact hx'
    · rw [hzero t (by omega) hp] at hx; omega
  · have hp2' : q < 2 * m := by omega
    refine (Tot.forUp (P := fun i (s' : State T F) => Rep p In act Ok Desc (fun x => C x ∨ Ch q i x) n m lg g s' ∧ laz p s' = laz p s ∧ s'.lazy = s.lazy)
      (by omega) ⟨h.mono ?_, rfl, rfl⟩ ?_).mono ?_
    · rintro x - (hx | ⟨-, hx⟩)
      · exact Or.inl hx
      · exact Or.inr hx
    · rintro i s' h1 h2 ⟨h3, h4, h5⟩
      have k1 := div_pow_pos h3.hm hp1 (show i ≤ lg by omega)
      have k2 := div_pow_lt hp2' (show 1 ≤ i by omega)
      rw [Nat.shiftRight_eq_div_pow]
      obtain ⟨k, hk⟩ : ∃ k, k = q / 2 ^ i := ⟨_, rfl⟩
      obtain ⟨s2, e2, z2, d2, b2⟩ := update_eq (p := p) h3.sz k2
      have hlz : s2.lazy = s'.lazy := by
        unfold update at e2
        cases hu : SegmentTree.update p.op s'.data (q / 2 ^ i) with
        | error => rw [hu] at e2; cases e2
        | ok v => rw [hu] at e2; cases e2; rfl
      refine Tot.of_eq e2 ⟨⟨z2, h3.hm, h3.hle, ?_⟩, b2.trans h4, hlz.trans h5⟩
      obtain ⟨t, rfl⟩ := Nat.exists_eq_add_of_le' (show 1 ≤ i by omega)
      rw [← hk] at k1 k2 d2
      obtain ⟨d, hd⟩ := Nat.exists_eq_add_of_le (show t + 1 ≤ lg by omega)
      have hkd : k / 2 ^ d = 1 := by
        rw [hk, Nat.div_div_eq_div_mul, ← pow_add, ← hd]
        refine div_eq_iff.2 ⟨?_, ?_⟩
        · rw [one_mul, ← h.hm]; exact hp1
        · rw [← h.hm]; omega
      have hl := h3.loc
      subst hd
      refine update_loc L le_rfl hkd hl (fun hBk => ⟨?_, ?_, ?_⟩) (fun x hx => ?_) d2 b2
      · rw [h4]
        exact hz k k1 k2 hp2' ⟨t + 1, h1, hk⟩
      · rintro (hx | ⟨e, he, hx⟩)
        · exact hBk (Or.inl (by have := hC _ hx; rwa [show 2 * k / 2 = k by omega] at this))
        · obtain ⟨c, rfl⟩ := Nat.exists_eq_add_of_le he
          rw [pow_add, ← Nat.div_div_eq_div_mul, ← hk] at hx
          have := Nat.div_le_self k (2 ^ c)
          omega
      · rintro (hx | ⟨e, he, hx⟩)
        · exact hBk (Or.inl (by have := hC _ hx; rwa [show (2 * k + 1) / 2 = k by omega] at this))
        · obtain ⟨c, rfl⟩ := Nat.exists_eq_add_of_le he
          rw [pow_add, ← Nat.div_div_eq_div_mul, ← hk] at hx
          have := Nat.div_le_self k (2 ^ c)
          omega
      · rintro (hx' | ⟨e, he, rfl⟩)
        · exact Or.inl hx'
        · refine Or.inr ⟨e, ?_, rfl⟩
          rcases Nat.lt_or_ge (t + 1) e with h | h
          · exact h
          · exact absurd (by rw [hk, show e = t + 1 by omega]) hx
    · rintro s' ⟨r1, -, r2⟩
      refine ⟨r1.mono ?_, r2⟩
      rintro x hx (hx' | ⟨t, ht, rfl⟩)
      · exact hx'
      · rw [hzero t (by omega) hp2'] at hx; omega

theorem pushTo2_tot (L : Law p In act Ok Desc) (h : Rep p In act Ok Desc (fun _ => False) n m lg g s) {l r : Nat} (hl : l ≤ m) (hr : r ≤ m) :
    Tot (pushTo2 p s l r) fun s' => Rep p In act Ok Desc (fun _ => False) n m lg g s' ∧ ∀ x, 1 ≤ x → S (l + m) (r + m) x → laz p s' x = p.id := by
  have hm1 := h.m_pos
  have hm := h.hm
  unfold pushTo2
  rw [h.sz.hsm]
  dsimp only
  obtain ⟨ql, cl, el, hql⟩ := ctz_ok (x := l + m) (by omega)
  obtain ⟨qr, cr, er, hqr⟩ := ctz_ok (x := r + m) (by omega)
  rw [el, ok_bind, er, ok_bind]
  refine Tot.bind (pushChain_tot L h (q := l + m) (by omega) (ctz_big hm hql (by omega) (by omega)) (by omega) (C := fun _ => False)
    (fun _ hx _ => hx) (fun _ _ hx => hx.elim)) ?_
  rintro s1 ⟨h1, z1⟩
  refine (pushChain_tot L h1 (q := r + m) (by omega) (ctz_big hm hqr (by omega) (by omega)) (by omega) (C := Str (l + m))
    (fun _ hx _ => str_up hx) (fun x hx hs => ?_)).mono ?_
  · exact z1 x hx (Or.inr ⟨str_lt hm (by omega) hx hs, (str_iff_chain hql).1 hs⟩)
  · rintro s2 ⟨h2, z2⟩
    refine ⟨h2, ?_⟩
    rintro x hx (hs | hs)
    · exact z2 x hx (Or.inl hs)
    · exact z2 x hx (Or.inr ⟨str_lt hm (by omega) hx hs, (str_iff_chain hqr).1 hs⟩)

theorem updateFrom2_tot (L : Law p In act Ok Desc) {l r : Nat} (h : Rep p In act Ok Desc (S (l + m) (r + m)) n m lg g s) (hl : l ≤ m) (hr : r ≤ m)
    (hz : ∀ x, 1 ≤ x → S (l + m) (r + m) x → laz p s x = p.id) :
    Tot (updateFrom2 p s l r) fun s' => Rep p In act Ok Desc (fun _ => False) n m lg g s' := by
  have hm1 := h.m_pos
  have hm := h.hm
  unfold updateFrom2
  rw [h.sz.hsm]
  dsimp only
  obtain ⟨ql, cl, el, hql⟩ := ctz_ok (x := l + m) (by omega)
  obtain ⟨qr, cr, er, hqr⟩ := ctz_ok (x := r + m) (by omega)
  rw [el, ok_bind, er, ok_bind]
  refine Tot.bind (updChain_tot L (C := Str (r + m)) (q := l + m) (lo := cl + 1) (h.mono ?_) (fun _ => str_up) (by omega) (ctz_big hm hql (by omega) (by omega))
    (by omega) ?_) ?_
  · rintro k h1 (h3 | h3)
    · exact Or.inr ⟨str_lt hm (by omega) h1 h3, (str_iff_chain hql).1 h3⟩
    · exact Or.inl h3
  · rintro x h1 h2 - h3
    exact hz x h1 (Or.inl ((str_iff_chain hql).2 h3))
  · rintro s1 ⟨h1, e1⟩
    refine (updChain_tot L (C := fun _ => False) (q := r + m) (lo := cr + 1) (h1.mono ?_) (fun _ => id) (by omega) (ctz_big hm hqr (by omega) (by omega))
      (by omega) ?_).mono fun s2 h2 => h2.1
    · rintro k g1 g3
      exact Or.inr ⟨str_lt hm (by omega) g1 g3, (str_iff_chain hqr).1 g3⟩
    · rintro x g1 g2 - g3
      show at' p.id s1.lazy x = _
      rw [e1]
      exact hz x g1 (Or.inr ((str_iff_chain hqr).2 g3))

/-- `all_apply` on a node whose ancestors have no pending maps applies the map to the leaves below it. -/
theorem applyNode_tot (L : Law p In act Ok Desc) {Q : Nat → Prop} (h : Rep p In act Ok Desc Q n m lg g s) (hQ : ∀ x, Q x → Q (x / 2))
    (hz : ∀ x, 1 ≤ x → Q x → laz p s x = p.id) (h1 : m ≤ k * 2 ^ t) (h2 : (k + 1) * 2 ^ t ≤ 2 * m) (hk : ¬ Q k) (hk2 : Q (k / 2))
    {f : F} (ok : Ok f) (hin : ∀ x, x / 2 ^ t = k → x < n + m → In (act f (g x))) :
    Tot (allApply p (s.lg + 1) s k f) fun s' => (∀ x, 1 ≤ x → Q x → laz p s' x = p.id) ∧
      Rep p In act Ok Desc Q n m lg (fun x => if x / 2 ^ t = k then act f (g x) else g x) s' := by
  obtain ⟨d, rfl, hd⟩ := depth h.hm h1 h2
  have hQQ : ∀ (j x : Nat), Q x → Q (x / 2 ^ j) := by
    intro j x hx
    induction j with
    | zero => simpa using hx
    | succ j ih => rw [pow_succ, ← Nat.div_div_eq_div_mul]; exact hQ _ ih
  have anc : ∀ j, 1 ≤ j → Q (k / 2 ^ j) := by
    intro j hj
    obtain ⟨c, rfl⟩ := Nat.exists_eq_add_of_le hj
    have := hQQ c _ hk2
    rwa [Nat.div_div_eq_div_mul, ← pow_one 2, ← pow_mul, ← pow_add, one_mul] at this
  have pos : ∀ j, j ≤ d → 1 ≤ k / 2 ^ j := by
    intro j hj
    obtain ⟨c, rfl⟩ := Nat.exists_eq_add_of_le hj
    rw [pow_add, ← Nat.div_div_eq_div_mul] at hd
    have := Nat.div_le_self (k / 2 ^ j) (2 ^ c)
    omega
  have hQs : ∀ x, Sub k x → ¬ Q x := by
    rintro x ⟨e, rfl⟩ hx
    exact hk (hQQ e x hx)
  obtain ⟨h', l1, e1, z⟩ := zoom L le_rfl hd h.loc
  have hid : ∀ j, 1 ≤ j → j ≤ d → laz p s (k / 2 ^ j) = p.id := fun j a b => hz _ (pos j b) (anc j a)
  have e1 := e1 hid
  rw [h.sz.hlg]
  refine (allApply_tot L (by omega) h.sz h.m_pos h1 h2 hQs ok (l1.congr e1) hin).mono ?_
  rintro s' ⟨z1, l2, m1, -⟩
  refine ⟨fun x hx hx' => ?_, z1, h.hm, h.hle, ?_⟩
  · rw [(m1 x fun hs => hQs x hs hx').2]
    exact hz x hx hx'
  · exact (z Q s' _ l2 m1 fun _ _ => id).2 fun j a b => ⟨hid j a b, anc j a⟩

theorem applyLoop_tot (L : Law p In act Ok Desc) {l0 r0 : Nat} (h : Rep p In act Ok Desc (S l0 r0) n m lg g s) (hl : m ≤ l0) (hlr : l0 ≤ r0) (hr : r0 ≤ n + m)
    (hz : ∀ x, 1 ≤ x → S l0 r0 x → laz p s x = p.id) {φ : F} (ok : Ok φ) (hin : ∀ x, l0 ≤ x → x < r0 → In (act φ (g x))) {fuel : Nat} (hf : r0 ≤ fuel) :
    Tot (loop (applyStep p φ) fuel (l0, r0, s)) fun q => (∀ x, 1 ≤ x → S l0 r0 x → laz p q.2.2 x = p.id) ∧
      Rep p In act Ok Desc (S l0 r0) n m lg (fun x => if l0 ≤ x ∧ x < r0 then act φ (g x) else g x) q.2.2 := by
  have hle := h.hle
  have hm1 := h.m_pos
  have hm := h.hm
  refine Tot.loop (P := fun q : Nat × Nat × State T F => 1 ≤ q.1 ∧ q.1 ≤ q.2.1 ∧
    (∀ x, 1 ≤ x → S l0 r0 x → laz p q.2.2 x = p.id) ∧ ∃ t, l0 ≤ q.1 * 2 ^ t ∧ q.1 * 2 ^ t < l0 + 2 ^ t ∧
      q.2.1 * 2 ^ t ≤ r0 ∧ r0 < (q.2.1 + 1) * 2 ^ t ∧
      Rep p In act Ok Desc (S l0 r0) n m lg (fun x => if (l0 ≤ x ∧ x < q.1 * 2 ^ t) ∨ (q.2.1 * 2 ^ t ≤ x ∧ x < r0) then act φ (g x) else g x) q.2.2)
    (fun q => q.2.1) ?_ ⟨by om, hlr, hz, 0, by simp, by simp, by simp, by simp, ?_⟩ hf
  swap
  · dsimp only
    convert h using 2 with i
    simp only [pow_zero, mul_one]
    rw [if_neg (by omega)]
  rintro ⟨l, r, s⟩ ⟨h1, h2, hz, t, ht1, ht2, ht3, ht4, h⟩
  dsimp only at h1 h2 ht1 ht2 ht3 ht4 hz h
  unfold applyStep
  dsimp only
  split
  case isFalse hlt =>
    have : l = r := by omega
    subst this
    refine Tot.pure ⟨hz, ?_⟩
    convert h using 2 with i
    by_cases c : l0 ≤ i ∧ i < r0
    · rw [if_pos c, if_pos (by omega)]
    · rw [if_neg c, if_neg (by omega)]
  case isTrue hlt =>
    have hpos := pow_pos' t
    have hle' : (l + 1) * 2 ^ t ≤ r * 2 ^ t := Nat.mul_le_mul_right _ hlt
    have el : (l + 1) * 2 ^ t = l * 2 ^ t + 2 ^ t := by ring
    have A : Tot (applyL p φ s l) (fun q : Nat × State T F => q.1 = l + l % 2 ∧ (∀ x, 1 ≤ x → S l0 r0 x → laz p q.2 x = p.id) ∧
        Rep p In act Ok Desc (S l0 r0) n m lg (fun x => if (l0 ≤ x ∧ x < q.1 * 2 ^ t) ∨ (r * 2 ^ t ≤ x ∧ x < r0) then act φ (g x) else g x) q.2) := by
      unfold applyL
      split
      next ho =>
        have hS : S l0 r0 (l / 2) := Or.inl (str_left ht1 ht2 ho)
        have nS : ¬ S l0 r0 l := by
          rintro (hS | hS)
          · exact not_str (t := t) hm h1 (by omega) (by omega) hl (by omega) (Or.inl ht1) hS
          · exact not_str (t := t) hm h1 (by omega) (by omega) (by omega) (by omega) (Or.inr (by omega)) hS
        refine Tot.bind (applyNode_tot L (t := t) h (fun _ => S_up) hz (by omega) (by omega) nS hS ok fun x hx _ => ?_) ?_
        · obtain ⟨a, b⟩ := div_eq_iff.1 hx
          rw [if_neg (by omega)]
          exact hin x (by omega) (by omega)
        rintro s' ⟨g1, g2⟩
        refine Tot.pure ⟨by om, g1, ?_⟩
        dsimp only
        convert g2 using 2 with i
        have := div_eq_iff (x := i) (t := t) (k := l)
        by_cases c : i / 2 ^ t = l
        · rw [if_pos c, if_pos (by omega), if_neg (by omega)]
        · rw [if_neg c]
          congr 1
          simp only [eq_iff_iff]
          omega
      next ho => exact Tot.pure ⟨by om, hz, h⟩
    refine Tot.bind A ?_
    rintro ⟨l', s'⟩ ⟨e1, hz', h'⟩
    dsimp only at e1 hz' h' ⊢
    have hl' : l' ≤ r := by omega
    have hll : l * 2 ^ t ≤ l' * 2 ^ t := Nat.mul_le_mul_right _ (by omega)
    have hll2 : l' * 2 ^ t ≤ (l + 1) * 2 ^ t := Nat.mul_le_mul_right _ (by omega)
    have R : Tot (applyR p φ s' r) (fun q : Nat × State T F => q.1 = r - r % 2 ∧ (∀ x, 1 ≤ x → S l0 r0 x → laz p q.2 x = p.id) ∧
        Rep p In act Ok Desc (S l0 r0) n m lg (fun x => if (l0 ≤ x ∧ x < l' * 2 ^ t) ∨ (q.1 * 2 ^ t ≤ x ∧ x < r0) then act φ (g x) else g x) q.2) := by
      unfold applyR
      split
      next ho =>
        have hS : S l0 r0 ((r - 1) / 2) := Or.inr (str_right ht3 ht4 ho)
        have er : r * 2 ^ t = (r - 1) * 2 ^ t + 2 ^ t := by
          conv_lhs => rw [show r = (r - 1) + 1 by omega]
          ring
        have er' : (r - 1 + 1) * 2 ^ t = r * 2 ^ t := by congr 1; omega
        have h3 : l' * 2 ^ t ≤ (r - 1) * 2 ^ t := Nat.mul_le_mul_right _ (by omega)
        have nS : ¬ S l0 r0 (r - 1) := by
          rintro (hS | hS)
          · exact not_str (t := t) hm (by omega) (by omega) (by omega) hl (by omega) (Or.inl (by omega)) hS
          · exact not_str (t := t) hm (by omega) (by omega) (by omega) (by omega) (by omega) (Or.inr (by omega)) hS
        refine Tot.bind (applyNode_tot L (k := r - 1) (t := t) h' (fun _ => S_up) hz' (by omega) (by omega) nS hS ok fun x hx _ => ?_) ?_
        · obtain ⟨a, b⟩ := div_eq_iff.1 hx
          rw [if_neg (by omega)]
          exact hin x (by omega) (by omega)
        rintro s'' ⟨g1, g2⟩
        refine Tot.pure ⟨by om, g1, ?_⟩
        dsimp only
        convert g2 using 2 with i
        have := div_eq_iff (x := i) (t := t) (k := r - 1)
        by_cases c : i / 2 ^ t = r - 1
        · rw [if_pos c, if_pos (by omega), if_neg (by omega)]
        · rw [if_neg c]
          congr 1
          simp only [eq_iff_iff]
          omega
      next ho => exact Tot.pure ⟨by om, hz', h'⟩
    refine Tot.bind R ?_
    rintro ⟨r', s''⟩ ⟨e3, hz'', h''⟩
    dsimp only at e3 hz'' h'' ⊢
    have q1 : l' / 2 * 2 ^ (t + 1) = l' * 2 ^ t := by
      conv_rhs => rw [show l' = 2 * (l' / 2) by omega]
      ring
    have q2 : r' / 2 * 2 ^ (t + 1) = r' * 2 ^ t := by
      conv_rhs => rw [show r' = 2 * (r' / 2) by omega]
      ring
    have q3 : (r' / 2 + 1) * 2 ^ (t + 1) = (r' + 2) * 2 ^ t := by
      conv_rhs => rw [show r' = 2 * (r' / 2) by omega]
      ring
    have q4 : r' * 2 ^ t ≤ r * 2 ^ t := Nat.mul_le_mul_right _ (by omega)
    have q5 : (r + 1) * 2 ^ t ≤ (r' + 2) * 2 ^ t := Nat.mul_le_mul_right _ (by omega)
    have q6 : 2 ^ (t + 1) = 2 * 2 ^ t := by ring
    refine Tot.pure ⟨⟨by om, by om, hz'', t + 1, ?_, ?_, ?_, ?_, ?_⟩, by om⟩
    · dsimp only; omega
    · dsimp only; omega
    · dsimp only; omega
    · dsimp only; omega
    · dsimp only
      rw [q1, q2]
      exact h''

theorem apply_tot (L : Law p In act Ok Desc) (h : Rep p In act Ok Desc (fun _ => False) n m lg g s) {l r : Nat} (hl : l ≤ r) (hr : r ≤ n) {φ : F}
    (ok : Ok φ) (hin : ∀ x, l + m ≤ x → x < r + m → In (act φ (g x))) :
    Tot (apply p s l r φ) (Rep p In act Ok Desc (fun _ => False) n m lg fun x => if l + m ≤ x ∧ x < r + m then act φ (g x) else g x) := by
  have hm1 := h.m_pos
  have hle := h.hle
  unfold apply
  rw [h.sz.hn, decide_eq_true ⟨hl, hr⟩, check_true, ok_bind]
  refine Tot.bind (pushTo2_tot L h (by omega) (by omega)) ?_
  rintro s1 ⟨h1, z1⟩
  dsimp only
  rw [h1.sz.hsm]
  refine Tot.bind (applyLoop_tot L (l0 := l + m) (r0 := r + m) (h1.mono fun _ _ hx => hx.elim) (by omega) (by omega) (by omega) z1 ok hin le_rfl) ?_
  rintro ⟨_, _, s2⟩ ⟨z2, h2⟩
  exact updateFrom2_tot L h2 (by omega) (by omega) z2

/-- The values of a range of leaves. -/
def rl (g : Nat → V) (a b : Nat) : List V := (List.range' a (b - a)).map g

theorem rl_append (g : Nat → V) {a b c : Nat} (h1 : a ≤ b) (h2 : b ≤ c) : rl g a b ++ rl g b c = rl g a c := by
  unfold rl
  rw [← List.map_append]
  have := List.range'_append (s := a) (m := b - a) (n := c - b) (step := 1)
  rw [show a + 1 * (b - a) = b by omega, show b - a + (c - b) = c - a by omega] at this
  rw [this]

theorem rl_self (g : Nat → V) (a : Nat) : rl g a a = [] := by simp [rl]

theorem mem_rl {g : Nat → V} {a b : Nat} {v : V} : v ∈ rl g a b ↔ ∃ x, a ≤ x ∧ x < b ∧ g x = v := by
  unfold rl
  simp only [List.mem_map, List.mem_range'_1]
  constructor
  · rintro ⟨x, ⟨h1, h2⟩, rfl⟩
    exact ⟨x, h1, by omega, rfl⟩
  · rintro ⟨x, h1, h2, rfl⟩
    exact ⟨x, ⟨h1, by omega⟩, rfl⟩

theorem vals_rl {N : Nat} (h : (k + 1) * 2 ^ t ≤ N) : vals N g k t = rl g (k * 2 ^ t) ((k + 1) * 2 ^ t) := by
  unfold vals rl
  have e : (k + 1) * 2 ^ t = k * 2 ^ t + 2 ^ t := by ring
  rw [List.filter_eq_self.2, show (k + 1) * 2 ^ t - k * 2 ^ t = 2 ^ t by rw [e, Nat.add_sub_cancel_left]]
  intro x hx
  rw [List.mem_range'_1] at hx
  exact decide_eq_true (by omega)

theorem Rep.inr (h : Rep p In act Ok Desc B n m lg g s) {x : Nat} (h1 : m ≤ x) (h2 : x < n + m) : In (g x) := by
  have hle := h.hle
  refine h.loc.inr x (div_eq_iff.2 ⟨?_, ?_⟩) h2
  · rw [one_mul, ← h.hm]; exact h1
  · rw [← h.hm]; omega

/-- A node without pending maps above it describes the leaves below it. -/
theorem Rep.node (L : Law p In act Ok Desc) (h : Rep p In act Ok Desc (fun _ => False) n m lg g s) {Q : Nat → Prop} (hQ : ∀ x, Q x → Q (x / 2))
    (hz : ∀ x, 1 ≤ x → Q x → laz p s x = p.id) (h1 : m ≤ k * 2 ^ t) (h2 : (k + 1) * 2 ^ t ≤ n + m) (hk2 : Q (k / 2)) :
    Desc (dat p s k) (rl g (k * 2 ^ t) ((k + 1) * 2 ^ t)) := by
  have hle := h.hle
  obtain ⟨d, rfl, hd⟩ := depth h.hm h1 (by omega)
  have hQQ : ∀ (j x : Nat), Q x → Q (x / 2 ^ j) := by
    intro j x hx
    induction j with
    | zero => simpa using hx
    | succ j ih => rw [pow_succ, ← Nat.div_div_eq_div_mul]; exact hQ _ ih
  obtain ⟨h', l1, e1, -⟩ := zoom L le_rfl hd h.loc
  rw [← vals_rl h2]
  refine (l1.congr (e1 fun j j1 j2 => hz _ ?_ ?_)).desc id
  · obtain ⟨c, rfl⟩ := Nat.exists_eq_add_of_le j2
    rw [pow_add, ← Nat.div_div_eq_div_mul] at hd
    have := Nat.div_le_self (k / 2 ^ j) (2 ^ c)
    omega
  · obtain ⟨c, rfl⟩ := Nat.exists_eq_add_of_le j1
    have := hQQ c _ hk2
    rwa [Nat.div_div_eq_div_mul, ← pow_one 2, ← pow_mul, ← pow_add, one_mul] at this

theorem prod_tot (L : Law p In act Ok Desc) (h : Rep p In act Ok Desc (fun _ => False) n m lg g s) {l r : Nat} (hl : l ≤ r) (hr : r ≤ n) :
    Tot (prod p s l r) fun q => Rep p In act Ok Desc (fun _ => False) n m lg g q.1 ∧ Desc q.2 (rl g (l + m) (r + m)) := by
  have hm1 := h.m_pos
  have hle := h.hle
  unfold prod
  rw [h.sz.hn, decide_eq_true ⟨hl, hr⟩, check_true, ok_bind]
  refine Tot.bind (pushTo2_tot L h (by omega) (by omega)) ?_
  rintro s1 ⟨h1, z1⟩
  dsimp only
  rw [h1.sz.hsm]
  have hsz := h1.sz.hsz
  have hIn : ∀ {a b}, m ≤ a → b ≤ n + m → ∀ v ∈ rl g a b, In v := by
    intro a b ha hb v hv
    obtain ⟨x, x1, x2, rfl⟩ := mem_rl.1 hv
    exact h1.inr (by omega) (by omega)
  obtain ⟨l0, hl0⟩ : ∃ l0, l0 = l + m := ⟨_, rfl⟩
  obtain ⟨r0, hr0⟩ : ∃ r0, r0 = r + m := ⟨_, rfl⟩
  rw [← hl0, ← hr0] at z1 ⊢
  refine Tot.bind (P := fun q : Nat × Nat × T × T => Desc (p.op q.2.2.1 q.2.2.2) (rl g l0 r0)) (Tot.loop (P := fun q : Nat × Nat × T × T => q.1 ≤ q.2.1 ∧ ∃ t, l0 ≤ q.1 * 2 ^ t ∧ q.1 * 2 ^ t < l0 + 2 ^ t ∧
      q.2.1 * 2 ^ t ≤ r0 ∧ r0 < (q.2.1 + 1) * 2 ^ t ∧ Desc q.2.2.1 (rl g l0 (q.1 * 2 ^ t)) ∧ Desc q.2.2.2 (rl g (q.2.1 * 2 ^ t) r0)) (fun q => q.2.1) ?_
      ⟨by om, 0, by simp, by simp, by simp, by simp, by simp [rl_self, L.e], by simp [rl_self, L.e]⟩ le_rfl) ?_
  swap
  · rintro ⟨_, _, a, b⟩ hab
    exact Tot.pure ⟨h1, hab⟩
  rintro ⟨l, r, a, b⟩ ⟨h2, t, ht1, ht2, ht3, ht4, da, db⟩
  dsimp only at h2 ht1 ht2 ht3 ht4 da db
  unfold SegmentTree.prodStep
  dsimp only
  have hpos := pow_pos' t
  have hlr' : l * 2 ^ t ≤ r * 2 ^ t := Nat.mul_le_mul_right _ h2
  split
  case isFalse hlt =>
    have : l = r := by omega
    subst this
    refine Tot.pure ?_
    show Desc (p.op a b) _
    rw [← rl_append g (a := l0) (b := l * 2 ^ t) (c := r0) (by omega) (by omega)]
    exact L.op (hIn (by omega) (by omega)) (hIn (by omega) (by omega)) da db
  case isTrue hlt =>
    have hle' : (l + 1) * 2 ^ t ≤ r * 2 ^ t := Nat.mul_le_mul_right _ hlt
    have el : (l + 1) * 2 ^ t = l * 2 ^ t + 2 ^ t := by ring
    have l2m : l < 2 * m := by
      have : l * 1 ≤ l * 2 ^ t := Nat.mul_le_mul_left _ hpos
      omega
    have A : Tot (SegmentTree.takeL p.op s1.data l a) (fun q : Nat × T => q.1 = l + l % 2 ∧ Desc q.2 (rl g l0 (q.1 * 2 ^ t))) := by
      unfold SegmentTree.takeL
      split
      next ho =>
        rw [rd_at p.e (by omega), ok_bind]
        refine Tot.pure ⟨by om, ?_⟩
        dsimp only
        rw [← rl_append g (a := l0) (b := l * 2 ^ t) (by omega) (by omega)]
        exact L.op (hIn (by omega) (by omega)) (hIn (by omega) (by omega)) da
          (h1.node L (Q := S l0 r0) (fun _ => S_up) z1 (by omega) (by omega) (Or.inl (str_left ht1 ht2 ho)))
      next ho => exact Tot.pure ⟨by om, da⟩
    refine Tot.bind A ?_
    rintro ⟨l', a'⟩ ⟨e1, da'⟩
    dsimp only at e1 da' ⊢
    have hl' : l' ≤ r := by omega
    have hll : l * 2 ^ t ≤ l' * 2 ^ t := Nat.mul_le_mul_right _ (by omega)
    have hll2 : l' * 2 ^ t ≤ (l + 1) * 2 ^ t := Nat.mul_le_mul_right _ (by omega)
    have R : Tot (SegmentTree.takeR p.op s1.data r b) (fun q : Nat × T => q.1 = r - r % 2 ∧ Desc q.2 (rl g (q.1 * 2 ^ t) r0)) := by
      unfold SegmentTree.takeR
      split
      next ho =>
        have er : r * 2 ^ t = (r - 1) * 2 ^ t + 2 ^ t := by
          conv_lhs => rw [show r = (r - 1) + 1 by omega]
          ring
        have er' : (r - 1 + 1) * 2 ^ t = r * 2 ^ t := by congr 1; omega
        have h3 : l' * 2 ^ t ≤ (r - 1) * 2 ^ t := Nat.mul_le_mul_right _ (by omega)
        have r2m : r - 1 < 2 * m := by
          have : (r - 1) * 1 ≤ (r - 1) * 2 ^ t := Nat.mul_le_mul_left _ hpos
          omega
        rw [rd_at p.e (by omega), ok_bind]
        refine Tot.pure ⟨by om, ?_⟩
        dsimp only
        rw [← rl_append g (a := (r - 1) * 2 ^ t) (b := r * 2 ^ t) (by omega) (by omega)]
        have hn := h1.node L (k := r - 1) (t := t) (Q := S l0 r0) (fun _ => S_up) z1 (by omega) (by omega) (Or.inr (str_right ht3 ht4 ho))
        rw [er'] at hn
        exact L.op (hIn (by omega) (by omega)) (hIn (by omega) (by omega)) hn db
      next ho => exact Tot.pure ⟨by om, db⟩
    refine Tot.bind R ?_
    rintro ⟨r', b'⟩ ⟨e3, db'⟩
    dsimp only at e3 db' ⊢
    have q1 : l' / 2 * 2 ^ (t + 1) = l' * 2 ^ t := by
      conv_rhs => rw [show l' = 2 * (l' / 2) by omega]
      ring
    have q2 : r' / 2 * 2 ^ (t + 1) = r' * 2 ^ t := by
      conv_rhs => rw [show r' = 2 * (r' / 2) by omega]
      ring
    have q3 : (r' / 2 + 1) * 2 ^ (t + 1) = (r' + 2) * 2 ^ t := by
      conv_rhs => rw [show r' = 2 * (r' / 2) by omega]
      ring
    have q4 : r' * 2 ^ t ≤ r * 2 ^ t := Nat.mul_le_mul_right _ (by omega)
    have q5 : (r + 1) * 2 ^ t ≤ (r' + 2) * 2 ^ t := Nat.mul_le_mul_right _ (by omega)
    have q6 : 2 ^ (t + 1) = 2 * 2 ^ t := by ring
    refine Tot.pure ⟨⟨by om, t + 1, ?_, ?_, ?_, ?_, ?_, ?_⟩, by om⟩
    · dsimp only; omega
    · dsimp only; omega
    · dsimp only; omega
    · dsimp only; omega
    · dsimp only; rw [q1]; exact da'
    · dsimp only; rw [q2]; exact db'

/-- A tree without pending maps, whose leaves are right and whose other nodes may be out of date. -/
theorem init_loc (L : Law p In act Ok Desc) {N : Nat} (hz : ∀ x, laz p s x = p.id) (hB : ∀ x, ¬ B x → m ≤ x)
    (hin : ∀ x, m ≤ x → x < N → In (g x)) (hleaf : ∀ x, m ≤ x → x < 2 * m → Desc (dat p s x) (vals N g x 0)) (hm1 : 1 ≤ m)
    (t k : Nat) (h1 : m ≤ k * 2 ^ t) (h2 : (k + 1) * 2 ^ t ≤ 2 * m) : Loc p In act Ok Desc N B s t k g := by
  induction t generalizing k with
  | zero =>
    simp only [pow_zero, mul_one] at h1 h2
    exact ⟨fun x a b => hin x (by simp at a; omega) b, fun _ => hleaf k h1 (by omega)⟩
  | succ t ih =>
    have hpt := pow_pos' t
    have eD : (k + 1) * 2 ^ (t + 1) = 2 * ((k + 1) * 2 ^ t) := by ring
    have eA : 2 * k * 2 ^ t = k * 2 ^ (t + 1) := by ring
    have eB : (2 * k + 1) * 2 ^ t = k * 2 ^ (t + 1) + 2 ^ t := by ring
    have eC : (2 * k + 1 + 1) * 2 ^ t = 2 * ((k + 1) * 2 ^ t) := by ring
    have eE : (k + 1) * 2 ^ t = k * 2 ^ t + 2 ^ t := by ring
    have eF : k * 2 ^ (t + 1) = 2 * (k * 2 ^ t) := by ring
    have hkm' : (k + 1) * 1 ≤ (k + 1) * 2 ^ t := Nat.mul_le_mul_left _ hpt
    have hi : ∀ x, x / 2 ^ (t + 1) = k → x < N → In (g x) := fun x a b => hin x (by have := (div_eq_iff.1 a).1; omega) b
    refine ⟨hi, fun hBk => absurd (hB k hBk) (by omega), by rw [hz]; exact L.okId, g, ih (2 * k) (by omega) (by omega), ih (2 * k + 1) (by omega) (by omega), fun x a b => ?_⟩
    rw [hz, L.actId (hi x a b)]

theorem ofVector_tot (L : Law p In act Ok Desc) (a : Array T) (f : Nat → V) (hin : ∀ i, i < a.size → In (f i))
    (ha : ∀ i, i < a.size → Desc (at' p.e a i) [f i]) : Tot (ofVector p a) fun s => ∃ m lg,
    Rep p In act Ok Desc (fun _ => False) a.size m lg (fun x => f (x - m)) s := by
  unfold ofVector
  refine Tot.bind (ceilPow2_tot' a.size) ?_
  rintro m ⟨h1, ⟨j, hj⟩, -⟩
  have hm1 : 1 ≤ m := by rw [hj]; exact pow_pos' j
  have hc : Bits.ctz m = .ok j := by
    have := ctz_eq 0 j
    rw [Nat.mul_zero, Nat.zero_add, Nat.one_mul] at this
    rw [hj, this]
  rw [hc, ok_bind]
  have hr : ∀ k, at' p.e (Array.replicate (2 * m) p.e) k = p.e := by
    intro k
    unfold at'
    rw [Array.getElem?_replicate]
    split <;> rfl
  have hr' : ∀ k, at' p.id (Array.replicate m p.id) k = p.id := by
    intro k
    unfold at'
    rw [Array.getElem?_replicate]
    split <;> rfl
  have leaf : Tot (forUp 0 a.size (Array.replicate (2 * m) p.e) fun i data => do wr data (m + i) (← rd a i)) fun d =>
      d.size = 2 * m ∧ ∀ x, m ≤ x → at' p.e d x = at' p.e a (x - m) := by
    refine (Tot.forUp (P := fun i (d : Array T) => d.size = 2 * m ∧ ∀ x, m ≤ x → at' p.e d x = if x - m < i then at' p.e a (x - m) else p.e)
      (Nat.zero_le _) ⟨by simp, fun x _ => by rw [hr, if_neg (by omega)]⟩ ?_).mono ?_
    · rintro i d - h3 ⟨h4, h5⟩
      rw [rd_at p.e h3, ok_bind, wr_eq (by omega)]
      refine Tot.pure ⟨by simpa using h4, fun x hx => ?_⟩
      rw [at_set p.e (by omega)]
      by_cases c : m + i = x
      · rw [if_pos c, if_pos (by omega), ← c, Nat.add_sub_cancel_left]
      · rw [if_neg c, h5 x hx]
        congr 1
        simp only [eq_iff_iff]
        omega
    · rintro d ⟨h4, h5⟩
      refine ⟨h4, fun x hx => ?_⟩
      rw [h5 x hx]
      split
      · rfl
      · rw [at_ge p.e (by omega)]
  refine Tot.bind leaf ?_
  rintro d ⟨hd1, hd2⟩
  refine (Tot.forDown (P := fun i (s : State T F) => Rep p In act Ok Desc (fun x => x < i) a.size m j (fun x => f (x - m)) s ∧ ∀ x, laz p s x = p.id) hm1 ⟨⟨⟨rfl, rfl, rfl, hd1, by simp⟩, hj, h1, ?_⟩, hr'⟩ ?_).mono ?_
  · refine init_loc (m := m) L hr' (fun x hx => by omega) (fun x x1 x2 => hin _ (by omega)) ?_ hm1 j 1 (by omega) (by omega)
    intro x x1 x2
    show Desc (at' p.e d x) _
    rw [hd2 x x1]
    unfold vals
    rcases Nat.lt_or_ge x (a.size + m) with c | c
    · simpa [c] using ha (x - m) (by omega)
    · rw [at_ge p.e (by omega)]
      simpa [c] using L.e
  · rintro i s i1 i2 ⟨h3, h4⟩
    obtain ⟨s', e', z', d', b'⟩ := update_eq (p := p) h3.sz i2
    refine Tot.of_eq e' ⟨⟨z', hj, h1, ?_⟩, by rw [b']; exact h4⟩
    have hlog := Nat.log2_lt (n := i) (k := j) (by omega)
    obtain ⟨c, hc⟩ : ∃ c, i / 2 ^ c = 1 := ⟨Nat.log2 i, div_eq_iff.2 ⟨by rw [one_mul]; exact Nat.log2_self_le (by omega), by
      have := Nat.lt_log2_self (n := i)
      rw [pow_succ] at this; omega⟩⟩
    have hcj : c < j := by
      by_contra hcon
      have := (div_eq_iff.1 hc).1
      have h5 := Nat.pow_le_pow_right (n := 2) (by omega) (show j ≤ c by omega)
      omega
    obtain ⟨t, ht⟩ : ∃ t, j = t + 1 + c := ⟨j - 1 - c, by omega⟩
    have hl := h3.loc
    rw [ht] at hl ⊢
    exact update_loc L le_rfl hc hl (fun _ => ⟨h4 i, by omega, by omega⟩) (fun x hx hx' => by omega) d' b'
  · rintro s ⟨h3, -⟩
    exact ⟨m, j, h3.mono fun x x1 x2 => by omega⟩

end Beats
