import Verif.Proof.LazySegmentTree

/-! # LazySegmentTree: `max_right` and `min_left` -/

namespace LazySegmentTree
open Cxx SegTree

variable {T F : Type} [Monoid T] [Monoid F] [MulAction F T]
variable {n m lg : Nat} {f : Nat → T} {s : State T F}

/-- The represented array, by leaf index. -/
def W (f : Nat → T) (m x : Nat) : T := f (x - m)

theorem P_W (f : Nat → T) (m l r : Nat) : P (W f m) (l + m) (r + m) = P f l r := by
  rw [P_shift]
  exact P_congr fun i _ _ => by simp [W]

abbrev Ok (n m lg : Nat) (f : Nat → T) (s : State T F) := Rep (fun _ => False) n m lg f s

theorem node_val (hd : ∀ (φ : F) (a b : T), φ • (a * b) = φ • a * φ • b) (h : Ok n m lg f s) {k t : Nat} (hk : 1 ≤ k) (h1 : m ≤ k * 2 ^ t)
    (h2 : (k + 1) * 2 ^ t ≤ 2 * m) (hu : up (laz s) (k / 2) = 1) : dat s k = P (W f m) (k * 2 ^ t) ((k + 1) * 2 ^ t) := by
  have := node_eq (h.V_inv hd) t hk h2
  have e : V (dat s) (laz s) k = dat s k := by unfold V; rw [hu, one_smul]
  rw [e] at this
  rw [this]
  refine P_congr fun i a b => ?_
  have := h.leaf (i - m) (by omega)
  rw [show m + (i - m) = i by omega] at this
  exact this

theorem push_up_one (hd : ∀ (φ : F) (a b : T), φ • (a * b) = φ • a * φ • b) (h : Ok n m lg f s) {k : Nat} (hk1 : 1 ≤ k) (hk : k < m)
    (hu : up (laz s) (k / 2) = 1) : Tot (push (prm T F) s k) fun s' => Ok n m lg f s' ∧ up (laz s') k = 1 := by
  obtain ⟨s', e, hz, ha, hb⟩ := push_eq h.sz hk1 hk
  obtain ⟨s'', e', h', -⟩ := push_tot hd h hk1 hk id
  rw [e] at e'
  cases e'
  refine Tot.of_eq e ⟨h', ?_⟩
  rw [push_up (m := m) hk1 hb k hk, if_pos rfl, hu]

theorem descendR_tot (hd : ∀ (φ : F) (a b : T), φ • (a * b) = φ • a * φ • b) (g : T → Bool) {l0 : Nat} {l h : Nat} {sum : T} (hs : Ok n m lg f s)
    (hu : up (laz s) (l / 2) = 1) (hm1 : m ≤ l * 2 ^ h) (hl0 : l0 ≤ l * 2 ^ h)
    (hm2 : (l + 1) * 2 ^ h ≤ 2 * m) (hsum : sum = P (W f m) l0 (l * 2 ^ h)) (hg : g sum = true)
    (hng : g (P (W f m) l0 ((l + 1) * 2 ^ h)) = false) :
    Tot (loop (descendR (prm T F) g) m (l, sum, s)) fun q => Ok n m lg f q.2.2 ∧ m ≤ q.1 ∧ q.1 < 2 * m ∧ l0 ≤ q.1 ∧
      g (P (W f m) l0 q.1) = true ∧ g (P (W f m) l0 (q.1 + 1)) = false := by
  have hm := hs.hm
  have hmp := hs.m_pos
  have hh : h ≤ m := by
    have hl1 : 1 ≤ l := by
      rcases Nat.eq_zero_or_pos l with rfl | h
      · omega
      · exact h
    have h1 : 2 * 2 ^ h ≤ (l + 1) * 2 ^ h := Nat.mul_le_mul_right _ (by omega)
    have h2 : h < 2 ^ h := Nat.lt_two_pow_self
    omega
  refine Tot.loopG (P := fun h (q : Nat × T × State T F) => Ok n m lg f q.2.2 ∧ up (laz q.2.2) (q.1 / 2) = 1 ∧ m ≤ q.1 * 2 ^ h ∧ l0 ≤ q.1 * 2 ^ h ∧
    (q.1 + 1) * 2 ^ h ≤ 2 * m ∧ q.2.1 = P (W f m) l0 (q.1 * 2 ^ h) ∧ g q.2.1 = true ∧ g (P (W f m) l0 ((q.1 + 1) * 2 ^ h)) = false)
    ?_ (k := h) ⟨hs, hu, hm1, hl0, hm2, hsum, hg, hng⟩ hh
  rintro h ⟨l, sum, s⟩ ⟨hs, hu, h1, h2, h3, h4, h5, h6⟩
  dsimp only at hs hu h1 h2 h3 h4 h5 h6
  unfold descendR
  dsimp only
  rw [hs.hsm]
  split
  case isFalse hlt =>
    cases h with
    | zero =>
      simp only [pow_zero, mul_one] at h1 h2 h3 h4 h6
      subst h4
      exact Tot.pure ⟨hs, by om, by om, by om, h5, h6⟩
    | succ h =>
      exfalso
      have e : (l + 1) * 2 ^ (h + 1) = 2 * ((l + 1) * 2 ^ h) := by ring
      have h7 : (l + 1) * 1 ≤ (l + 1) * 2 ^ h := Nat.mul_le_mul_left _ (pow_pos' h)
      omega
  case isTrue hlt =>
    cases h with
    | zero => simp at h1; omega
    | succ h =>
      have hl1 : 1 ≤ l := by
        rcases Nat.eq_zero_or_pos l with rfl | h
        · omega
        · exact h
      have e1 : l * 2 ^ (h + 1) = 2 * l * 2 ^ h := by ring
      have e2 : (l + 1) * 2 ^ (h + 1) = (2 * l + 1 + 1) * 2 ^ h := by ring
      have e3 : (2 * l + 1) * 2 ^ h ≤ (2 * l + 1 + 1) * 2 ^ h := Nat.mul_le_mul_right _ (by omega)
      have e4 : 2 * l * 2 ^ h ≤ (2 * l + 1) * 2 ^ h := Nat.mul_le_mul_right _ (by omega)
      rw [e2] at h3 h6
      rw [e1] at h1 h2 h4
      refine Tot.bind (push_up_one hd hs hl1 hlt hu) ?_
      rintro s' ⟨hs', hu'⟩
      have hsz := hs'.hsz
      have key : sum * at' 1 s'.data (2 * l) = P (W f m) l0 ((2 * l + 1) * 2 ^ h) := by
        rw [show at' 1 s'.data (2 * l) = _ from node_val hd hs' (t := h) (by omega) h1 (by omega) (by rw [show 2 * l / 2 = l by omega]; exact hu'),
          h4, ← P_append _ h2 e4]
      rw [rd_at 1 (by omega), ok_bind]
      simp only [prm, key]
      split
      next hgt =>
        exact Tot.pure ⟨h, by omega, hs', by rw [show (2 * l + 1) / 2 = l by omega]; exact hu', by om, by om, h3, rfl, hgt, h6⟩
      next hgt =>
        exact Tot.pure ⟨h, by omega, hs', by rw [show (2 * l) / 2 = l by omega]; exact hu', h1, h2, e3.trans h3, h4, h5, by simpa using hgt⟩

theorem maxRight_tot (hd : ∀ (φ : F) (a b : T), φ • (a * b) = φ • a * φ • b) (hs : Ok n m lg f s) (g : T → Bool) {l : Nat} (hl : l ≤ n)
    (hg : g 1 = true) :
    Tot (maxRight (prm T F) s l g) fun q => Ok n m lg f q.1 ∧ l ≤ q.2 ∧ q.2 ≤ n ∧ g (P f l q.2) = true ∧
      (q.2 < n → g (P f l (q.2 + 1)) = false) := by
  unfold maxRight
  rw [hs.hn, decide_eq_true hl, check_true, ok_bind, show (prm T F).e = 1 from rfl, hg, check_true, ok_bind]
  split
  next e =>
    subst e
    exact Tot.pure ⟨hs, le_rfl, le_rfl, by rw [P_empty _ le_rfl]; exact hg, fun h => by dsimp only at h; omega⟩
  next hne =>
  have hm := hs.hm
  have hle := hs.hle
  have hmp := hs.m_pos
  have hpad := hs.pad
  have e0 : 2 ^ (lg + 1) = 2 * m := by rw [hm]; ring
  rw [hs.hsm]
  refine Tot.bind (pushOne_tot hd hs (p := l + m) (by omega) (by omega)) ?_
  rintro s1 ⟨h1, z1⟩
  have hu1 : ∀ x, x = 0 ∨ Ch (l + m) 1 x → up (laz s1) x = 1 := fun x hx => up_one (fun x hx _ => ch_up hx) z1 hx
  have hsz := h1.hsz
  rw [h1.hsm]
  have L : Tot (loop (maxStep (prm T F) g) (2 * m) (false, l + m, 1, s1))
      (fun q : Bool × Nat × T × State T F => Ok n m lg f q.2.2.2 ∧ l ≤ q.2.1 ∧ q.2.1 ≤ n ∧ g (P f l q.2.1) = true ∧
        (q.2.1 < n → g (P f l (q.2.1 + 1)) = false)) := by
    refine Tot.loopG (k := m - l) (P := fun k (q : Bool × Nat × T × State T F) => (q.1 = false ∧ q.2.2.2 = s1 ∧ ∃ h, m ≤ q.2.1 * 2 ^ h ∧
        l + m ≤ q.2.1 * 2 ^ h ∧ q.2.1 * 2 ^ h + k = 2 * m ∧ 0 < k ∧ q.2.2.1 = P (W f m) (l + m) (q.2.1 * 2 ^ h) ∧ g q.2.2.1 = true ∧
        (q.2.1 * 2 ^ h ≤ l + m + 2 ^ h ∨ (q.2.1 % 2 = 0 ∧ q.2.1 * 2 ^ h ≤ l + m + 2 ^ (h + 1)))) ∨
      (q.1 = true ∧ Ok n m lg f q.2.2.2 ∧ l ≤ q.2.1 ∧ q.2.1 ≤ n ∧ g (P f l q.2.1) = true ∧ (q.2.1 < n → g (P f l (q.2.1 + 1)) = false)))
      ?_ ?_ (show m - l ≤ 2 * m by omega)
    · rintro k ⟨stop, x, sum, s⟩ hq
      unfold maxStep
      dsimp only at hq ⊢
      rcases hq with ⟨rfl, rfl, h0, h1', h2, h3, h4, h5, h6, h7⟩ | ⟨rfl, hq⟩
      · rw [if_neg (by simp)]
        have hx1 : 1 ≤ x := by
          rcases Nat.eq_zero_or_pos x with rfl | h
          · omega
          · exact h
        refine Tot.bind (SegmentTree.climbEven_tot hx1) ?_
        rintro y ⟨t, rfl, hodd⟩
        have hy1 : 1 ≤ y := by omega
        have epos : y * 2 ^ t * 2 ^ h0 = y * 2 ^ (t + h0) := by ring
        have h8 : y * 2 ^ (t + h0) ≤ l + m + 2 ^ (t + h0) := by
          rw [epos] at h7
          rcases h7 with h7 | ⟨h7, h8⟩
          · have := Nat.pow_le_pow_right (n := 2) (by omega) (show h0 ≤ t + h0 by omega)
            omega
          · have ht : t ≠ 0 := by rintro rfl; simp at h7; omega
            have := Nat.pow_le_pow_right (n := 2) (by omega) (show h0 + 1 ≤ t + h0 by omega)
            omega
        clear h7
        rw [epos] at h1' h2 h3 h5
        set c := t + h0
        have e1 : (y + 1) * 2 ^ c ≤ 2 * m := by
          rcases mul_add_le (a := y) (h := c) (j := lg + 1) (by omega) with h | h
          · rwa [e0] at h
          · omega
        have hpc := pow_pos' c
        have e2 : (y + 1) * 2 ^ c = y * 2 ^ c + 2 ^ c := by ring
        have hyc : y * 1 ≤ y * 2 ^ c := Nat.mul_le_mul_left _ hpc
        have hq1 : y / 2 * 2 ^ (c + 1) + 2 ^ c = y * 2 ^ c := by
          conv_rhs => rw [show y = 2 * (y / 2) + 1 by omega]
          ring
        have hq2 : (y / 2 + 1) * 2 ^ (c + 1) = y * 2 ^ c + 2 ^ c := by rw [← hq1]; ring
        have hu : up (laz s) (y / 2) = 1 := hu1 _ (Or.inr ⟨c + 1, by omega, (div_eq_iff.2 ⟨by omega, by omega⟩).symm⟩)
        have key : sum * at' 1 s.data y = P (W f m) (l + m) ((y + 1) * 2 ^ c) := by
          rw [show at' 1 s.data y = _ from node_val hd h1 (t := c) hy1 h1' e1 hu, h5, ← P_append _ h2 (by omega)]
        rw [rd_at 1 (by omega), ok_bind]
        simp only [show (prm T F).op = (· * ·) from rfl, key]
        split
        next hgt =>
          split
          next hlow =>
            have e3 : 2 ^ (c + 1) = 2 * 2 ^ c := by ring
            refine Tot.pure ⟨k - 2 ^ c, by omega, Or.inl ⟨rfl, rfl, c, by om, by om, by om, ?_, rfl, hgt, Or.inr ⟨by om, by om⟩⟩⟩
            rcases Nat.lt_or_ge (2 ^ c) k with hlt | hge
            · omega
            · exfalso
              apply hlow
              rw [lowbit_eq_self (by omega)]
              have h7 : (y + 1) * 2 ^ c = 2 ^ (lg + 1) := by omega
              have h8 : y + 1 ∣ 2 ^ (lg + 1) := ⟨2 ^ c, h7.symm⟩
              obtain ⟨i, -, hi⟩ := (Nat.dvd_prime_pow Nat.prime_two).1 h8
              exact ⟨i, hi⟩
          next hlow =>
            rw [h1.hn]
            refine Tot.pure ⟨0, h4, Or.inr ⟨rfl, h1, hl, le_rfl, ?_, fun h => by dsimp only at h; omega⟩⟩
            dsimp only
            obtain ⟨i, hi⟩ := (lowbit_eq_self (by omega)).1 (not_not.1 hlow)
            have h7 : (y + 1) * 2 ^ c = 2 * m := by
              have b1 : m < (y + 1) * 2 ^ c := by omega
              have b2 : (y + 1) * 2 ^ c = 2 ^ (i + c) := by rw [hi, ← pow_add]
              rw [b2] at b1 e1 ⊢
              rw [← e0] at e1 ⊢
              rw [hm] at b1
              have h8 := (Nat.pow_lt_pow_iff_right (a := 2) (by omega)).1 b1
              have h9 := (Nat.pow_le_pow_iff_right (a := 2) (by omega)).1 e1
              rw [show i + c = lg + 1 by omega]
            rw [h7, show 2 * m = m + m by omega, P_W, SegmentTree.P_pad hpad hl hle] at hgt
            exact hgt
        next hgt =>
          rw [h1.hsm]
          refine Tot.bind (descendR_tot hd g h1 hu h1' h2 e1 h5 h6 (by simpa using hgt)) ?_
          rintro ⟨z, sum', s'⟩ ⟨z0, z1, z2, z3, z4, z5⟩
          dsimp only at z0 z1 z2 z3 z4 z5
          refine Tot.pure ⟨0, h4, Or.inr ⟨rfl, z0, ?_⟩⟩
          dsimp only
          rw [z0.hsm]
          obtain ⟨r, rfl⟩ := Nat.exists_eq_add_of_le z1
          rw [show m + r = r + m by omega] at z4 z5
          rw [show r + m + 1 = r + 1 + m by omega] at z5
          rw [P_W] at z4 z5
          rw [show m + r - m = r by omega]
          refine ⟨by omega, ?_, z4, fun _ => z5⟩
          by_contra hc
          rw [P_right f (by omega), hpad r (by omega), mul_one, z4] at z5
          cases z5
      · rw [if_pos rfl]
        exact Tot.pure hq
    · left
      refine ⟨rfl, rfl, 0, ?_⟩
      dsimp only
      simp only [pow_zero, mul_one]
      exact ⟨by omega, by omega, by omega, by omega, by rw [P_empty _ le_rfl], hg, Or.inl (by omega)⟩
  exact Tot.bind L fun q hq => Tot.pure hq

theorem descendL_tot (hd : ∀ (φ : F) (a b : T), φ • (a * b) = φ • a * φ • b) (g : T → Bool) {r0 : Nat} {r h : Nat} {sum : T} (hs : Ok n m lg f s)
    (hu : up (laz s) (r / 2) = 1) (hm1 : m ≤ r * 2 ^ h) (hr0 : (r + 1) * 2 ^ h ≤ r0)
    (hm2 : r0 ≤ 2 * m) (hsum : sum = P (W f m) ((r + 1) * 2 ^ h) r0) (hg : g sum = true)
    (hng : g (P (W f m) (r * 2 ^ h) r0) = false) :
    Tot (loop (descendL (prm T F) g) m (r, sum, s)) fun q => Ok n m lg f q.2.2 ∧ m ≤ q.1 ∧ q.1 + 1 ≤ r0 ∧
      g (P (W f m) (q.1 + 1) r0) = true ∧ g (P (W f m) q.1 r0) = false := by
  have hm := hs.hm
  have hmp := hs.m_pos
  have hh : h ≤ m := by
    have hl1 : 1 ≤ r := by
      rcases Nat.eq_zero_or_pos r with rfl | h
      · omega
      · exact h
    have h1 : 2 * 2 ^ h ≤ (r + 1) * 2 ^ h := Nat.mul_le_mul_right _ (by omega)
    have h2 : h < 2 ^ h := Nat.lt_two_pow_self
    omega
  refine Tot.loopG (P := fun h (q : Nat × T × State T F) => Ok n m lg f q.2.2 ∧ up (laz q.2.2) (q.1 / 2) = 1 ∧ m ≤ q.1 * 2 ^ h ∧ (q.1 + 1) * 2 ^ h ≤ r0 ∧
    q.2.1 = P (W f m) ((q.1 + 1) * 2 ^ h) r0 ∧ g q.2.1 = true ∧ g (P (W f m) (q.1 * 2 ^ h) r0) = false)
    ?_ (k := h) ⟨hs, hu, hm1, hr0, hsum, hg, hng⟩ hh
  rintro h ⟨l, sum, s⟩ ⟨hs, hu, h1, h3, h4, h5, h6⟩
  dsimp only at hs hu h1 h3 h4 h5 h6
  unfold descendL
  dsimp only
  rw [hs.hsm]
  split
  case isFalse hlt =>
    cases h with
    | zero =>
      simp only [pow_zero, mul_one] at h1 h3 h4 h6
      subst h4
      exact Tot.pure ⟨hs, by om, by om, h5, h6⟩
    | succ h =>
      exfalso
      have e : (l + 1) * 2 ^ (h + 1) = 2 * ((l + 1) * 2 ^ h) := by ring
      have h7 : (l + 1) * 1 ≤ (l + 1) * 2 ^ h := Nat.mul_le_mul_left _ (pow_pos' h)
      omega
  case isTrue hlt =>
    cases h with
    | zero => simp at h1; omega
    | succ h =>
      have hl1 : 1 ≤ l := by
        rcases Nat.eq_zero_or_pos l with rfl | h
        · omega
        · exact h
      have e1 : l * 2 ^ (h + 1) = 2 * l * 2 ^ h := by ring
      have e2 : (l + 1) * 2 ^ (h + 1) = (2 * l + 1 + 1) * 2 ^ h := by ring
      have e3 : (2 * l + 1) * 2 ^ h ≤ (2 * l + 1 + 1) * 2 ^ h := Nat.mul_le_mul_right _ (by omega)
      have e4 : 2 * l * 2 ^ h ≤ (2 * l + 1) * 2 ^ h := Nat.mul_le_mul_right _ (by omega)
      rw [e2] at h3 h4
      rw [e1] at h1 h6
      refine Tot.bind (push_up_one hd hs hl1 hlt hu) ?_
      rintro s' ⟨hs', hu'⟩
      have hsz := hs'.hsz
      have key : at' 1 s'.data (2 * l + 1) * sum = P (W f m) ((2 * l + 1) * 2 ^ h) r0 := by
        rw [show at' 1 s'.data (2 * l + 1) = _ from node_val hd hs' (t := h) (by omega) (by omega) (by omega)
          (by rw [show (2 * l + 1) / 2 = l by omega]; exact hu'), h4, ← P_append _ e3 h3]
      rw [rd_at 1 (by omega), ok_bind]
      simp only [prm, key]
      split
      next hgt =>
        exact Tot.pure ⟨h, by omega, hs', by rw [show (2 * l + 1 - 1) / 2 = l by omega]; exact hu', h1, e3.trans h3, rfl, hgt, h6⟩
      next hgt =>
        exact Tot.pure ⟨h, by omega, hs', by rw [show (2 * l + 1) / 2 = l by omega]; exact hu', h1.trans e4, h3, h4, h5, by simpa using hgt⟩

theorem minLeft_tot (hd : ∀ (φ : F) (a b : T), φ • (a * b) = φ • a * φ • b) (hs : Ok n m lg f s) (g : T → Bool) {r : Nat} (hr : r ≤ n) (hrm : r < m ∨ lg = 0)
    (hg : g 1 = true) :
    Tot (minLeft (prm T F) s r g) fun q => Ok n m lg f q.1 ∧ q.2 ≤ r ∧ g (P f q.2 r) = true ∧ (0 < q.2 → g (P f (q.2 - 1) r) = false) := by
  unfold minLeft
  rw [hs.hn, decide_eq_true hr, check_true, ok_bind, show (prm T F).e = 1 from rfl, hg, check_true, ok_bind]
  split
  next e =>
    subst e
    exact Tot.pure ⟨hs, le_rfl, by rw [P_empty _ le_rfl]; exact hg, fun h => by dsimp only at h; omega⟩
  next hne =>
  have hm := hs.hm
  have hle := hs.hle
  have hmp := hs.m_pos
  have e0 : 2 ^ (lg + 1) = 2 * m := by rw [hm]; ring
  rw [hs.hsm]
  have hpush : Tot (pushChain (prm T F) s (r + m) 1) fun s1 => Ok n m lg f s1 ∧ ∀ x, x = 0 ∨ (r < m ∧ Ch (r + m) 1 x) → up (laz s1) x = 1 := by
    rcases Nat.lt_or_ge r m with hrm' | hrm'
    · refine (pushOne_tot hd hs (p := r + m) (by omega) (by omega)).mono ?_
      rintro s1 ⟨h1, z1⟩
      exact ⟨h1, fun x hx => up_one (fun x hx _ => ch_up hx) z1 (hx.imp_right And.right)⟩
    · refine (pushChain_tot hd hs (p := r + m) (lo := 1) (by omega) (Or.inr (by omega)) le_rfl (C := fun _ => False) (fun _ hx _ => hx) (fun _ _ hx => hx.elim)).mono ?_
      rintro s1 ⟨h1, -⟩
      refine ⟨h1, ?_⟩
      rintro x (rfl | hx)
      · exact up_zero _
      · omega
  refine Tot.bind hpush ?_
  rintro s1 ⟨h1, hu1⟩
  have hsz := h1.hsz
  rw [h1.hsm]
  have L : Tot (loop (minStep (prm T F) g) (2 * m) (false, r + m, 1, s1))
      (fun q : Bool × Nat × T × State T F => Ok n m lg f q.2.2.2 ∧ q.2.1 ≤ r ∧ g (P f q.2.1 r) = true ∧
        (0 < q.2.1 → g (P f (q.2.1 - 1) r) = false)) := by
    refine Tot.loopG (k := r) (P := fun k (q : Bool × Nat × T × State T F) => (q.1 = false ∧ q.2.2.2 = s1 ∧ ∃ h, m < q.2.1 * 2 ^ h ∧
        q.2.1 * 2 ^ h ≤ r + m ∧ (r + m < q.2.1 * 2 ^ h + 2 ^ h ∨ (q.2.1 % 2 = 0 ∧ 2 < q.2.1 ∧ r + m < q.2.1 * 2 ^ h + 2 ^ (h + 1))) ∧ q.2.1 * 2 ^ h = m + k ∧ 2 ≤ q.2.1 ∧ q.2.2.1 = P (W f m) (q.2.1 * 2 ^ h) (r + m) ∧
        g q.2.2.1 = true) ∨
      (q.1 = true ∧ Ok n m lg f q.2.2.2 ∧ q.2.1 ≤ r ∧ g (P f q.2.1 r) = true ∧ (0 < q.2.1 → g (P f (q.2.1 - 1) r) = false)))
      ?_ ?_ (show r ≤ 2 * m by omega)
    · rintro k ⟨stop, x, sum, s⟩ hq
      unfold minStep
      dsimp only at hq ⊢
      rcases hq with ⟨rfl, rfl, h0, h1', h2, h2', h3, h4, h5, h6⟩ | ⟨rfl, hq⟩
      · rw [if_neg (by simp)]
        refine Tot.bind (SegmentTree.climbOdd_tot' (by omega : 1 ≤ x - 1)) ?_
        rintro y ⟨hy1, t, ht, hev⟩
        rw [show x - 1 + 1 = x by omega] at ht
        have epos : x * 2 ^ h0 = (y + 1) * 2 ^ (t + h0) := by rw [ht]; ring
        have h2'' : r + m < (y + 1) * 2 ^ (t + h0) + 2 ^ (t + h0) := by
          rw [epos] at h2'
          rcases h2' with h7 | ⟨h7, h7', h8⟩
          · have := Nat.pow_le_pow_right (n := 2) (by omega) (show h0 ≤ t + h0 by omega)
            omega
          · have ht : t ≠ 0 := by rintro rfl; simp at ht; omega
            have := Nat.pow_le_pow_right (n := 2) (by omega) (show h0 + 1 ≤ t + h0 by omega)
            omega
        rw [epos] at h1' h2 h3 h5
        set c := t + h0 with hc
        have hpc := pow_pos' c
        have e2 : (y + 1) * 2 ^ c = y * 2 ^ c + 2 ^ c := by ring
        have hyc : y * 1 ≤ y * 2 ^ c := Nat.mul_le_mul_left _ hpc
        have e1 : m ≤ y * 2 ^ c := by
          have := lt_mul_add (a := y + 1) (h := c) (j := lg) (by omega) (by omega) (by omega)
          rwa [Nat.add_sub_cancel, ← hm] at this
        have hu : up (laz s) (y / 2) = 1 := by
          apply hu1
          rcases hev with rfl | hev
          · exact Or.inl rfl
          · have hq1 : y / 2 * 2 ^ (c + 1) = y * 2 ^ c := by
              conv_rhs => rw [show y = 2 * (y / 2) by omega]
              ring
            have hq2 : (y / 2 + 1) * 2 ^ (c + 1) = y * 2 ^ c + 2 * 2 ^ c := by rw [← hq1]; ring
            refine Or.inr ⟨?_, c + 1, by omega, (div_eq_iff.2 ⟨by omega, by omega⟩).symm⟩
            rcases hrm with hrm | hrm
            · exact hrm
            · rw [hrm] at hm
              have : 2 * 1 ≤ y * 2 ^ c := Nat.mul_le_mul (by omega) hpc
              simp at hm
              omega
        have key : at' 1 s.data y * sum = P (W f m) (y * 2 ^ c) (r + m) := by
          rw [show at' 1 s.data y = _ from node_val hd h1 (t := c) hy1 e1 (by omega) hu, h5, ← P_append _ (by omega) h2]
        rw [rd_at 1 (by omega), ok_bind]
        simp only [show (prm T F).op = (· * ·) from rfl, key]
        split
        next hgt =>
          split
          next hlow =>
            have hy2 : 2 ≤ y := by
              by_contra hc
              have : y = 1 := by omega
              subst this
              exact hlow rfl
            have hev : y % 2 = 0 := by rcases hev with h | h <;> omega
            have hy3 : 2 < y := by
              by_contra hc
              have : y = 2 := by omega
              subst this
              exact hlow rfl
            have e3 : 2 ^ (c + 1) = 2 * 2 ^ c := by ring
            refine Tot.pure ⟨k - 2 ^ c, by omega, Or.inl ⟨rfl, rfl, c, ?_, by om, Or.inr ⟨hev, hy3, by om⟩, by om, hy2, rfl, hgt⟩⟩
            dsimp only
            rcases Nat.lt_or_ge m (y * 2 ^ c) with hlt | hge
            · exact hlt
            · exfalso
              apply hlow
              rw [lowbit_eq_self (by omega)]
              have h7 : y * 2 ^ c = 2 ^ lg := by omega
              have h8 : y ∣ 2 ^ lg := ⟨2 ^ c, h7.symm⟩
              obtain ⟨i, -, hi⟩ := (Nat.dvd_prime_pow Nat.prime_two).1 h8
              exact ⟨i, hi⟩
          next hlow =>
            refine Tot.pure ⟨0, by omega, Or.inr ⟨rfl, h1, Nat.zero_le _, ?_, fun h => by dsimp only at h; omega⟩⟩
            dsimp only
            obtain ⟨i, hi⟩ := (lowbit_eq_self (by omega)).1 (not_not.1 hlow)
            have h7 : y * 2 ^ c = m := by
              have b1 : y * 2 ^ c < 2 * m := by omega
              have b2 : y * 2 ^ c = 2 ^ (i + c) := by rw [hi, ← pow_add]
              rw [b2] at b1 e1 ⊢
              rw [← e0] at b1
              rw [hm] at e1 ⊢
              have h8 := (Nat.pow_le_pow_iff_right (a := 2) (by omega)).1 e1
              have h9 := (Nat.pow_lt_pow_iff_right (a := 2) (by omega)).1 b1
              rw [show i + c = lg by omega]
            have := P_W f m 0 r
            rw [Nat.zero_add] at this
            rw [h7, this] at hgt
            exact hgt
        next hgt =>
          rw [h1.hsm]
          refine Tot.bind (descendL_tot hd g h1 hu e1 h2 (by omega) h5 h6 (by simpa using hgt)) ?_
          rintro ⟨z, sum', s'⟩ ⟨z0, z1, z2, z4, z5⟩
          dsimp only at z0 z1 z2 z4 z5
          refine Tot.pure ⟨0, by omega, Or.inr ⟨rfl, z0, ?_⟩⟩
          dsimp only
          rw [z0.hsm]
          obtain ⟨l, rfl⟩ := Nat.exists_eq_add_of_le z1
          rw [show m + l = l + m by omega] at z4 z5
          rw [show l + m + 1 = l + 1 + m by omega] at z4
          rw [P_W] at z4 z5
          rw [show m + l + 1 - m = l + 1 by omega]
          exact ⟨by omega, z4, fun _ => z5⟩
      · rw [if_pos rfl]
        exact Tot.pure hq
    · left
      refine ⟨rfl, rfl, 0, ?_⟩
      dsimp only
      simp only [pow_zero, mul_one]
      exact ⟨by omega, by omega, by omega, by omega, by omega, by rw [P_empty _ le_rfl], hg⟩
  exact Tot.bind L fun q hq => Tot.pure hq

/-! ### The calls that go wrong -/

theorem forN_last {σ} (g : Nat → σ → M σ) (k i : Nat) (s : σ) : forN g (k + 1) i s = (forN g k i s >>= g (i + k)) := by
  induction k generalizing i s with
  | zero => simp [forN]
            cases g i s <;> rfl
  | succ k ih =>
    show (g i s >>= fun s => forN g (k + 1) (i + 1) s) = ((g i s >>= fun s => forN g k (i + 1) s) >>= g (i + (k + 1)))
    cases h : g i s with
    | error e => rfl
    | ok s' => rw [ok_bind, ok_bind, ih, show i + 1 + k = i + (k + 1) by omega]

/-- `min_left(n, g)` on a tree whose size is a power of two (≥ 2) reads outside of its vectors. -/
theorem minLeft_ub (hd : ∀ (φ : F) (a b : T), φ • (a * b) = φ • a * φ • b) (hs : Ok n m lg f s) (g : T → Bool) (hnm : n = m) (hm2 : 2 ≤ m)
    (hg : g 1 = true) : minLeft (prm T F) s n g = .error .ub := by
  unfold minLeft
  rw [hs.hn, decide_eq_true le_rfl, check_true, ok_bind, show (prm T F).e = 1 from rfl, hg, check_true, ok_bind, if_neg (by omega)]
  have hlg : 1 ≤ lg := by
    rcases Nat.eq_zero_or_pos lg with h | h
    · have := hs.hm; rw [h] at this; simp at this; omega
    · exact h
  have e0 : n + s.m = 2 ^ (lg + 1) := by rw [hs.hsm, hnm, hs.hm]; ring
  rw [e0]
  have key : pushChain (prm T F) s (2 ^ (lg + 1)) 1 = .error .ub := by
    unfold pushChain forDown
    rw [hs.hlg, show lg + 1 - 1 = (lg - 1) + 1 by omega, forN_last]
    obtain ⟨s', e, h'⟩ := Tot.forN (f := fun j s => push (prm T F) s (2 ^ (lg + 1) >>> (lg + 1 + 1 - 1 - j)))
      (P := fun _ s => Ok n m lg f s) (k := lg - 1) (i := 1) (s := s) hs (by
        rintro j s j1 j2 h
        rw [Nat.shiftRight_eq_div_pow, Nat.pow_div (by omega) (by omega)]
        refine (push_tot hd h (pow_pos' _) ?_ id).mono fun _ h => h.1
        rw [h.hm]
        exact Nat.pow_lt_pow_right (by omega) (by omega))
    rw [e, ok_bind]
    dsimp only
    rw [Nat.shiftRight_eq_div_pow, Nat.pow_div (by omega) (by omega)]
    unfold push
    rw [rd_ub]
    · rfl
    · rw [h'.hlz, h'.hm]
      exact Nat.pow_le_pow_right (by omega) (by omega)
  rw [key]
  rfl

/-- `suffix_prod` trips the assertion of `operator()` whenever the size is not the padded size. -/
theorem suffixProd_abort (hs : Ok n m lg f s) (hnm : n < m) (l : Nat) : step (prm T F) s (.suffixProd l) = .error .assertion := by
  unfold step prod
  dsimp only
  rw [hs.hsm, hs.hn, decide_eq_false (by omega)]
  rfl

end LazySegmentTree
