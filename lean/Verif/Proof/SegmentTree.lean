import Verif.Proof.SegTree
import Mathlib.Data.Nat.Prime.Basic

/-! # SegmentTree: helper lemmas -/

namespace SegTree
open Cxx

/-- `(k & -k) == k` characterises powers of two. -/
theorem lowbit_eq_self {k : Nat} (hk : 1 ≤ k) : Bits.lowbit k = k ↔ ∃ j, k = 2 ^ j := by
  induction k using Nat.strong_induction_on with
  | _ k ih =>
    rcases Nat.even_or_odd' k with ⟨q, rfl | rfl⟩
    · rw [Bits.lowbit_even]
      have := ih q (by omega) (by omega)
      constructor
      · intro h
        obtain ⟨j, rfl⟩ := this.1 (by omega)
        exact ⟨j + 1, by ring⟩
      · rintro ⟨j, hj⟩
        cases j with
        | zero => omega
        | succ j => rw [this.2 ⟨j, by rw [pow_succ] at hj; omega⟩]
    · rw [Bits.lowbit_odd]
      constructor
      · intro h; exact ⟨0, by omega⟩
      · rintro ⟨j, hj⟩
        cases j with
        | zero => omega
        | succ j => rw [pow_succ] at hj; omega

theorem pow_pos' (h : Nat) : 0 < 2 ^ h := Nat.pos_of_ne_zero (pow_ne_zero h two_ne_zero)

/-- A multiple of `2^h` below `2^j` stays at distance `2^h`. -/
theorem mul_add_le {a h j : Nat} (hlt : a * 2 ^ h < 2 ^ j) : (a + 1) * 2 ^ h ≤ 2 ^ j ∨ a = 0 := by
  rcases Nat.lt_or_ge j h with hj | hj
  · right
    by_contra ha
    have : 1 * 2 ^ h ≤ a * 2 ^ h := Nat.mul_le_mul_right _ (by omega)
    have := Nat.pow_lt_pow_right (a := 2) (by omega) hj
    omega
  · left
    obtain ⟨d, rfl⟩ := Nat.exists_eq_add_of_le hj
    rw [pow_add, mul_comm (2 ^ h)] at hlt ⊢
    exact Nat.mul_le_mul_right _ (Nat.lt_of_mul_lt_mul_right hlt)

theorem lt_mul_add {a h j : Nat} (ha : 2 ≤ a) (hlt : 2 ^ j < a * 2 ^ h) (hle : a * 2 ^ h ≤ 2 ^ (j + 1)) :
    2 ^ j ≤ (a - 1) * 2 ^ h := by
  have hj : h ≤ j := by
    by_contra hc
    have h1 : 2 * 2 ^ h ≤ a * 2 ^ h := Nat.mul_le_mul_right _ ha
    have h2 := Nat.pow_le_pow_right (n := 2) (by omega) (show j + 1 ≤ h by omega)
    have := pow_pos' h
    omega
  obtain ⟨d, rfl⟩ := Nat.exists_eq_add_of_le hj
  rw [pow_add, mul_comm (2 ^ h)] at hlt ⊢
  have := Nat.lt_of_mul_lt_mul_right hlt
  exact Nat.mul_le_mul_right _ (by omega)

end SegTree

namespace SegmentTree
open Cxx SegTree

variable {T : Type} [Monoid T]

/-- The stored tree represents the array `f` (padded with the identity). -/
structure Rep (n : Nat) (f : Nat → T) (s : State T) : Prop where
  hn : s.n = n
  hm : ∃ j, s.m = 2 ^ j
  hle : n ≤ s.m
  hsz : s.data.size = 2 * s.m
  inv : Inv s.m (at' 1 s.data)
  leaf : ∀ i, i < s.m → at' 1 s.data (s.m + i) = f i
  pad : ∀ i, n ≤ i → f i = 1

theorem Rep.m_pos {n : Nat} {f : Nat → T} {s : State T} (h : Rep n f s) : 1 ≤ s.m := by
  obtain ⟨j, hj⟩ := h.hm; rw [hj]; exact pow_pos' j

theorem update_tot {m : Nat} {data : Array T} (hsz : data.size = 2 * m) {k : Nat} (hk : k < m) :
    update (· * ·) data k = .ok (data.setIfInBounds k (at' 1 data (2 * k) * at' 1 data (2 * k + 1))) := by
  unfold update
  rw [rd_at 1 (by omega), ok_bind, rd_at 1 (by omega), ok_bind, wr_eq (by omega), Nat.mul_comm k 2]

theorem update_at {m : Nat} {data : Array T} (hsz : data.size = 2 * m) {k : Nat} (hk : k < m) (x : T) (j : Nat) :
    at' 1 (data.setIfInBounds k x) j = if k = j then x else at' 1 data j := at_set 1 (by omega) x j

theorem updateFrom_tot {m : Nat} {data : Array T} (hsz : data.size = 2 * m) {k : Nat} (hk : k < 2 * m)
    (hinv : ∀ j, 1 ≤ j → j < m → j ≠ k / 2 → at' 1 data j = at' 1 data (2 * j) * at' 1 data (2 * j + 1)) :
    Tot (updateFrom (· * ·) data k) fun d => d.size = 2 * m ∧ Inv m (at' 1 d) ∧ ∀ i, at' 1 d (m + i) = at' 1 data (m + i) := by
  unfold updateFrom
  have L : Tot (loop (updStep (· * ·)) k (k / 2, data)) (fun s : Nat × Array T => s.2.size = 2 * m ∧ Inv m (at' 1 s.2) ∧
      ∀ i, at' 1 s.2 (m + i) = at' 1 data (m + i)) := by
    refine Tot.loop (P := fun s : Nat × Array T => s.1 < m ∧ s.2.size = 2 * m ∧
      (∀ j, 1 ≤ j → j < m → j ≠ s.1 → at' 1 s.2 j = at' 1 s.2 (2 * j) * at' 1 s.2 (2 * j + 1)) ∧
      ∀ i, at' 1 s.2 (m + i) = at' 1 data (m + i)) (fun s => s.1) ?_ ⟨by om, hsz, hinv, fun _ => rfl⟩ (by om)
    rintro ⟨k, d⟩ ⟨h1, h2, h3, h4⟩
    dsimp only at h1 h2 h3 h4
    unfold updStep
    dsimp only
    split
    next hz =>
      refine Tot.pure ⟨h2, fun j a b => h3 j a b (by omega), h4⟩
    next hz =>
      rw [update_tot h2 h1, ok_bind]
      refine Tot.pure ⟨⟨by om, by simpa using h2, ?_, ?_⟩, by om⟩
      · intro j a b c
        dsimp only at c ⊢
        rw [update_at h2 h1, update_at h2 h1, update_at h2 h1]
        by_cases e : k = j
        · subst e
          rw [if_pos rfl, if_neg (by omega), if_neg (by omega)]
        · rw [if_neg e, if_neg (by omega), if_neg (by omega)]
          exact h3 j a b (Ne.symm e)
      · intro i
        dsimp only
        rw [update_at h2 h1, if_neg (by omega), h4]
  exact Tot.bind L fun s h => Tot.pure h

theorem buildInner_tot {m : Nat} {data : Array T} (hsz : data.size = 2 * m) (hm : 1 ≤ m) :
    Tot (forDown m 1 data fun k data => update (· * ·) data k) fun d => d.size = 2 * m ∧ Inv m (at' 1 d) ∧
      ∀ i, at' 1 d (m + i) = at' 1 data (m + i) := by
  refine (Tot.forDown (P := fun k (d : Array T) => d.size = 2 * m ∧
    (∀ j, k ≤ j → j < m → at' 1 d j = at' 1 d (2 * j) * at' 1 d (2 * j + 1)) ∧ ∀ i, at' 1 d (m + i) = at' 1 data (m + i))
    hm ⟨hsz, fun j a b => by omega, fun _ => rfl⟩ ?_)
  rintro k d hk1 hk2 ⟨h1, h2, h3⟩
  rw [update_tot h1 hk2]
  refine Tot.pure ⟨by simpa using h1, ?_, ?_⟩
  · intro j a b
    rw [update_at h1 hk2, update_at h1 hk2, update_at h1 hk2]
    by_cases e : k = j
    · subst e
      rw [if_pos rfl, if_neg (by omega), if_neg (by omega)]
    · rw [if_neg e, if_neg (by omega), if_neg (by omega)]
      exact h2 j (by omega) b
  · intro i
    rw [update_at h1 hk2, if_neg (by omega), h3]

theorem buildLeaf_tot {m : Nat} {data : Array T} (hsz : data.size = 2 * m) (a : Array T) (ha : a.size ≤ m) :
    Tot (forUp 0 a.size data fun i data => do wr data (m + i) (← rd a i)) fun d => d.size = 2 * m ∧
      ∀ i, at' 1 d (m + i) = if i < a.size then at' 1 a i else at' 1 data (m + i) := by
  refine (Tot.forUp (P := fun k (d : Array T) => d.size = 2 * m ∧
    ∀ i, at' 1 d (m + i) = if i < k then at' 1 a i else at' 1 data (m + i)) (Nat.zero_le _) ⟨hsz, by simp⟩ ?_)
  rintro k d hk1 hk2 ⟨h1, h2⟩
  rw [rd_at 1 hk2, ok_bind, wr_eq (by omega)]
  refine Tot.pure ⟨by simpa using h1, ?_⟩
  intro i
  rw [at_set 1 (by omega), h2]
  by_cases e : k = i
  · subst e; simp
  · rw [if_neg (by omega)]
    by_cases e' : i < k
    · rw [if_pos e', if_pos (by omega)]
    · rw [if_neg e', if_neg (by omega)]

theorem build_tot {n : Nat} {f : Nat → T} {s : State T} (h : Rep n f s) (a : Array T) (ha : a.size ≤ n) :
    Tot (build (· * ·) s a) (Rep n fun i => if i < a.size then at' 1 a i else f i) := by
  unfold build
  have := h.hle
  rw [decide_eq_true (by omega), check_true, ok_bind]
  refine Tot.bind (buildLeaf_tot h.hsz a (by omega)) ?_
  rintro d ⟨h1, h2⟩
  refine Tot.bind (buildInner_tot h1 h.m_pos) ?_
  rintro d' ⟨h3, h4, h5⟩
  refine Tot.pure ⟨h.hn, h.hm, h.hle, h3, h4, ?_, ?_⟩
  · intro i hi
    dsimp only at hi ⊢
    rw [h5, h2]
    split
    · rfl
    · exact h.leaf i hi
  · intro i hi
    rw [if_neg (by omega), h.pad i hi]

theorem ofVector_tot (a : Array T) : Tot (ofVector (· * ·) 1 a) (Rep a.size fun i => at' 1 a i) := by
  unfold ofVector
  refine Tot.bind (ceilPow2_tot a.size) ?_
  rintro m ⟨h1, h2⟩
  have hc : ∀ k, at' 1 (Array.replicate (2 * m) (1 : T)) k = 1 := by
    intro k
    unfold at'
    rw [Array.getElem?_replicate]
    split <;> rfl
  have h0 : Rep a.size (fun _ => (1 : T)) ⟨a.size, m, Array.replicate (2 * m) 1⟩ :=
    ⟨rfl, h2, h1, by simp, fun k _ _ => by simp [hc], fun i _ => hc _, fun _ _ => rfl⟩
  refine (build_tot h0 a le_rfl).mono fun s h => ?_
  convert h using 2 with i
  split
  · rfl
  · exact at_ge 1 (by omega)

theorem modify_tot {n : Nat} {f : Nat → T} {s : State T} (h : Rep n f s) {i : Nat} (hi : i < n) (g : T → T) :
    Tot (modify (· * ·) s i g) (Rep n (Function.update f i (g (f i)))) := by
  unfold modify
  have h1 := h.hle
  have h2 := h.hsz
  rw [decide_eq_true (by rw [h.hn]; exact hi), check_true, ok_bind, rd_at 1 (by omega), ok_bind, wr_eq (by omega), ok_bind,
    Nat.add_comm i, h.leaf i (by omega)]
  have hs : ∀ j, at' 1 (s.data.setIfInBounds (s.m + i) (g (f i))) j = if s.m + i = j then g (f i) else at' 1 s.data j :=
    fun j => at_set 1 (by omega) _ _
  refine Tot.bind (updateFrom_tot (m := s.m) (by simpa using h2) (by omega) ?_) ?_
  · intro j a b c
    rw [hs, hs, hs, if_neg (by omega), if_neg (by omega), if_neg (by omega)]
    exact h.inv j a b
  · rintro d ⟨e1, e2, e3⟩
    refine Tot.pure ⟨h.hn, h.hm, h.hle, e1, e2, ?_, ?_⟩
    · intro k hk
      dsimp only at hk ⊢
      rw [e3, hs]
      by_cases e : k = i
      · subst e; simp
      · rw [if_neg (by omega), Function.update_of_ne e, h.leaf k hk]
    · intro k hk
      rw [Function.update_of_ne (by omega), h.pad k hk]

theorem P_leaf {n : Nat} {f : Nat → T} {s : State T} (h : Rep n f s) {l r : Nat} (hr : r ≤ s.m) :
    P (at' 1 s.data) (l + s.m) (r + s.m) = P f l r := by
  rw [P_shift]
  exact P_congr fun i _ hi => h.leaf i (by omega)

theorem P_pad {n : Nat} {f : Nat → T} (hp : ∀ i, n ≤ i → f i = 1) {l r : Nat} (hl : l ≤ n) (hr : n ≤ r) : P f l r = P f l n := by
  rw [P_append f hl hr, P_one_of (fun i a _ => hp i a), mul_one]

theorem prod_eq {n : Nat} {f : Nat → T} {s : State T} (h : Rep n f s) {l r : Nat} (hl : l ≤ r) (hr : r ≤ s.m) :
    prod (· * ·) 1 s l r = .ok (P f l r) := by
  unfold prod
  have h1 := h.m_pos
  obtain ⟨⟨a, b, c, d⟩, e1, e2⟩ := prodStep_tot h.hsz h.inv (fun _ => True) (fun _ _ _ => rfl) (l0 := l + s.m) (r0 := r + s.m)
    (by omega) (by omega) (by omega) (fun _ _ _ _ _ _ => trivial) (fun _ _ _ _ _ _ => trivial) le_rfl
  rw [e1, ok_bind]
  dsimp only [pure_eq] at e2 ⊢
  rw [e2, P_leaf h hr]

theorem allProd_eq {n : Nat} {f : Nat → T} {s : State T} (h : Rep n f s) : allProd s = .ok (P f 0 n) := by
  unfold allProd
  have h1 := h.m_pos
  obtain ⟨j, hj⟩ := h.hm
  rw [rd_at 1 (by rw [h.hsz]; omega), node_eq h.inv j le_rfl (by rw [hj]), ← hj, one_mul, show (1 + 1) * s.m = s.m + s.m by ring]
  have := P_leaf h (l := 0) le_rfl
  rw [Nat.zero_add] at this
  rw [this, P_pad h.pad (Nat.zero_le _) h.hle]

/-! ### `max_right` -/

theorem climbEven_tot {l : Nat} (hl : 1 ≤ l) : Tot (climbEven l) fun l' => ∃ t, l = l' * 2 ^ t ∧ l' % 2 = 1 := by
  unfold climbEven
  refine Tot.loop (P := fun l' : Nat => 1 ≤ l' ∧ ∃ t, l = l' * 2 ^ t) (fun l' => l') ?_ ⟨hl, 0, by simp⟩ le_rfl
  rintro l' ⟨h1, t, h2⟩
  split
  · refine Tot.pure ⟨⟨by omega, t + 1, ?_⟩, by omega⟩
    rw [h2]
    conv_lhs => rw [show l' = 2 * (l' / 2) by omega]
    ring
  · exact Tot.pure ⟨t, h2, by omega⟩

theorem descendR_tot {m j : Nat} (hm : m = 2 ^ j) {data : Array T} (hsz : data.size = 2 * m) (hinv : Inv m (at' 1 data))
    (g : T → Bool) {l0 : Nat} {l h : Nat} {sum : T} (hm1 : m ≤ l * 2 ^ h) (hl0 : l0 ≤ l * 2 ^ h)
    (hm2 : (l + 1) * 2 ^ h ≤ 2 * m) (hs : sum = P (at' 1 data) l0 (l * 2 ^ h)) (hg : g sum = true)
    (hng : g (P (at' 1 data) l0 ((l + 1) * 2 ^ h)) = false) :
    Tot (loop (descendR (· * ·) g m data) m (l, sum)) fun s => m ≤ s.1 ∧ s.1 < 2 * m ∧ l0 ≤ s.1 ∧
      g (P (at' 1 data) l0 s.1) = true ∧ g (P (at' 1 data) l0 (s.1 + 1)) = false := by
  have hl1 : 1 ≤ l := by
    rcases Nat.eq_zero_or_pos l with rfl | h
    · rw [hm] at hm1; have := pow_pos' j; omega
    · exact h
  have hh : h ≤ m := by
    have h1 : 2 * 2 ^ h ≤ (l + 1) * 2 ^ h := Nat.mul_le_mul_right _ (by omega)
    have h2 : h < 2 ^ h := Nat.lt_two_pow_self
    omega
  refine Tot.loopG (P := fun h (s : Nat × T) => m ≤ s.1 * 2 ^ h ∧ l0 ≤ s.1 * 2 ^ h ∧ (s.1 + 1) * 2 ^ h ≤ 2 * m ∧
    s.2 = P (at' 1 data) l0 (s.1 * 2 ^ h) ∧ g s.2 = true ∧ g (P (at' 1 data) l0 ((s.1 + 1) * 2 ^ h)) = false)
    ?_ (k := h) ⟨hm1, hl0, hm2, hs, hg, hng⟩ hh
  rintro h ⟨l, sum⟩ ⟨h1, h2, h3, h4, h5, h6⟩
  dsimp only at h1 h2 h3 h4 h5 h6
  unfold descendR
  dsimp only
  split
  case isFalse hlt =>
    cases h with
    | zero =>
      simp only [pow_zero, mul_one] at h1 h2 h3 h4 h6
      subst h4
      exact Tot.pure ⟨by om, by om, by om, h5, h6⟩
    | succ h =>
      exfalso
      have : 1 * 2 ^ h ≤ (l + 1) * 2 ^ h := Nat.mul_le_mul_right _ (by omega)
      have e : (l + 1) * 2 ^ (h + 1) = 2 * ((l + 1) * 2 ^ h) := by ring
      have h7 : (l + 1) * 1 ≤ (l + 1) * 2 ^ h := Nat.mul_le_mul_left _ (pow_pos' h)
      omega
  case isTrue hlt =>
    cases h with
    | zero => simp at h1; omega
    | succ h =>
      have hl1 : 1 ≤ l := by
        rcases Nat.eq_zero_or_pos l with rfl | h
        · rw [hm] at h1; have := pow_pos' j; omega
        · exact h
      have e1 : l * 2 ^ (h + 1) = 2 * l * 2 ^ h := by ring
      have e2 : (l + 1) * 2 ^ (h + 1) = (2 * l + 1 + 1) * 2 ^ h := by ring
      have e3 : (2 * l + 1) * 2 ^ h ≤ (2 * l + 1 + 1) * 2 ^ h := Nat.mul_le_mul_right _ (by omega)
      have e4 : 2 * l * 2 ^ h ≤ (2 * l + 1) * 2 ^ h := Nat.mul_le_mul_right _ (by omega)
      rw [e2] at h3 h6
      rw [e1] at h1 h2 h4
      have key : sum * at' 1 data (2 * l) = P (at' 1 data) l0 ((2 * l + 1) * 2 ^ h) := by
        rw [node_eq hinv h (by omega) (by omega : (2 * l + 1) * 2 ^ h ≤ 2 * m), h4, ← P_append _ h2 e4]
      rw [rd_at 1 (by omega), ok_bind]
      simp only [key]
      split
      next hgt =>
        exact Tot.pure ⟨h, by omega, by om, by om, h3, rfl, hgt, h6⟩
      next hgt =>
        exact Tot.pure ⟨h, by omega, h1, h2, e3.trans h3, h4, h5, by simpa using hgt⟩

theorem maxRight_tot {n : Nat} {f : Nat → T} {s : State T} (h : Rep n f s) (g : T → Bool) {l : Nat} (hl : l ≤ n)
    (hg : g 1 = true) :
    Tot (maxRight (· * ·) 1 s l g) fun r => l ≤ r ∧ r ≤ n ∧ g (P f l r) = true ∧ (r < n → g (P f l (r + 1)) = false) := by
  unfold maxRight
  rw [h.hn, decide_eq_true hl, check_true, ok_bind, hg, check_true, ok_bind]
  split
  next e =>
    subst e
    exact Tot.pure ⟨le_rfl, le_rfl, by rw [P_empty _ le_rfl]; exact hg, fun h => by omega⟩
  next hne =>
  obtain ⟨j, hj⟩ := h.hm
  have hle := h.hle
  have hm1 := h.m_pos
  have hsz := h.hsz
  set m := s.m with hm
  set D := at' 1 s.data with hD
  have hleaf : ∀ r, r ≤ m → P D (l + m) (r + m) = P f l r := fun r hr => P_leaf h hr
  have L : Tot (loop (maxStep (· * ·) g n m s.data) (2 * m) (false, l + m, 1))
      (fun q : Bool × Nat × T => l ≤ q.2.1 ∧ q.2.1 ≤ n ∧ g (P f l q.2.1) = true ∧ (q.2.1 < n → g (P f l (q.2.1 + 1)) = false)) := by
    refine Tot.loopG (k := m - l) (P := fun k (q : Bool × Nat × T) => (q.1 = false ∧ ∃ h, m ≤ q.2.1 * 2 ^ h ∧ l + m ≤ q.2.1 * 2 ^ h ∧
        q.2.1 * 2 ^ h + k = 2 * m ∧ 0 < k ∧ q.2.2 = P D (l + m) (q.2.1 * 2 ^ h) ∧ g q.2.2 = true) ∨
      (q.1 = true ∧ l ≤ q.2.1 ∧ q.2.1 ≤ n ∧ g (P f l q.2.1) = true ∧ (q.2.1 < n → g (P f l (q.2.1 + 1)) = false)))
      ?_ ?_ (show m - l ≤ 2 * m by omega)
    · rintro k ⟨stop, x, sum⟩ hq
      unfold maxStep
      dsimp only at hq ⊢
      rcases hq with ⟨rfl, h0, h1, h2, h3, h4, h5, h6⟩ | ⟨rfl, hq⟩
      · rw [if_neg (by simp)]
        have hx1 : 1 ≤ x := by
          rcases Nat.eq_zero_or_pos x with rfl | h
          · omega
          · exact h
        refine Tot.bind (climbEven_tot hx1) ?_
        rintro y ⟨t, rfl, hodd⟩
        have hy1 : 1 ≤ y := by omega
        have epos : y * 2 ^ t * 2 ^ h0 = y * 2 ^ (t + h0) := by ring
        rw [epos] at h1 h2 h3 h5
        set c := t + h0
        have e0 : 2 ^ (j + 1) = 2 * m := by rw [hj]; ring
        have e1 : (y + 1) * 2 ^ c ≤ 2 * m := by
          rcases mul_add_le (a := y) (h := c) (j := j + 1) (by omega) with h | h
          · rwa [e0] at h
          · omega
        have hpc := pow_pos' c
        have e2 : (y + 1) * 2 ^ c = y * 2 ^ c + 2 ^ c := by ring
        have hyc : y * 1 ≤ y * 2 ^ c := Nat.mul_le_mul_left _ hpc
        have key : sum * at' 1 s.data y = P D (l + m) ((y + 1) * 2 ^ c) := by
          rw [show at' 1 s.data y = P D (y * 2 ^ c) ((y + 1) * 2 ^ c) from node_eq h.inv c hy1 e1, h5, ← P_append _ h2 (by omega)]
        rw [rd_at 1 (by omega), ok_bind]
        simp only [key]
        split
        next hgt =>
          split
          next hlow =>
            refine Tot.pure ⟨k - 2 ^ c, by omega, Or.inl ⟨rfl, c, ?_, ?_, ?_, ?_, rfl, hgt⟩⟩
            · dsimp only; omega
            · dsimp only; omega
            · dsimp only; omega
            · rcases Nat.lt_or_ge (2 ^ c) k with hlt | hge
              · omega
              · exfalso
                apply hlow
                rw [lowbit_eq_self (by omega)]
                have h7 : (y + 1) * 2 ^ c = 2 ^ (j + 1) := by omega
                have h8 : y + 1 ∣ 2 ^ (j + 1) := ⟨2 ^ c, h7.symm⟩
                obtain ⟨i, -, hi⟩ := (Nat.dvd_prime_pow Nat.prime_two).1 h8
                exact ⟨i, hi⟩
          next hlow =>
            refine Tot.pure ⟨0, h4, Or.inr ⟨rfl, hl, le_rfl, ?_, fun h => by dsimp only at h; omega⟩⟩
            dsimp only
            obtain ⟨i, hi⟩ := (lowbit_eq_self (by omega)).1 (not_not.1 hlow)
            have h7 : (y + 1) * 2 ^ c = 2 * m := by
              rw [hi, ← pow_add] at e2 e1 ⊢
              rw [hj] at h1
              have h8 : j < i + c := by
                rw [← Nat.pow_lt_pow_iff_right (a := 2) (by omega)]; omega
              have h9 : i + c ≤ j + 1 := by
                rw [← Nat.pow_le_pow_iff_right (a := 2) (by omega)]; omega
              rw [← e0]; congr 1; omega
            rw [h7, show 2 * m = m + m by omega, hleaf m le_rfl, P_pad h.pad hl hle] at hgt
            exact hgt
        next hgt =>
          refine Tot.bind (descendR_tot hj hsz h.inv g h1 h2 e1 h5 h6 (by simpa using hgt)) ?_
          rintro ⟨z, sum'⟩ ⟨z1, z2, z3, z4, z5⟩
          dsimp only at z1 z2 z3 z4 z5
          refine Tot.pure ⟨0, h4, Or.inr ⟨rfl, ?_⟩⟩
          dsimp only
          obtain ⟨r, rfl⟩ := Nat.exists_eq_add_of_le z1
          rw [show m + r = r + m by omega] at z4 z5
          rw [show r + m + 1 = r + 1 + m by omega] at z5
          rw [← hD, hleaf _ (by omega)] at z4 z5
          rw [show m + r - m = r by omega]
          refine ⟨by omega, ?_, z4, fun _ => z5⟩
          by_contra hc
          rw [P_right f (by omega), h.pad r (by omega), mul_one, z4] at z5
          cases z5
      · rw [if_pos rfl]
        exact Tot.pure hq
    · left
      refine ⟨rfl, 0, ?_⟩
      dsimp only
      simp only [pow_zero, mul_one]
      exact ⟨by omega, by omega, by omega, by omega, by rw [P_empty _ le_rfl], hg⟩
  exact Tot.bind L fun q hq => Tot.pure hq

/-! ### `min_left` -/

theorem climbOdd_tot' {r : Nat} (hr : 1 ≤ r) :
    Tot (climbOdd r) fun r' => 1 ≤ r' ∧ ∃ t, r + 1 = (r' + 1) * 2 ^ t ∧ (r' = 1 ∨ r' % 2 = 0) := by
  unfold climbOdd
  refine Tot.loop (P := fun r' : Nat => 1 ≤ r' ∧ ∃ t, r + 1 = (r' + 1) * 2 ^ t) (fun r' => r') ?_ ⟨hr, 0, by simp⟩ le_rfl
  rintro r' ⟨h1, t, h2⟩
  split
  next hc =>
    refine Tot.pure ⟨⟨by omega, t + 1, ?_⟩, by omega⟩
    rw [h2]
    conv_lhs => rw [show r' = 2 * (r' / 2) + 1 by omega]
    ring
  · exact Tot.pure ⟨h1, t, h2, by omega⟩

theorem climbOdd_tot {r : Nat} (hr : 1 ≤ r) : Tot (climbOdd r) fun r' => 1 ≤ r' ∧ ∃ t, r + 1 = (r' + 1) * 2 ^ t :=
  (climbOdd_tot' hr).mono fun _ ⟨h, t, h', _⟩ => ⟨h, t, h'⟩

theorem descendL_tot {m j : Nat} (hm : m = 2 ^ j) {data : Array T} (hsz : data.size = 2 * m) (hinv : Inv m (at' 1 data))
    (g : T → Bool) {r0 : Nat} {r h : Nat} {sum : T} (hm1 : m ≤ r * 2 ^ h) (hr0 : (r + 1) * 2 ^ h ≤ r0)
    (hm2 : r0 ≤ 2 * m) (hs : sum = P (at' 1 data) ((r + 1) * 2 ^ h) r0) (hg : g sum = true)
    (hng : g (P (at' 1 data) (r * 2 ^ h) r0) = false) :
    Tot (loop (descendL (· * ·) g m data) m (r, sum)) fun s => m ≤ s.1 ∧ s.1 + 1 ≤ r0 ∧
      g (P (at' 1 data) (s.1 + 1) r0) = true ∧ g (P (at' 1 data) s.1 r0) = false := by
  have hl1 : 1 ≤ r := by
    rcases Nat.eq_zero_or_pos r with rfl | h
    · rw [hm] at hm1; have := pow_pos' j; omega
    · exact h
  have hh : h ≤ m := by
    have h1 : 2 * 2 ^ h ≤ (r + 1) * 2 ^ h := Nat.mul_le_mul_right _ (by omega)
    have h2 : h < 2 ^ h := Nat.lt_two_pow_self
    omega
  refine Tot.loopG (P := fun h (s : Nat × T) => m ≤ s.1 * 2 ^ h ∧ (s.1 + 1) * 2 ^ h ≤ r0 ∧
    s.2 = P (at' 1 data) ((s.1 + 1) * 2 ^ h) r0 ∧ g s.2 = true ∧ g (P (at' 1 data) (s.1 * 2 ^ h) r0) = false)
    ?_ (k := h) ⟨hm1, hr0, hs, hg, hng⟩ hh
  rintro h ⟨l, sum⟩ ⟨h1, h3, h4, h5, h6⟩
  dsimp only at h1 h3 h4 h5 h6
  unfold descendL
  dsimp only
  split
  case isFalse hlt =>
    cases h with
    | zero =>
      simp only [pow_zero, mul_one] at h1 h3 h4 h6
      subst h4
      exact Tot.pure ⟨by om, by om, h5, h6⟩
    | succ h =>
      exfalso
      have e : (l + 1) * 2 ^ (h + 1) = 2 * ((l + 1) * 2 ^ h) := by ring
      have h7 : (l + 1) * 1 ≤ (l + 1) * 2 ^ h := Nat.mul_le_mul_left _ (pow_pos' h)
      omega
  case isTrue hlt =>
    cases h with
    | zero => simp at h1; omega
    | succ h =>
      have hl1 : 1 ≤ l := by
        rcases Nat.eq_zero_or_pos l with rfl | h
        · rw [hm] at h1; have := pow_pos' j; omega
        · exact h
      have e1 : l * 2 ^ (h + 1) = 2 * l * 2 ^ h := by ring
      have e2 : (l + 1) * 2 ^ (h + 1) = (2 * l + 1 + 1) * 2 ^ h := by ring
      have e3 : (2 * l + 1) * 2 ^ h ≤ (2 * l + 1 + 1) * 2 ^ h := Nat.mul_le_mul_right _ (by omega)
      have e4 : 2 * l * 2 ^ h ≤ (2 * l + 1) * 2 ^ h := Nat.mul_le_mul_right _ (by omega)
      rw [e2] at h3 h4
      rw [e1] at h1 h6
      have key : at' 1 data (2 * l + 1) * sum = P (at' 1 data) ((2 * l + 1) * 2 ^ h) r0 := by
        rw [node_eq hinv h (by omega) (by omega : (2 * l + 1 + 1) * 2 ^ h ≤ 2 * m), h4, ← P_append _ e3 h3]
      rw [rd_at 1 (by omega), ok_bind]
      simp only [key]
      split
      next hgt =>
        exact Tot.pure ⟨h, by omega, h1, e3.trans h3, rfl, hgt, h6⟩
      next hgt =>
        exact Tot.pure ⟨h, by omega, h1.trans e4, h3, h4, h5, by simpa using hgt⟩

theorem minLeft_tot {n : Nat} {f : Nat → T} {s : State T} (h : Rep n f s) (g : T → Bool) {r : Nat} (hr : r ≤ n)
    (hg : g 1 = true) :
    Tot (minLeft (· * ·) 1 s r g) fun l => l ≤ r ∧ g (P f l r) = true ∧ (0 < l → g (P f (l - 1) r) = false) := by
  unfold minLeft
  rw [h.hn, decide_eq_true hr, check_true, ok_bind, hg, check_true, ok_bind]
  split
  next e =>
    subst e
    exact Tot.pure ⟨le_rfl, by rw [P_empty _ le_rfl]; exact hg, fun h => by omega⟩
  next hne =>
  obtain ⟨j, hj⟩ := h.hm
  have hle := h.hle
  have hm1 := h.m_pos
  have hsz := h.hsz
  set m := s.m with hm
  set D := at' 1 s.data with hD
  have hleaf : ∀ l, P D (l + m) (r + m) = P f l r := fun l => P_leaf h (by omega)
  have e0 : 2 ^ (j + 1) = 2 * m := by rw [hj]; ring
  have L : Tot (loop (minStep (· * ·) g m s.data) (2 * m) (false, r + m, 1))
      (fun q : Bool × Nat × T => q.2.1 ≤ r ∧ g (P f q.2.1 r) = true ∧ (0 < q.2.1 → g (P f (q.2.1 - 1) r) = false)) := by
    refine Tot.loopG (k := r) (P := fun k (q : Bool × Nat × T) => (q.1 = false ∧ ∃ h, m < q.2.1 * 2 ^ h ∧ q.2.1 * 2 ^ h ≤ r + m ∧
        q.2.1 * 2 ^ h = m + k ∧ 2 ≤ q.2.1 ∧ q.2.2 = P D (q.2.1 * 2 ^ h) (r + m) ∧ g q.2.2 = true) ∨
      (q.1 = true ∧ q.2.1 ≤ r ∧ g (P f q.2.1 r) = true ∧ (0 < q.2.1 → g (P f (q.2.1 - 1) r) = false)))
      ?_ ?_ (show r ≤ 2 * m by omega)
    · rintro k ⟨stop, x, sum⟩ hq
      unfold minStep
      dsimp only at hq ⊢
      rcases hq with ⟨rfl, h0, h1, h2, h3, h4, h5, h6⟩ | ⟨rfl, hq⟩
      · rw [if_neg (by simp)]
        refine Tot.bind (climbOdd_tot (by omega : 1 ≤ x - 1)) ?_
        rintro y ⟨hy1, t, ht⟩
        rw [show x - 1 + 1 = x by omega] at ht
        have epos : x * 2 ^ h0 = (y + 1) * 2 ^ (t + h0) := by rw [ht]; ring
        rw [epos] at h1 h2 h3 h5
        set c := t + h0
        have hpc := pow_pos' c
        have e2 : (y + 1) * 2 ^ c = y * 2 ^ c + 2 ^ c := by ring
        have hyc : y * 1 ≤ y * 2 ^ c := Nat.mul_le_mul_left _ hpc
        have e1 : m ≤ y * 2 ^ c := by
          have := lt_mul_add (a := y + 1) (h := c) (j := j) (by omega) (by omega) (by omega)
          rwa [Nat.add_sub_cancel, ← hj] at this
        have key : at' 1 s.data y * sum = P D (y * 2 ^ c) (r + m) := by
          rw [show at' 1 s.data y = P D (y * 2 ^ c) ((y + 1) * 2 ^ c) from node_eq h.inv c hy1 (by omega), h5, ← P_append _ (by omega) h2]
        rw [rd_at 1 (by omega), ok_bind]
        simp only [key]
        split
        next hgt =>
          split
          next hlow =>
            have hy2 : 2 ≤ y := by
              by_contra hc
              have : y = 1 := by omega
              subst this
              exact hlow rfl
            refine Tot.pure ⟨k - 2 ^ c, by omega, Or.inl ⟨rfl, c, ?_, by om, by om, hy2, rfl, hgt⟩⟩
            · dsimp only
              rcases Nat.lt_or_ge m (y * 2 ^ c) with hlt | hge
              · exact hlt
              · exfalso
                apply hlow
                rw [lowbit_eq_self (by omega)]
                have h7 : y * 2 ^ c = 2 ^ j := by omega
                have h8 : y ∣ 2 ^ j := ⟨2 ^ c, h7.symm⟩
                obtain ⟨i, -, hi⟩ := (Nat.dvd_prime_pow Nat.prime_two).1 h8
                exact ⟨i, hi⟩
          next hlow =>
            refine Tot.pure ⟨0, by omega, Or.inr ⟨rfl, Nat.zero_le _, ?_, fun h => by dsimp only at h; omega⟩⟩
            dsimp only
            obtain ⟨i, hi⟩ := (lowbit_eq_self (by omega)).1 (not_not.1 hlow)
            have h7 : y * 2 ^ c = m := by
              have b1 : y * 2 ^ c < 2 * m := by omega
              have b2 : y * 2 ^ c = 2 ^ (i + c) := by rw [hi, ← pow_add]
              rw [b2] at b1 e1 ⊢
              rw [← e0] at b1
              rw [hj] at e1 ⊢
              have h8 := (Nat.pow_le_pow_iff_right (a := 2) (by omega)).1 e1
              have h9 := (Nat.pow_lt_pow_iff_right (a := 2) (by omega)).1 b1
              rw [show i + c = j by omega]
            have := hleaf 0
            rw [Nat.zero_add] at this
            rw [h7, this] at hgt
            exact hgt
        next hgt =>
          refine Tot.bind (descendL_tot hj hsz h.inv g e1 h2 (by omega) h5 h6 (by simpa using hgt)) ?_
          rintro ⟨z, sum'⟩ ⟨z1, z2, z4, z5⟩
          dsimp only at z1 z2 z4 z5
          refine Tot.pure ⟨0, by omega, Or.inr ⟨rfl, ?_⟩⟩
          dsimp only
          obtain ⟨l, rfl⟩ := Nat.exists_eq_add_of_le z1
          rw [show m + l = l + m by omega] at z4 z5
          rw [show l + m + 1 = l + 1 + m by omega] at z4
          rw [← hD, hleaf _] at z4 z5
          rw [show m + l + 1 - m = l + 1 by omega]
          exact ⟨by omega, z4, fun _ => z5⟩
      · rw [if_pos rfl]
        exact Tot.pure hq
    · left
      refine ⟨rfl, 0, ?_⟩
      dsimp only
      simp only [pow_zero, mul_one]
      exact ⟨by omega, by omega, by omega, by omega, by rw [P_empty _ le_rfl], hg⟩
  exact Tot.bind L fun q hq => Tot.pure hq

end SegmentTree
