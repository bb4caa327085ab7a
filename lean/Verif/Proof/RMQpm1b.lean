import Verif.Proof.RMQpm1

/-! # Helper lemmas for `RMQpm1`, part 2: blocks and queries -/

namespace RMQpm1
open Cxx

variable {T : Type}

/-- Values for which the comparisons with `e()` are meaningful. -/
def In (v : Int) : Prop := -2 ^ 31 < v ∧ v < 2 ^ 31 - 1

structure Kind.Lawful (K : Kind T) (mn : Bool) : Prop where
  le_of : ∀ v w i j, In v → In w → K.lt (K.of v i) (K.of w j) = true → sg mn v ≤ sg mn w
  ge_of : ∀ v w i j, In v → In w → K.lt (K.of v i) (K.of w j) = false → sg mn w ≤ sg mn v
  ne : ∀ v w i j, v ≠ w → K.lt (K.of v i) (K.of w j) = ltv mn v w
  e_l : ∀ v i, In v → K.lt K.e (K.of v i) = false
  e_r : ∀ v i, In v → K.lt (K.of v i) K.e = true

theorem plain_lawful (mn : Bool) : (Kind.plain mn).Lawful mn := by
  refine ⟨?_, ?_, ?_, ?_, ?_⟩
  · intro v w i j _ _ h; exact ((ltv_iff mn v w).1 h).le
  · intro v w i j _ _ h
    by_contra hc
    have := (ltv_iff mn v w).2 (by omega)
    rw [show (Kind.plain mn).lt ((Kind.plain mn).of v i) ((Kind.plain mn).of w j) = ltv mn v w from rfl, this] at h
    cases h
  · intros; rfl
  · rintro v i ⟨h1, h2⟩
    cases mn <;> simp [Kind.plain, ltv] <;> omega
  · rintro v i ⟨h1, h2⟩
    cases mn <;> simp [Kind.plain, ltv] <;> omega

theorem indexed_lawful (mn : Bool) : (Kind.indexed mn).Lawful mn := by
  refine ⟨?_, ?_, ?_, ?_, ?_⟩
  · intro v w i j _ _ h
    cases mn <;> simp [Kind.indexed, ltp, sg] at h ⊢ <;> omega
  · intro v w i j _ _ h
    cases mn <;> simp [Kind.indexed, ltp, sg] at h ⊢ <;> omega
  · intro v w i j h
    cases mn <;> simp [Kind.indexed, ltp, ltv] <;> omega
  · rintro v i ⟨h1, h2⟩
    cases mn <;> simp [Kind.indexed, ltp] <;> omega
  · rintro v i ⟨h1, h2⟩
    cases mn <;> simp [Kind.indexed, ltp] <;> omega

/-- `x` is a best element among the positions in `S`. -/
def Best (K : Kind T) (mn : Bool) (f : Nat → Int) (S : Nat → Prop) (x : T) : Prop :=
  ((∀ k, ¬ S k) ∧ x = K.e) ∨ ∃ k, S k ∧ x = K.of (f k) k ∧ ∀ j, S j → sg mn (f k) ≤ sg mn (f j)

theorem Best.congr {K : Kind T} {mn : Bool} {f : Nat → Int} {S S' : Nat → Prop} {x : T} (h : Best K mn f S x) (he : ∀ k, S k ↔ S' k) : Best K mn f S' x := by
  rcases h with ⟨h, e⟩ | ⟨k, h1, h2, h3⟩
  · exact Or.inl ⟨fun k hk => h k ((he k).2 hk), e⟩
  · exact Or.inr ⟨k, (he k).1 h1, h2, fun j hj => h3 j ((he j).2 hj)⟩

theorem Best.union {K : Kind T} {mn : Bool} (L : K.Lawful mn) {f : Nat → Int} {S S' : Nat → Prop} {x y : T} (h1 : Best K mn f S x) (h2 : Best K mn f S' y)
    (hv : ∀ k, S k ∨ S' k → In (f k)) : Best K mn f (fun k => S k ∨ S' k) (K.op x y) := by
  unfold Kind.op
  rcases h1 with ⟨n1, rfl⟩ | ⟨k, a1, rfl, a3⟩ <;> rcases h2 with ⟨n2, rfl⟩ | ⟨k', b1, rfl, b3⟩
  · refine Or.inl ⟨fun k hk => hk.elim (n1 k) (n2 k), ?_⟩
    split <;> rfl
  · rw [L.e_l _ _ (hv k' (Or.inr b1)), if_neg (by simp)]
    exact Or.inr ⟨k', Or.inr b1, rfl, fun j hj => hj.elim (fun h => absurd h (n1 j)) (b3 j)⟩
  · rw [L.e_r _ _ (hv k (Or.inl a1)), if_pos rfl]
    exact Or.inr ⟨k, Or.inl a1, rfl, fun j hj => hj.elim (a3 j) (fun h => absurd h (n2 j))⟩
  · cases hc : K.lt (K.of (f k) k) (K.of (f k') k')
    · rw [if_neg (by simp)]
      have := L.ge_of _ _ _ _ (hv k (Or.inl a1)) (hv k' (Or.inr b1)) hc
      exact Or.inr ⟨k', Or.inr b1, rfl, fun j hj => hj.elim (fun h => le_trans this (a3 j h)) (b3 j)⟩
    · rw [if_pos rfl]
      have := L.le_of _ _ _ _ (hv k (Or.inl a1)) (hv k' (Or.inr b1)) hc
      exact Or.inr ⟨k, Or.inl a1, rfl, fun j hj => hj.elim (a3 j) (fun h => le_trans this (b3 j h))⟩

/-- The value before position `i`. -/
def prev (x : Array Int) (i : Nat) : Int := if i = 0 then at' 0 x 0 - 1 else at' 0 x (i - 1)

/-- Neighbours differ by one. -/
def Pm1 (x : Array Int) : Prop := ∀ i, i < x.size → at' 0 x i - prev x i = 1 ∨ at' 0 x i - prev x i = -1

/-- The sign bit of position `i`. -/
def down (mn : Bool) (x : Array Int) (i : Nat) : Bool := ltv mn (at' 0 x i) (prev x i)

theorem down_dl (mn : Bool) {x : Array Int} {i : Nat} (h : at' 0 x i - prev x i = 1 ∨ at' 0 x i - prev x i = -1) : dl mn (down mn x i) = at' 0 x i - prev x i := by
  unfold down ltv dl
  cases mn
  · simp only [Bool.false_eq_true, if_false]
    by_cases c : prev x i < at' 0 x i
    · rw [decide_eq_true c]; simp; omega
    · rw [decide_eq_false c]; simp; omega
  · simp only [if_true]
    by_cases c : at' 0 x i < prev x i
    · rw [decide_eq_true c]; simp; omega
    · rw [decide_eq_false c]; simp; omega

def ScanInv (K : Kind T) (mn : Bool) (lg : Nat) (x : Array Int) (m i : Nat) (s : Scan T) : Prop :=
  s.b.size = m ∧ s.c.size = m ∧ s.p = K.of (prev x i) ((i : Int) - 1) ∧
  (∀ o, o < m → ∃ w, s.b[o]? = some w ∧ ∀ j, j < 2 ^ lg → w.testBit j = (decide (o * 2 ^ lg + j < i) && down mn x (o * 2 ^ lg + j))) ∧
  ∀ o, o < m → ∃ y, s.c[o]? = some y ∧ Best K mn (at' 0 x) (fun k => k / 2 ^ lg = o ∧ k < i) y

theorem m_gt {lg n i : Nat} (h : i < n) : i / 2 ^ lg < (n + 2 ^ lg - 1) / 2 ^ lg := by
  have hp := Nat.two_pow_pos lg
  rw [Nat.div_lt_iff_lt_mul hp]
  have := Nat.lt_div_mul_add hp (a := n + 2 ^ lg - 1)
  omega

theorem scanStep_tot {K : Kind T} {mn : Bool} (L : K.Lawful mn) {lg : Nat} {x : Array Int} {m i : Nat} {s : Scan T} (hi : i < x.size) (hm : m = (x.size + 2 ^ lg - 1) / 2 ^ lg)
    (hx : ∀ i, i < x.size → In (at' 0 x i)) (hd : at' 0 x i ≠ prev x i) (h : ScanInv K mn lg x m i s) : Tot (scanStep K lg x i s) (ScanInv K mn lg x m (i + 1)) := by
  obtain ⟨h1, h2, h3, h4, h5⟩ := h
  have hp := Nat.two_pow_pos lg
  have ho : i / 2 ^ lg < m := hm ▸ m_gt hi
  unfold scanStep
  dsimp only
  rw [Nat.shiftRight_eq_div_pow, Nat.and_two_pow_sub_one_eq_mod]
  obtain ⟨w, ew, hw⟩ := h4 _ ho
  obtain ⟨y, ey, hy⟩ := h5 _ ho
  rw [rd_at 0 hi, ok_bind, rd_some ey, ok_bind, wr_eq (by omega), ok_bind, rd_some ew, ok_bind, wr_eq (by omega), ok_bind]
  have hmd := Nat.div_add_mod i (2 ^ lg)
  have hml := Nat.mod_lt i hp
  refine Tot.pure ⟨by simpa using h1, by simpa using h2, ?_, fun o hom => ?_, fun o hom => ?_⟩
  · dsimp only
    rw [show prev x (i + 1) = at' 0 x i by unfold prev; rw [if_neg (by omega)]; rfl]
    congr 1; push_cast; ring
  · dsimp only
    rw [get?_set _ _ _ _ (by omega)]
    by_cases c : i / 2 ^ lg = o
    · rw [if_pos c]
      refine ⟨_, rfl, fun j hj => ?_⟩
      rw [Nat.testBit_or, hw j hj, Nat.testBit_shiftLeft, h3, L.ne _ _ _ _ hd]
      subst c
      have e1 : i / 2 ^ lg * 2 ^ lg = i - i % 2 ^ lg := by rw [Nat.mul_comm]; omega
      rw [e1]
      have hle := Nat.mod_le i (2 ^ lg)
      obtain ⟨r, hr⟩ : ∃ r, r = i % 2 ^ lg := ⟨_, rfl⟩
      rw [← hr] at hle hml ⊢
      by_cases c1 : j < r
      · rw [decide_eq_true (show i - r + j < i by omega), decide_eq_true (show i - r + j < i + 1 by omega), decide_eq_false (show ¬ j ≥ r by omega)]
        simp
      · rw [decide_eq_false (show ¬ i - r + j < i by omega), decide_eq_true (show j ≥ r by omega)]
        by_cases c2 : j = r
        · subst c2
          rw [show i - j + j = i by omega, decide_eq_true (show i < i + 1 by omega), Nat.sub_self]
          show _ = (true && ltv mn (at' 0 x i) (prev x i))
          cases ltv mn (at' 0 x i) (prev x i) <;> rfl
        · rw [decide_eq_false (show ¬ i - r + j < i + 1 by omega)]
          obtain ⟨q, hq⟩ : ∃ q, j - r = q + 1 := ⟨j - r - 1, by omega⟩
          rw [hq]
          cases ltv mn (at' 0 x i) (prev x i) <;> simp [Nat.testBit_succ]
    · rw [if_neg c]
      obtain ⟨w', ew', hw'⟩ := h4 o hom
      refine ⟨w', ew', fun j hj => ?_⟩
      rw [hw' j hj]
      congr 1
      apply decide_eq_decide.2
      have : o * 2 ^ lg + j ≠ i := by
        rintro rfl
        apply c
        rw [Nat.mul_comm, Nat.mul_add_div hp, Nat.div_eq_of_lt hj, Nat.add_zero]
      omega
  · dsimp only
    rw [get?_set _ _ _ _ (by omega)]
    by_cases c : i / 2 ^ lg = o
    · rw [if_pos c]
      refine ⟨_, rfl, ?_⟩
      subst c
      have hq : Best K mn (at' 0 x) (fun k => k = i) (K.of (at' 0 x i) i) := Or.inr ⟨i, rfl, rfl, fun j hj => by rw [hj]⟩
      refine (Best.union L hy hq ?_).congr ?_
      · rintro k (⟨_, hk⟩ | rfl)
        · exact hx k (by omega)
        · exact hx _ hi
      · intro k
        constructor
        · rintro (⟨a, b⟩ | rfl)
          · exact ⟨a, by omega⟩
          · exact ⟨rfl, by omega⟩
        · rintro ⟨a, b⟩
          by_cases hki : k = i
          · exact Or.inr hki
          · exact Or.inl ⟨a, by omega⟩
    · rw [if_neg c]
      obtain ⟨y', ey', hy'⟩ := h5 o hom
      refine ⟨y', ey', hy'.congr fun k => ?_⟩
      constructor
      · rintro ⟨a, b⟩; exact ⟨a, by omega⟩
      · rintro ⟨a, b⟩
        refine ⟨a, ?_⟩
        have : k ≠ i := by rintro rfl; exact c a
        omega

theorem at_cons (p : Int) (x : Array Int) (i : Nat) : at' 0 (#[p] ++ x) i = if i = 0 then p else at' 0 x (i - 1) := by
  unfold at'
  split
  next c => subst c; simp
  next c =>
    obtain ⟨j, rfl⟩ : ∃ j, i = j + 1 := ⟨i - 1, by omega⟩
    rw [Array.getElem?_append_right (by simp)]
    simp

theorem steps_tot {x : Array Int} (h : x.size ≠ 0) (hx : ∀ i, i < x.size → In (at' 0 x i)) (hp : Pm1 x) : steps (#[at' 0 x 0 - 1] ++ x) = .ok true := by
  unfold steps
  have := Tot.forUp (lo := 1) (hi := (#[at' 0 x 0 - 1] ++ x).size) (P := fun _ (ok : Bool) => ok = true) (s := true) (f := stepsStep (#[at' 0 x 0 - 1] ++ x)) (by simp) rfl ?_
  · obtain ⟨b, hb, rfl⟩ := this; exact hb
  · rintro i ok h1 h2 rfl
    have hsz : (#[at' 0 x 0 - 1] ++ x).size = x.size + 1 := by simp; omega
    rw [hsz] at h2
    unfold stepsStep
    rw [if_pos rfl, rd_at 0 (by omega), ok_bind, rd_at 0 (by omega), ok_bind, at_cons, at_cons, if_neg (show i ≠ 0 by omega)]
    have e : (if i - 1 = 0 then at' 0 x 0 - 1 else at' 0 x (i - 1 - 1)) = prev x (i - 1) := by unfold prev; rfl
    rw [e]
    have := hp (i - 1) (by omega)
    unfold diff
    rw [i32_ok ⟨by omega, by omega⟩, ok_bind, i32_ok ⟨by omega, by omega⟩, ok_bind, pure_eq, ok_bind]
    exact Tot.pure (decide_eq_true (by simp; omega))

/-- What a constructed object holds. -/
structure Made (K : Kind T) (mn : Bool) (lg : Nat) (x : Array Int) (o : Obj T) : Prop where
  t1 : o.t.prd.size = 2 ^ 2 ^ lg
  t2 : o.t.arg.size = 2 ^ 2 ^ lg
  t3 : TabsOk mn lg o.t
  a : o.a = #[at' 0 x 0 - 1] ++ x
  b : ∀ u, u < (x.size + 2 ^ lg - 1) / 2 ^ lg → ∃ w, o.b[u]? = some w ∧ ∀ j, j < 2 ^ lg → w.testBit j = (decide (u * 2 ^ lg + j < x.size) && down mn x (u * 2 ^ lg + j))
  tabl : ∀ l r, l < r → r ≤ (x.size + 2 ^ lg - 1) / 2 ^ lg → Tot (SparseTable.prod K.op K.e o.tabl l r) (Best K mn (at' 0 x) (fun k => l * 2 ^ lg ≤ k ∧ k < r * 2 ^ lg ∧ k < x.size))

theorem make_tot {K : Kind T} {mn : Bool} (L : K.Lawful mn) (lg : Nat) (d : T) {x : Array Int} (h0 : x.size ≠ 0) (hx : ∀ i, i < x.size → In (at' 0 x i)) (hp : Pm1 x) :
    Tot (make K mn lg d x) (Made K mn lg x) := by
  have hpp := Nat.two_pow_pos lg
  have hx0 := hx 0 (by omega)
  unfold make
  refine Tot.bind (tabs_tot mn lg) fun t ⟨t1, t2, t3⟩ => ?_
  dsimp only
  rw [rd_at 0 (by omega), ok_bind, i32_ok ⟨by have := hx0.1; omega, by have := hx0.2; omega⟩, ok_bind, Nat.shiftRight_eq_div_pow]
  obtain ⟨m, hm⟩ : ∃ m, m = (x.size + 2 ^ lg - 1) / 2 ^ lg := ⟨_, rfl⟩
  rw [← hm]
  refine Tot.bind (P := ScanInv K mn lg x m x.size) ?_ fun s ⟨h1, h2, _, h4, h5⟩ => ?_
  · refine Tot.forUp (P := ScanInv K mn lg x m) (Nat.zero_le _) ⟨by simp, by simp, by simp [prev], fun o ho => ⟨0, by simp [ho], by simp⟩, fun o ho => ⟨K.e, by simp [ho], Or.inl ⟨by omega, rfl⟩⟩⟩ ?_
    intro i s _ hi h
    exact scanStep_tot L hi hm hx (by have := hp i hi; omega) h
  rw [steps_tot h0 hx hp, ok_bind, check_true, ok_bind]
  have hms : m ≠ 0 := by
    have := m_gt (lg := lg) (n := x.size) (i := 0) (by omega)
    rw [Nat.zero_div] at this
    omega
  refine Tot.bind (SparseTable.ofVectorG_tot (Q := fun l r => Best K mn (at' 0 x) (fun k => l * 2 ^ lg ≤ k ∧ k < r * 2 ^ lg ∧ k < x.size)) d K.e s.c (by omega) ?_ ?_) fun tb htb => ?_
  · intro l q q' r y z a1 a2 a3 a4 a5 a6 hy hz
    refine (Best.union L hy hz fun k hk => hx k ?_).congr fun k => ?_
    · rcases hk with hk | hk <;> exact hk.2.2
    · have b1 : q' * 2 ^ lg ≤ q * 2 ^ lg := Nat.mul_le_mul_right _ a3
      have b2 : l * 2 ^ lg ≤ q' * 2 ^ lg := Nat.mul_le_mul_right _ a2
      have b3 : q * 2 ^ lg ≤ r * 2 ^ lg := Nat.mul_le_mul_right _ a4
      constructor
      · rintro (h | h) <;> omega
      · rintro h
        by_cases c : k < q * 2 ^ lg
        · left; omega
        · right; omega
  · intro i hi
    obtain ⟨y, ey, hy⟩ := h5 i (by omega)
    rw [Array.getElem?_eq_getElem hi] at ey
    rw [Option.some.inj ey]
    refine hy.congr fun k => ?_
    rw [Nat.div_eq_iff hpp]
    have : (i + 1) * 2 ^ lg = i * 2 ^ lg + 2 ^ lg := by ring
    omega
  · refine Tot.pure ⟨t1, t2, t3, rfl, ?_, ?_⟩
    · rw [← hm]; exact h4
    · rw [← hm, ← h2]; exact htb

/-- Adding up the changes. -/
theorem walk_pre {mn : Bool} {x : Array Int} (hp : Pm1 x) {s l : Nat} : ∀ {len : Nat}, l + len ≤ x.size → (∀ i, i < len → s.testBit i = down mn x (l + i)) →
    ∀ j, j < len → prev x l + pre mn s (j + 1) = at' 0 x (l + j) := by
  intro len hl hs j
  induction j with
  | zero =>
    intro hj
    rw [pre_succ, hs 0 hj, Nat.add_zero, down_dl mn (hp l (by omega))]
    simp [pre]
  | succ j ih =>
    intro hj
    rw [pre_succ, hs _ hj, ← add_assoc, ih (by omega), down_dl mn (hp _ (by omega))]
    have : prev x (l + (j + 1)) = at' 0 x (l + j) := by unfold prev; rw [if_neg (by omega)]; rfl
    rw [this]; ring

theorem part_tot {K : Kind T} {mn : Bool} {lg : Nat} {x : Array Int} (hx : ∀ i, i < x.size → In (at' 0 x i)) (hp : Pm1 x) {o : Obj T} (M : Made K mn lg x o) {l r : Nat} (hr : r ≤ x.size)
    (hb : l < r → l / 2 ^ lg = (r - 1) / 2 ^ lg) : Tot (part K lg o l r) (Best K mn (at' 0 x) (fun k => l ≤ k ∧ k < r)) := by
  unfold part
  by_cases hlr : l ≥ r
  · rw [if_pos hlr]; exact Tot.pure (Or.inl ⟨by omega, rfl⟩)
  rw [if_neg hlr]
  dsimp only
  have hpp := Nat.two_pow_pos lg
  have hb := hb (by omega)
  rw [Nat.shiftRight_eq_div_pow, Nat.and_two_pow_sub_one_eq_mod, Nat.and_two_pow_sub_one_eq_mod]
  obtain ⟨w, ew, hw⟩ := M.b (l / 2 ^ lg) (m_gt (by omega))
  have d1 := Nat.div_add_mod l (2 ^ lg)
  have d2 := Nat.div_add_mod (r - 1) (2 ^ lg)
  have m1 := Nat.mod_lt l hpp
  have m2 := Nat.mod_lt (r - 1) hpp
  rw [← hb] at d2
  rw [rd_some ew, ok_bind]
  obtain ⟨idx, hidx⟩ : ∃ idx, idx = cut lg w (l % 2 ^ lg) ((r - 1) % 2 ^ lg + 1) := ⟨_, rfl⟩
  rw [← hidx]
  have hil : idx < 2 ^ 2 ^ lg := hidx ▸ cut_lt _ _ _ _
  have hbits : ∀ i, idx.testBit i = (decide (i < r - l) && down mn x (l + i)) := by
    intro i
    rw [hidx, cut_testBit _ _ _ _ _ (by omega) (by omega)]
    have e : decide (l % 2 ^ lg + i < (r - 1) % 2 ^ lg + 1) = decide (i < r - l) := decide_eq_decide.2 (by omega)
    rw [e]
    by_cases c : i < r - l
    · rw [hw _ (by omega)]
      rw [show l / 2 ^ lg * 2 ^ lg + (l % 2 ^ lg + i) = l + i by rw [Nat.mul_comm]; omega, decide_eq_true (show l + i < x.size by omega)]
      simp
    · rw [decide_eq_false c]; rfl
  obtain ⟨p, a, sm, e1, e2, _, G⟩ := M.t3 idx hil
  have ha : a < r - l := G.arg_lt (by omega) (by omega) fun i hi => by rw [hbits, decide_eq_false (by omega)]; rfl
  have hwalk := walk_pre hp (s := idx) (l := l) (len := r - l) (mn := mn) (by omega) fun i hi => by rw [hbits, decide_eq_true hi]; rfl
  rw [rd_at 0 (by rw [M.a]; simp; omega), ok_bind, M.a, at_cons, rd_some e1, ok_bind]
  have e3 : (if l = 0 then at' 0 x 0 - 1 else at' 0 x (l - 1)) = prev x l := rfl
  rw [e3]
  have e4 : prev x l + p = at' 0 x (l + a) := by rw [G.2.2.1]; exact hwalk a ha
  rw [e4]
  have hIn := hx (l + a) (by omega)
  rw [i32_ok ⟨by have := hIn.1; omega, by have := hIn.2; omega⟩, ok_bind, rd_some e2, ok_bind]
  refine Tot.pure (Or.inr ⟨l + a, by omega, rfl, fun j hj => ?_⟩)
  obtain ⟨i, rfl⟩ : ∃ i, j = l + i := ⟨j - l, by omega⟩
  rw [← hwalk i (by omega), ← e4, sg_add, sg_add]
  have := G.2.2.2 i (by omega)
  omega

theorem query_tot {K : Kind T} {mn : Bool} (L : K.Lawful mn) {lg : Nat} {x : Array Int} (hx : ∀ i, i < x.size → In (at' 0 x i)) (hp : Pm1 x) {o : Obj T} (M : Made K mn lg x o) {l r : Nat} (hr : r ≤ x.size) :
    Tot (query K lg o l r) (Best K mn (at' 0 x) (fun k => l ≤ k ∧ k < r)) := by
  unfold query
  by_cases hlr : l ≥ r
  · rw [if_pos hlr]; exact Tot.pure (Or.inl ⟨by omega, rfl⟩)
  rw [if_neg hlr]
  simp only [Nat.shiftRight_eq_div_pow, Nat.shiftLeft_eq]
  have hpp := Nat.two_pow_pos lg
  by_cases hb : l / 2 ^ lg = (r - 1) / 2 ^ lg
  · rw [if_pos hb]
    exact part_tot hx hp M hr fun _ => hb
  rw [if_neg hb]
  obtain ⟨S, hS⟩ : ∃ S, S = 2 ^ lg := ⟨_, rfl⟩
  obtain ⟨u, hu⟩ : ∃ u, u = (l + 2 ^ lg - 1) / 2 ^ lg := ⟨_, rfl⟩
  obtain ⟨v, hv⟩ : ∃ v, v = r / 2 ^ lg := ⟨_, rfl⟩
  rw [← hu, ← hv]
  have u1 : (l + 2 ^ lg - 1) < (u + 1) * 2 ^ lg := by rw [hu]; have := Nat.lt_div_mul_add hpp (a := l + 2 ^ lg - 1); rw [Nat.add_mul]; omega
  have u2 : u * 2 ^ lg ≤ l + 2 ^ lg - 1 := by rw [hu]; exact Nat.div_mul_le_self _ _
  have v1 : r < (v + 1) * 2 ^ lg := by rw [hv]; have := Nat.lt_div_mul_add hpp (a := r); rw [Nat.add_mul]; omega
  have v2 : v * 2 ^ lg ≤ r := by rw [hv]; exact Nat.div_mul_le_self _ _
  rw [Nat.add_mul] at u1 v1
  have hlt : l / 2 ^ lg < (r - 1) / 2 ^ lg := lt_of_le_of_ne (Nat.div_le_div_right (by omega)) hb
  have huv : u ≤ v := by
    have c1 : u ≤ l / 2 ^ lg + 1 := by
      rw [hu]
      calc _ ≤ (l + 2 ^ lg) / 2 ^ lg := Nat.div_le_div_right (by omega)
        _ = _ := Nat.add_div_right _ hpp
    have c2 : (r - 1) / 2 ^ lg ≤ v := hv ▸ Nat.div_le_div_right (by omega)
    omega
  have huvS : u * 2 ^ lg ≤ v * 2 ^ lg := Nat.mul_le_mul_right _ huv
  refine Tot.bind (part_tot hx hp M (l := l) (r := u * 2 ^ lg) (by omega) ?_) fun y hy => ?_
  · intro hl
    obtain ⟨u', rfl⟩ : ∃ u', u = u' + 1 := ⟨u - 1, by rcases Nat.eq_zero_or_pos u with c | c <;> [(subst c; omega); omega]⟩
    rw [Nat.add_mul] at *
    rw [(Nat.div_eq_iff hpp (x := l) (y := u')).2 (by omega), (Nat.div_eq_iff hpp (x := u' * 2 ^ lg + 1 * 2 ^ lg - 1) (y := u')).2 (by omega)]
  refine Tot.bind (part_tot hx hp M (l := v * 2 ^ lg) (r := r) hr ?_) fun z hz => ?_
  · intro hl
    rw [Nat.mul_div_cancel _ hpp, (Nat.div_eq_iff hpp (x := r - 1) (y := v)).2 (by omega)]
  have htab : Tot (SparseTable.prod K.op K.e o.tabl u v) (Best K mn (at' 0 x) (fun k => u * 2 ^ lg ≤ k ∧ k < v * 2 ^ lg ∧ k < x.size)) := by
    by_cases c : u < v
    · refine M.tabl u v c ?_
      rw [hv]
      exact Nat.div_le_div_right (by omega)
    · unfold SparseTable.prod
      rw [if_pos (by omega)]
      refine Tot.pure (Or.inl ⟨fun k hk => ?_, rfl⟩)
      have : v = u := by omega
      subst this
      omega
  refine Tot.bind htab fun q hq => Tot.pure ?_
  refine (Best.union L (Best.union L hy hz ?_) hq ?_).congr fun k => ?_
  · intro k hk; exact hx k (by omega)
  · intro k hk; exact hx k (by omega)
  · omega

end RMQpm1

namespace RMQpm1
open Cxx

variable {T : Type}

theorem scan_sizes (K : Kind T) (lg : Nat) (x : Array Int) (p : T) : Tot (forUp 0 x.size ⟨Array.replicate ((x.size + 2 ^ lg - 1) / 2 ^ lg) 0, Array.replicate ((x.size + 2 ^ lg - 1) / 2 ^ lg) K.e, p⟩ (scanStep K lg x))
    fun _ => True := by
  refine (Tot.forUp (P := fun _ (s : Scan T) => s.b.size = (x.size + 2 ^ lg - 1) / 2 ^ lg ∧ s.c.size = (x.size + 2 ^ lg - 1) / 2 ^ lg) (Nat.zero_le _) ⟨by simp, by simp⟩ ?_).mono fun _ _ => trivial
  rintro i s _ hi ⟨h1, h2⟩
  have ho := m_gt (lg := lg) hi
  unfold scanStep
  dsimp only
  rw [Nat.shiftRight_eq_div_pow, rd_at 0 hi, ok_bind, rd_eq (by omega), ok_bind, wr_eq (by omega), ok_bind, rd_eq (by omega), ok_bind, wr_eq (by omega), ok_bind]
  exact Tot.pure ⟨by simpa using h1, by simpa using h2⟩

theorem steps_fail {x : Array Int} (h : x.size ≠ 0) (hx : ∀ i, i < x.size → -2 ^ 30 < at' 0 x i ∧ at' 0 x i < 2 ^ 30) (hp : ¬ Pm1 x) : steps (#[at' 0 x 0 - 1] ++ x) = .ok false := by
  unfold Pm1 at hp
  push Not at hp
  obtain ⟨i0, hi0, n1, n2⟩ := hp
  unfold steps
  have hsz : (#[at' 0 x 0 - 1] ++ x).size = x.size + 1 := by simp; omega
  have := Tot.forUp (lo := 1) (hi := (#[at' 0 x 0 - 1] ++ x).size) (P := fun i (ok : Bool) => i0 + 1 < i → ok = false) (s := true) (f := stepsStep (#[at' 0 x 0 - 1] ++ x)) (by simp) (by omega) ?_
  · obtain ⟨b, hb, hf⟩ := this; rw [hb, hf (by omega)]
  · rintro i ok h1 h2 hok
    rw [hsz] at h2
    unfold stepsStep
    cases ok
    · rw [if_neg (by simp)]; exact Tot.pure fun _ => rfl
    · rw [if_pos rfl, rd_at 0 (by omega), ok_bind, rd_at 0 (by omega), ok_bind, at_cons, at_cons, if_neg (show i ≠ 0 by omega)]
      have e : (if i - 1 = 0 then at' 0 x 0 - 1 else at' 0 x (i - 1 - 1)) = prev x (i - 1) := by unfold prev; rfl
      rw [e]
      have b1 := hx (i - 1) (by omega)
      have b2 : -2 ^ 30 - 1 < prev x (i - 1) ∧ prev x (i - 1) < 2 ^ 30 := by
        unfold prev
        split
        · have := hx 0 (by omega); omega
        · have := hx (i - 1 - 1) (by omega); omega
      unfold diff
      rw [i32_ok ⟨by omega, by omega⟩, ok_bind, i32_ok ⟨by omega, by omega⟩, ok_bind, pure_eq, ok_bind]
      refine Tot.pure fun hi => decide_eq_false ?_
      have : i = i0 + 1 := by
        by_contra hc
        have := hok (by omega)
        cases this
      subst this
      rw [show i0 + 1 - 1 = i0 from rfl]
      simp only [Int.natAbs_natCast]
      omega

theorem make_fail (K : Kind T) (mn : Bool) (lg : Nat) (d : T) {x : Array Int} (h0 : x.size ≠ 0) (hx : ∀ i, i < x.size → -2 ^ 30 < at' 0 x i ∧ at' 0 x i < 2 ^ 30) (hp : ¬ Pm1 x) :
    make K mn lg d x = .error .assertion := by
  obtain ⟨t, ht, _⟩ := tabs_tot mn lg
  unfold make
  have := hx 0 (by omega)
  rw [ht, ok_bind]
  dsimp only
  rw [rd_at 0 (by omega), ok_bind, i32_ok ⟨by omega, by omega⟩, ok_bind, Nat.shiftRight_eq_div_pow]
  obtain ⟨s, hs, _⟩ := scan_sizes K lg x (K.of (at' 0 x 0 - 1) (-1))
  rw [hs, ok_bind, steps_fail h0 hx hp, ok_bind, check_false, err_bind]

end RMQpm1
