import Verif.Model.OrderMod
import Verif.Spec.Factors
import Mathlib.NumberTheory.ArithmeticFunction.Carmichael
import Mathlib.Algebra.BigOperators.Intervals
import Mathlib.Tactic.LinearCombination
import Mathlib.Tactic.Ring

namespace OrderMod
open Cxx Finset

theorem mulPow_eq (p e x : Nat) : mulPow p e x = x * p ^ e := by
  induction e generalizing x with
  | zero => simp [mulPow]
  | succ e ih =>
    rw [mulPow, ih, pow_succ]
    ring

theorem carm_pp {p e : Nat} (hp : p.Prime) (he : 0 < e) :
    mulPow p (e - (1 + if p = 2 ∧ e ≥ 3 then 1 else 0)) (p - 1) = ArithmeticFunction.carmichael (p ^ e) := by
  rw [mulPow_eq]
  by_cases h2 : p = 2
  · subst h2
    by_cases h3 : e ≥ 3
    · rw [if_pos ⟨rfl, h3⟩, ArithmeticFunction.carmichael_two_pow_of_ne_two (by omega)]
      simp
    · rw [if_neg (by omega), ArithmeticFunction.carmichael_two_pow_of_le_two (by omega)]
      simp
  · rw [if_neg (by omega), ArithmeticFunction.carmichael_pow_of_prime_ne_two e hp h2, Nat.totient_prime_pow hp he, Nat.add_zero, mul_comm]

theorem coprime_list {p e : Nat} {l : List (Nat × Nat)} (hp : p.Prime) (hl : ∀ x ∈ l, x.1.Prime) (hn : p ∉ l.map Prod.fst) :
    Nat.Coprime (p ^ e) (l.map fun x => x.1 ^ x.2).prod := by
  induction l with
  | nil => simp
  | cons y l ih =>
    rw [List.map_cons, List.prod_cons]
    refine Nat.Coprime.mul_right ?_ (ih (fun x hx => hl x (by simp [hx])) fun h => hn (by simp at h ⊢; tauto))
    refine Nat.Coprime.pow _ _ ((Nat.coprime_primes hp (hl y (by simp))).mpr ?_)
    rintro rfl
    exact hn (by simp)

theorem carmichael_fold {l : List (Nat × Nat)} (h1 : (l.map Prod.fst).Nodup) (h2 : ∀ x ∈ l, x.1.Prime ∧ 0 < x.2) (acc : Nat) :
    l.foldl carmStep acc = Nat.lcm acc (ArithmeticFunction.carmichael (l.map fun x => x.1 ^ x.2).prod) := by
  induction l generalizing acc with
  | nil =>
    have : ArithmeticFunction.carmichael 1 = 1 := by
      rw [ArithmeticFunction.carmichael_eq_exponent']
      exact Monoid.exp_eq_one_of_subsingleton
    simp [this]
  | cons y l ih =>
    rw [List.map_cons, List.nodup_cons] at h1
    have hy := h2 y (by simp)
    rw [List.foldl_cons, ih h1.2 (fun x hx => h2 x (by simp [hx])), List.map_cons, List.prod_cons,
      ArithmeticFunction.carmichael_mul (coprime_list hy.1 (fun x hx => (h2 x (by simp [hx])).1) h1.1)]
    unfold carmStep
    rw [carm_pp hy.1 hy.2, Nat.lcm_assoc]

theorem carmichael_eq {m : Nat} {l : List (Nat × Nat)} (h : Factors m l) : carmichael l = ArithmeticFunction.carmichael m := by
  unfold carmichael
  rw [carmichael_fold h.nodup h.prime, h.prod, Nat.lcm_one_left]

theorem totient_fold {l : List (Nat × Nat)} (h1 : (l.map Prod.fst).Nodup) (h2 : ∀ x ∈ l, x.1.Prime ∧ 0 < x.2) (acc : Nat) :
    l.foldl totStep acc = acc * (l.map fun x : Nat × Nat => x.1 ^ x.2).prod.totient := by
  induction l generalizing acc with
  | nil => simp
  | cons y l ih =>
    rw [List.map_cons, List.nodup_cons] at h1
    have hy := h2 y (by simp)
    rw [List.foldl_cons, ih h1.2 (fun x hx => h2 x (by simp [hx])), List.map_cons, List.prod_cons,
      Nat.totient_mul (coprime_list hy.1 (fun x hx => (h2 x (by simp [hx])).1) h1.1), Nat.totient_prime_pow hy.1 hy.2]
    unfold totStep
    rw [mulPow_eq]
    ring

theorem totient_eq {m : Nat} {l : List (Nat × Nat)} (h : Factors m l) : totient l = m.totient := by
  unfold totient
  rw [totient_fold h.nodup h.prime, h.prod, Nat.one_mul]

/-! ### Powers -/

theorem pow64_ok {m : Nat} (a b : Nat) : pow64 m a b = .ok (a ^ b % m) := by
  have : Tot (pow64 m a b) (fun r => r = a ^ b % m) := by
    unfold pow64
    refine (Tot.loop (P := fun s : Nat × Nat × Nat => s.2.2 * s.2.1 ^ s.1 % m = a ^ b % m ∧ s.2.2 % m = s.2.2) (Q := fun s => s.2.2 = a ^ b % m) (fun s => s.1) (s := (b, a % m, 1 % m)) ?_ ?_ (Nat.le_refl _)).bind ?_
    · rintro ⟨b', p, res⟩ ⟨h1, h2⟩
      dsimp only at h1 h2
      unfold powStep
      dsimp only
      split_ifs with hb hodd
      · subst hb
        rw [pow_zero, mul_one, h2] at h1
        exact tot_ok.mpr h1
      · refine tot_ok.mpr ⟨⟨?_, Nat.mod_mod _ _⟩, by omega⟩
        dsimp only
        rw [← h1]
        have e : p ^ b' = p * (p * p) ^ (b' / 2) := by
          rw [← pow_two, ← pow_mul, ← pow_succ']
          congr 1
          omega
        rw [e, ← mul_assoc, Nat.mul_mod, Nat.mod_mod, ← Nat.pow_mod, ← Nat.mul_mod]
      · refine tot_ok.mpr ⟨⟨?_, h2⟩, by omega⟩
        dsimp only
        rw [← h1]
        have e : p ^ b' = (p * p) ^ (b' / 2) := by
          rw [← pow_two, ← pow_mul]
          congr 1
          omega
        rw [e, Nat.mul_mod, ← Nat.pow_mod, ← Nat.mul_mod]
    · dsimp only
      rw [Nat.mul_mod, Nat.mod_mod, ← Nat.pow_mod, ← Nat.mul_mod, Nat.one_mul]
      exact ⟨rfl, rfl⟩
    · intro s hs
      exact tot_ok.mpr hs
  obtain ⟨r, h1, h2⟩ := this
  rw [h1, h2]

/-- `pow` is the power modulo `m`. -/
def PowOk (m : Nat) (pow : Nat → Nat → M Nat) : Prop := ∀ a x, pow a x = .ok (a ^ x % m)

theorem one_iff {m : Nat} (hm : 1 < m) (a : Nat) : a % m = 1 ↔ (a : ZMod m) = 1 := by
  rw [show (1 : ZMod m) = ((1 : Nat) : ZMod m) from Nat.cast_one.symm, ZMod.natCast_eq_natCast_iff', Nat.mod_eq_of_lt hm]

theorem cast_pow_mod (m a x : Nat) : ((a ^ x % m : Nat) : ZMod m) = (a : ZMod m) ^ x := by
  rw [ZMod.natCast_mod, Nat.cast_pow]

/-! ### The factors of the Carmichael function -/

/-- The primes and the prime powers by index. -/
def P (o : Obj) (i : Nat) : Nat := (o.facLambda[i]?.map PP.p).getD 1
def PQ (o : Obj) (i : Nat) : Nat := (o.facLambda[i]?.map PP.pq).getD 1

theorem prodP_tot {o : Obj} {l r : Nat} (hl : l ≤ r) (hr : r ≤ o.facLambda.size) : prodP o l r = .ok (∏ i ∈ Ico l r, P o i) := by
  have : Tot (prodP o l r) (fun x => x = ∏ i ∈ Ico l r, P o i) := by
    unfold prodP
    refine (Tot.forUp (lo := l) (hi := r) (P := fun i x => x = ∏ i ∈ Ico l i, P o i) hl (by simp) ?_)
    intro i x h1 h2 h3
    have hi : i < o.facLambda.size := by omega
    rw [rd_eq hi, ok_bind]
    refine tot_ok.mpr ?_
    rw [prod_Ico_succ_top h1, h3]
    unfold P
    simp [hi]
  obtain ⟨x, h1, h2⟩ := this
  rw [h1, h2]

theorem prodPQ_tot {o : Obj} {l r : Nat} (hl : l ≤ r) (hr : r ≤ o.facLambda.size) : prodPQ o l r = .ok (∏ i ∈ Ico l r, PQ o i) := by
  have : Tot (prodPQ o l r) (fun x => x = ∏ i ∈ Ico l r, PQ o i) := by
    unfold prodPQ
    refine (Tot.forUp (lo := l) (hi := r) (P := fun i x => x = ∏ i ∈ Ico l i, PQ o i) hl (by simp) ?_)
    intro i x h1 h2 h3
    have hi : i < o.facLambda.size := by omega
    rw [rd_eq hi, ok_bind]
    refine tot_ok.mpr ?_
    rw [prod_Ico_succ_top h1, h3]
    unfold PQ
    simp [hi]
  obtain ⟨x, h1, h2⟩ := this
  rw [h1, h2]

/-! ### Primitive roots -/

theorem erase_left {f : Nat → Nat} {l m r i : Nat} (h1 : l ≤ i) (h2 : i < m) (h3 : m ≤ r) :
    ∏ j ∈ (Ico l r).erase i, f j = (∏ j ∈ Ico m r, f j) * ∏ j ∈ (Ico l m).erase i, f j := by
  rw [← prod_union]
  · congr 1
    ext x
    simp only [mem_erase, mem_Ico, mem_union]
    omega
  · rw [disjoint_left]
    intro x
    simp only [mem_erase, mem_Ico]
    omega

theorem erase_right {f : Nat → Nat} {l m r i : Nat} (h1 : l ≤ m) (h2 : m ≤ i) (h3 : i < r) :
    ∏ j ∈ (Ico l r).erase i, f j = (∏ j ∈ Ico l m, f j) * ∏ j ∈ (Ico m r).erase i, f j := by
  rw [← prod_union]
  · congr 1
    ext x
    simp only [mem_erase, mem_Ico, mem_union]
    omega
  · rw [disjoint_left]
    intro x
    simp only [mem_erase, mem_Ico]
    omega

theorem rootDfs_tot {o : Obj} {m : Nat} (hm : 1 < m) {pow : Nat → Nat → M Nat} (hpow : PowOk m pow) : ∀ (k l r val : Nat), l + 2 ≤ r → r ≤ o.facLambda.size → r - l ≤ k →
    Tot (rootDfs o pow k l r val) (fun b => b = true ↔ ∀ i, l ≤ i → i < r → (val : ZMod m) ^ (∏ j ∈ (Ico l r).erase i, P o j) ≠ 1) := by
  intro k
  induction k with
  | zero =>
    intro l r val h1 h2 h3
    omega
  | succ k ih =>
    intro l r val h1 h2 h3
    unfold rootDfs
    dsimp only
    obtain ⟨c, hc⟩ : ∃ c, c = (l + r) / 2 := ⟨_, rfl⟩
    rw [← hc]
    have c1 : l < c := by omega
    have c2 : c < r := by omega
    rw [prodP_tot (by omega) h2, ok_bind, hpow, ok_bind]
    have one : ∀ y, (decide (val ^ y % m ≠ 1) = true ↔ (val : ZMod m) ^ y ≠ 1) := by
      intro y
      rw [decide_eq_true_iff, Ne, one_iff hm, Nat.cast_pow]
    -- the left half
    have left : Tot (if c - l = 1 then pure (decide (val ^ (∏ i ∈ Ico c r, P o i) % m ≠ 1)) else rootDfs o pow k l c (val ^ (∏ i ∈ Ico c r, P o i) % m))
        (fun b => b = true ↔ ∀ i, l ≤ i → i < c → (val : ZMod m) ^ (∏ j ∈ (Ico l r).erase i, P o j) ≠ 1) := by
      split_ifs with hs
      · rw [pure_eq]
        refine tot_ok.mpr ?_
        rw [one]
        have key : ∀ i, l ≤ i → i < c → ∏ j ∈ (Ico l r).erase i, P o j = ∏ i ∈ Ico c r, P o i := by
          intro i i1 i2
          rw [erase_left i1 i2 (by omega)]
          have : (Ico l c).erase i = ∅ := by
            ext x
            simp
            omega
          rw [this, prod_empty, mul_one]
        constructor
        · intro h i i1 i2
          rw [key i i1 i2]
          exact h
        · intro h
          have := h l (Nat.le_refl _) c1
          rwa [key l (Nat.le_refl _) c1] at this
      · refine (ih l c _ (by omega) (by omega) (by omega)).mono ?_
        intro b hb
        rw [hb]
        constructor
        · intro h i i1 i2
          have := h i i1 i2
          rw [cast_pow_mod, ← pow_mul] at this
          rwa [erase_left i1 i2 (by omega)]
        · intro h i i1 i2
          have := h i i1 i2
          rw [cast_pow_mod, ← pow_mul]
          rwa [erase_left i1 i2 (by omega)] at this
    refine left.bind ?_
    intro b hb
    by_cases hbt : b = true
    · rw [if_pos hbt, prodP_tot (by omega) (by omega), ok_bind, hpow, ok_bind]
      have right : Tot (if r - c = 1 then pure (decide (val ^ (∏ i ∈ Ico l c, P o i) % m ≠ 1)) else rootDfs o pow k c r (val ^ (∏ i ∈ Ico l c, P o i) % m))
          (fun b => b = true ↔ ∀ i, c ≤ i → i < r → (val : ZMod m) ^ (∏ j ∈ (Ico l r).erase i, P o j) ≠ 1) := by
        split_ifs with hs
        · rw [pure_eq]
          refine tot_ok.mpr ?_
          rw [one]
          have key : ∀ i, c ≤ i → i < r → ∏ j ∈ (Ico l r).erase i, P o j = ∏ i ∈ Ico l c, P o i := by
            intro i i1 i2
            rw [erase_right (by omega) i1 i2]
            have : (Ico c r).erase i = ∅ := by
              ext x
              simp
              omega
            rw [this, prod_empty, mul_one]
          constructor
          · intro h i i1 i2
            rw [key i i1 i2]
            exact h
          · intro h
            have := h c (Nat.le_refl _) c2
            rwa [key c (Nat.le_refl _) c2] at this
        · refine (ih c r _ (by omega) (by omega) (by omega)).mono ?_
          intro b hb
          rw [hb]
          constructor
          · intro h i i1 i2
            have := h i i1 i2
            rw [cast_pow_mod, ← pow_mul] at this
            rwa [erase_right (by omega) i1 i2]
          · intro h i i1 i2
            have := h i i1 i2
            rw [cast_pow_mod, ← pow_mul]
            rwa [erase_right (by omega) i1 i2] at this
      refine right.mono ?_
      intro b' hb'
      rw [hb']
      have hl := hb.mp hbt
      constructor
      · intro h i i1 i2
        by_cases hi : i < c
        · exact hl i i1 hi
        · exact h i (by omega) i2
      · intro h i i1 i2
        exact h i (by omega) i2
    · rw [if_neg hbt, pure_eq]
      refine tot_ok.mpr ?_
      constructor
      · intro h
        cases h
      · intro h
        exact absurd (hb.mpr fun i i1 i2 => h i i1 (by omega)) hbt

/-! ### The order -/

theorem order_split {G : Type} [Monoid G] {y : G} {u v : Nat} (hu : 0 < u) (hv : 0 < v) (hc : Nat.Coprime u v) (h : y ^ (u * v) = 1) :
    orderOf y = orderOf (y ^ u) * orderOf (y ^ v) := by
  have hd : orderOf y ∣ u * v := orderOf_dvd_of_pow_eq_one h
  have hpos : 0 < orderOf y := Nat.pos_of_dvd_of_pos hd (Nat.mul_pos hu hv)
  have hg : orderOf y = Nat.gcd (orderOf y) u * Nat.gcd (orderOf y) v := by
    rw [← Nat.Coprime.gcd_mul _ hc, Nat.gcd_eq_left hd]
  rw [orderOf_pow' y (by omega), orderOf_pow' y (by omega)]
  have gu : 0 < Nat.gcd (orderOf y) u := Nat.gcd_pos_of_pos_left _ hpos
  have gv : 0 < Nat.gcd (orderOf y) v := Nat.gcd_pos_of_pos_left _ hpos
  have e1 : orderOf y / Nat.gcd (orderOf y) u = Nat.gcd (orderOf y) v := Nat.div_eq_of_eq_mul_right gu hg
  have e2 : orderOf y / Nat.gcd (orderOf y) v = Nat.gcd (orderOf y) u := Nat.div_eq_of_eq_mul_left gv hg
  rw [e1, e2, mul_comm, ← hg]

theorem update_tot {o : Obj} {m : Nat} (hm : 1 < m) {pow : Nat → Nat → M Nat} (hpow : PowOk m pow) {p e : Nat} (hp : p.Prime) (he : p ^ e ≤ o.lambda) {val : Nat} (hv : val < m)
    (h : (val : ZMod m) ^ (p ^ e) = 1) (res : Nat) : update o pow p val res = .ok (res * orderOf (val : ZMod m)) := by
  have : Tot (update o pow p val res) (fun r => r = res * orderOf (val : ZMod m)) := by
    obtain ⟨f, hf, ho⟩ := (Nat.dvd_prime_pow hp).mp (orderOf_dvd_of_pow_eq_one h)
    have hfe : f < p ^ e := by
      have h1 : f < p ^ f := Nat.lt_pow_self hp.one_lt
      have h2 : p ^ f ≤ p ^ e := Nat.pow_le_pow_right hp.pos hf
      omega
    unfold update
    refine (Tot.loopG (P := fun k (s : Nat × Nat) => ∃ j, k + j = f ∧ s.1 < m ∧ (s.1 : ZMod m) = (val : ZMod m) ^ (p ^ j) ∧ s.2 = res * p ^ j)
      (Q := fun s => s.2 = res * orderOf (val : ZMod m)) ?_ (k := f) ⟨0, rfl, hv, by simp, by simp⟩ (by omega)).bind ?_
    · rintro k ⟨v, r⟩ ⟨j, h1, h2, h3, h4⟩
      dsimp only at h2 h3 h4
      have key : v = 1 ↔ j = f := by
        have : v = 1 ↔ v % m = 1 := by rw [Nat.mod_eq_of_lt h2]
        rw [this, one_iff hm, h3, ← orderOf_dvd_iff_pow_eq_one, ho, Nat.pow_dvd_pow_iff_le_right hp.one_lt]
        omega
      unfold updStep
      dsimp only
      split_ifs with hv1
      · rw [pure_eq]
        refine tot_ok.mpr ?_
        dsimp only
        rw [h4, ho, key.mp hv1]
      · rw [hpow, ok_bind, pure_eq]
        have hj : j ≠ f := fun h => hv1 (key.mpr h)
        refine tot_ok.mpr ⟨k - 1, by omega, j + 1, by omega, Nat.mod_lt _ (by omega), ?_, ?_⟩
        · dsimp only
          rw [cast_pow_mod, h3, ← pow_mul, pow_succ]
        · dsimp only
          rw [h4, pow_succ]
          ring
    · intro s hs
      exact tot_ok.mpr hs
  obtain ⟨r, h1, h2⟩ := this
  rw [h1, h2]

/-- What the constructor guarantees about the factors of the Carmichael function. -/
structure FacOk (o : Obj) : Prop where
  prime : ∀ i, i < o.facLambda.size → (P o i).Prime ∧ ∃ e, 0 < e ∧ PQ o i = P o i ^ e
  ne : ∀ i j, i < o.facLambda.size → j < o.facLambda.size → i ≠ j → P o i ≠ P o j
  prod : ∏ i ∈ Ico 0 o.facLambda.size, PQ o i = o.lambda
  pos : 0 < o.lambda

theorem FacOk.pq_pos {o : Obj} (f : FacOk o) {i : Nat} (hi : i < o.facLambda.size) : 0 < PQ o i := by
  obtain ⟨h1, e, -, h2⟩ := f.prime i hi
  rw [h2]
  exact Nat.pow_pos h1.pos

theorem FacOk.coprime {o : Obj} (f : FacOk o) {a b c d : Nat} (h1 : b ≤ c) (h2 : d ≤ o.facLambda.size) :
    Nat.Coprime (∏ i ∈ Ico a b, PQ o i) (∏ i ∈ Ico c d, PQ o i) := by
  refine Nat.Coprime.prod_left fun i hi => Nat.Coprime.prod_right fun j hj => ?_
  rw [mem_Ico] at hi hj
  obtain ⟨p1, e1, -, q1⟩ := f.prime i (by omega)
  obtain ⟨p2, e2, -, q2⟩ := f.prime j (by omega)
  rw [q1, q2]
  exact Nat.Coprime.pow _ _ ((Nat.coprime_primes p1 p2).mpr (f.ne i j (by omega) (by omega) (by omega)))

theorem updateAt_tot {o : Obj} (f : FacOk o) {m : Nat} (hm : 1 < m) {pow : Nat → Nat → M Nat} (hpow : PowOk m pow) {i : Nat} (hi : i < o.facLambda.size) {val : Nat} (hv : val < m)
    (h : (val : ZMod m) ^ PQ o i = 1) (res : Nat) : updateAt o pow i val res = .ok (res * orderOf (val : ZMod m)) := by
  unfold updateAt
  rw [rd_eq hi, ok_bind]
  obtain ⟨h1, e, -, h2⟩ := f.prime i hi
  have hP : P o i = (o.facLambda[i]).p := by unfold P; simp [hi]
  rw [hP] at h1 h2
  refine update_tot hm hpow h1 (e := e) ?_ hv (by rw [← h2]; exact h) res
  rw [← h2]
  refine Nat.le_of_dvd f.pos ?_
  rw [← f.prod]
  exact dvd_prod_of_mem _ (by rw [mem_Ico]; omega)

theorem orderDfs_tot {o : Obj} (f : FacOk o) {m : Nat} (hm : 1 < m) {pow : Nat → Nat → M Nat} (hpow : PowOk m pow) : ∀ (k l r val res : Nat), l + 2 ≤ r → r ≤ o.facLambda.size → r - l ≤ k →
    (val : ZMod m) ^ (∏ j ∈ Ico l r, PQ o j) = 1 → orderDfs o pow k l r val res = .ok (res * orderOf (val : ZMod m)) := by
  intro k
  induction k with
  | zero =>
    intro l r val res h1 h2 h3
    omega
  | succ k ih =>
    intro l r val res h1 h2 h3 hval
    unfold orderDfs
    dsimp only
    obtain ⟨c, hc⟩ : ∃ c, c = (l + r) / 2 := ⟨_, rfl⟩
    rw [← hc]
    have c1 : l < c := by omega
    have c2 : c < r := by omega
    rw [prodPQ_tot (by omega) h2, ok_bind, hpow, ok_bind]
    have hprod : (∏ j ∈ Ico l r, PQ o j) = (∏ j ∈ Ico l c, PQ o j) * ∏ j ∈ Ico c r, PQ o j := (prod_Ico_consecutive _ (by omega) (by omega)).symm
    have hpos : ∀ a b, b ≤ o.facLambda.size → 0 < ∏ j ∈ Ico a b, PQ o j := by
      intro a b hb
      refine prod_pos fun i hi => ?_
      rw [mem_Ico] at hi
      exact f.pq_pos (by omega)
    have hmod : ∀ y, val ^ y % m < m := fun y => Nat.mod_lt _ (by omega)
    have left : (if c - l = 1 then updateAt o pow l (val ^ (∏ i ∈ Ico c r, PQ o i) % m) res else orderDfs o pow k l c (val ^ (∏ i ∈ Ico c r, PQ o i) % m) res) =
        .ok (res * orderOf ((val : ZMod m) ^ (∏ i ∈ Ico c r, PQ o i))) := by
      have hone : (((val ^ (∏ i ∈ Ico c r, PQ o i) % m : Nat)) : ZMod m) ^ (∏ j ∈ Ico l c, PQ o j) = 1 := by
        rw [cast_pow_mod, ← pow_mul, mul_comm, ← hprod, hval]
      rw [← cast_pow_mod]
      split_ifs with hs
      · refine updateAt_tot f hm hpow (by omega) (hmod _) ?_ res
        have : Ico l c = {l} := by
          ext x
          simp
          omega
        rw [this, prod_singleton] at hone
        exact hone
      · exact ih l c _ res (by omega) (by omega) (by omega) hone
    rw [left, ok_bind, prodPQ_tot (by omega) (by omega), ok_bind, hpow, ok_bind]
    obtain ⟨res', hr⟩ : ∃ res', res' = res * orderOf ((val : ZMod m) ^ (∏ i ∈ Ico c r, PQ o i)) := ⟨_, rfl⟩
    rw [← hr]
    have right : (if r - c = 1 then updateAt o pow c (val ^ (∏ i ∈ Ico l c, PQ o i) % m) res' else orderDfs o pow k c r (val ^ (∏ i ∈ Ico l c, PQ o i) % m) res') =
        .ok (res' * orderOf ((val : ZMod m) ^ (∏ i ∈ Ico l c, PQ o i))) := by
      have hone : (((val ^ (∏ i ∈ Ico l c, PQ o i) % m : Nat)) : ZMod m) ^ (∏ j ∈ Ico c r, PQ o j) = 1 := by
        rw [cast_pow_mod, ← pow_mul, ← hprod, hval]
      rw [← cast_pow_mod]
      split_ifs with hs
      · refine updateAt_tot f hm hpow (by omega) (hmod _) ?_ res'
        have : Ico c r = {c} := by
          ext x
          simp
          omega
        rw [this, prod_singleton] at hone
        exact hone
      · exact ih c r _ res' (by omega) (by omega) (by omega) hone
    rw [right, hr, order_split (y := (val : ZMod m)) (hpos l c (by omega)) (hpos c r h2) (f.coprime (Nat.le_refl _) h2) (by rw [← hprod]; exact hval)]
    congr 1
    ring

/-! ### The object -/

theorem new_facOk {fac : Nat → List (Nat × Nat)} (hfac : ∀ n, 0 < n → Factors n (fac n)) {m : Nat} (hm : 0 < m) :
    FacOk (new fac m) ∧ (new fac m).lambda = ArithmeticFunction.carmichael m ∧ (new fac m).phi = m.totient ∧ (new fac m).mod = m := by
  have hl : (new fac m).lambda = ArithmeticFunction.carmichael m := carmichael_eq (hfac m hm)
  have hpos : 0 < (new fac m).lambda := by
    rw [hl]
    exact Nat.pos_of_dvd_of_pos (ArithmeticFunction.carmichael_dvd_totient m) (Nat.totient_pos.mpr hm)
  refine ⟨?_, hl, totient_eq (hfac m hm), rfl⟩
  have hF := hfac _ hpos
  obtain ⟨L, hL⟩ : ∃ L, L = fac (new fac m).lambda := ⟨_, rfl⟩
  rw [← hL] at hF
  have hfl : (new fac m).facLambda = (L.map fun x => (⟨x.1, x.2, mulPow x.1 x.2 1⟩ : PP)).toArray := by
    rw [hL]
    rfl
  have hsz : (new fac m).facLambda.size = L.length := by rw [hfl]; simp
  have hP : ∀ i (h : i < L.length), P (new fac m) i = (L[i]).1 := by
    intro i h
    unfold P
    rw [hfl]
    simp [h]
  have hPQ : ∀ i (h : i < L.length), PQ (new fac m) i = (L[i]).1 ^ (L[i]).2 := by
    intro i h
    unfold PQ
    rw [hfl]
    simp [h, mulPow_eq]
  refine ⟨?_, ?_, ?_, hpos⟩
  · intro i hi
    rw [hsz] at hi
    rw [hP i hi, hPQ i hi]
    have := hF.prime _ (List.getElem_mem hi)
    exact ⟨this.1, _, this.2, rfl⟩
  · intro i j hi hj hne
    rw [hsz] at hi hj
    rw [hP i hi, hP j hj]
    intro e
    apply hne
    have h1 : (L.map Prod.fst)[i]'(by simpa using hi) = (L.map Prod.fst)[j]'(by simpa using hj) := by simpa using e
    exact (hF.nodup.getElem_inj_iff).mp h1
  · rw [hsz]
    have h1 : ∏ i ∈ Ico 0 L.length, PQ (new fac m) i = (L.map fun x => x.1 ^ x.2).prod := by
      rw [← range_eq_Ico, prod_range, ← Fin.prod_univ_fun_getElem]
      refine prod_congr rfl fun i _ => ?_
      rw [hPQ i i.2]
    rw [h1, hF.prod]

/-! ### The results -/

theorem coprime_unit {m a : Nat} (h : Nat.Coprime a m) : ∃ u : (ZMod m)ˣ, (u : ZMod m) = (a : ZMod m) := ⟨ZMod.unitOfCoprime a h, ZMod.coe_unitOfCoprime a h⟩

theorem pow_lambda {m a : Nat} (h : Nat.Coprime a m) : (a : ZMod m) ^ ArithmeticFunction.carmichael m = 1 := by
  obtain ⟨u, hu⟩ := coprime_unit h
  rw [← hu, ← Units.val_pow_eq_pow_val, ArithmeticFunction.pow_carmichael, Units.val_one]

theorem lambda_ge {m : Nat} (hm : 3 ≤ m) : ArithmeticFunction.carmichael m ≠ 1 := by
  intro h
  have h1 := ArithmeticFunction.pow_carmichael (n := m) (-1)
  rw [h, pow_one] at h1
  have h2 : ((-1 : (ZMod m)ˣ) : ZMod m) = 1 := by rw [h1, Units.val_one]
  rw [Units.val_neg, Units.val_one] at h2
  have h3 : ((2 : Nat) : ZMod m) = 0 := by
    push_cast
    linear_combination -h2
  rw [ZMod.natCast_eq_zero_iff] at h3
  have := Nat.le_of_dvd (by omega) h3
  omega

theorem FacOk.size_pos {o : Obj} (f : FacOk o) (h : o.lambda ≠ 1) : 0 < o.facLambda.size := by
  by_contra hc
  apply h
  rw [← f.prod, show o.facLambda.size = 0 by omega]
  simp

theorem powOk_acl (m : Nat) : PowOk m (aclPow m) := fun _ _ => rfl

theorem powOk_64 (m : Nat) : PowOk m (pow64 m) := fun a x => pow64_ok a x

theorem orderImpl_ok {o : Obj} (f : FacOk o) {m : Nat} (hm : 2 ≤ m) (ho : o.mod = m) (hl : o.lambda = ArithmeticFunction.carmichael m) {pow : Nat → Nat → M Nat} (hpow : PowOk m pow)
    {a : Nat} (ha : Nat.Coprime a m) : orderImpl o pow a = .ok (orderOf (a : ZMod m)) := by
  unfold orderImpl
  rw [ho]
  by_cases h2 : m = 2
  · rw [if_pos h2]
    subst h2
    have : a % 2 = 1 := by
      rcases Nat.mod_two_eq_zero_or_one a with h | h
      · exfalso
        have := Nat.dvd_gcd (Nat.dvd_of_mod_eq_zero h) (dvd_refl 2)
        rw [Nat.Coprime] at ha
        rw [ha] at this
        omega
      · exact h
    rw [if_pos this, (one_iff (by omega) a).mp this, orderOf_one]
    rfl
  · rw [if_neg h2]
    have hs := f.size_pos (by rw [hl]; exact lambda_ge (by omega))
    have hv : a % m < m := Nat.mod_lt _ (by omega)
    have hone : ((a % m : Nat) : ZMod m) ^ (∏ j ∈ Ico 0 o.facLambda.size, PQ o j) = 1 := by
      rw [f.prod, hl, ZMod.natCast_mod]
      exact pow_lambda ha
    split_ifs with h1
    · rw [h1] at hone
      simp only [Nat.Ico_zero_eq_range, range_one, prod_singleton] at hone
      rw [updateAt_tot f (by omega) hpow hs hv hone, ZMod.natCast_mod, Nat.one_mul]
    · rw [orderDfs_tot f (by omega) hpow _ _ _ _ _ (by omega) (Nat.le_refl _) (by omega) hone, ZMod.natCast_mod, Nat.one_mul]

theorem foldl_div {l : List PP} {x : Nat} : l.foldl (fun x f => x / f.p) x = x / (l.map PP.p).prod := by
  induction l generalizing x with
  | nil => simp
  | cons y l ih => rw [List.foldl_cons, ih, List.map_cons, List.prod_cons, Nat.div_div_eq_div_mul]

theorem rad_eq (o : Obj) : o.facLambda.foldl (fun x f => x / f.p) o.lambda = o.lambda / ∏ j ∈ Ico 0 o.facLambda.size, P o j := by
  rw [← Array.foldl_toList, foldl_div, ← range_eq_Ico, prod_range, ← Fin.prod_univ_fun_getElem]
  congr 1
  refine prod_congr (by simp) ?_
  intro i _
  unfold P
  simp

theorem FacOk.prime_idx {o : Obj} (f : FacOk o) {p : Nat} (hp : p.Prime) (hd : p ∣ o.lambda) : ∃ i, i < o.facLambda.size ∧ p = P o i := by
  rw [← f.prod, Prime.dvd_finset_prod_iff hp.prime] at hd
  obtain ⟨i, h1, h2⟩ := hd
  rw [mem_Ico] at h1
  obtain ⟨q1, e, -, q2⟩ := f.prime i h1.2
  rw [q2] at h2
  exact ⟨i, h1.2, (Nat.prime_dvd_prime_iff_eq hp q1).mp (hp.dvd_of_dvd_pow h2)⟩

theorem FacOk.rad_dvd {o : Obj} (f : FacOk o) : (∏ j ∈ Ico 0 o.facLambda.size, P o j) ∣ o.lambda := by
  rw [← f.prod]
  refine prod_dvd_prod_of_dvd _ _ fun i hi => ?_
  rw [mem_Ico] at hi
  obtain ⟨-, e, he, q⟩ := f.prime i hi.2
  rw [q]
  exact dvd_pow_self _ (by omega)

theorem FacOk.div_prime {o : Obj} (f : FacOk o) {i : Nat} (hi : i < o.facLambda.size) :
    (o.lambda / ∏ j ∈ Ico 0 o.facLambda.size, P o j) * ∏ j ∈ (Ico 0 o.facLambda.size).erase i, P o j = o.lambda / P o i := by
  have hp := (f.prime i hi).1.pos
  have h1 : P o i * ∏ j ∈ (Ico 0 o.facLambda.size).erase i, P o j = ∏ j ∈ Ico 0 o.facLambda.size, P o j := mul_prod_erase _ _ (by rw [mem_Ico]; omega)
  obtain ⟨k, hk⟩ := f.rad_dvd
  have hr : 0 < ∏ j ∈ Ico 0 o.facLambda.size, P o j := prod_pos fun j hj => (f.prime j (mem_Ico.mp hj).2).1.pos
  have h2 : o.lambda / (∏ j ∈ Ico 0 o.facLambda.size, P o j) = k := by
    rw [hk]
    exact Nat.mul_div_cancel_left _ hr
  rw [h2]
  symm
  refine Nat.div_eq_of_eq_mul_right hp ?_
  rw [hk, ← h1]
  ring

/-- The test on all primes says that the order is the Carmichael function. -/
theorem root_iff {o : Obj} (f : FacOk o) {m : Nat} {a : Nat} (ha : (a : ZMod m) ^ o.lambda = 1) :
    (∀ i, 0 ≤ i → i < o.facLambda.size → (a : ZMod m) ^ (o.lambda / P o i) ≠ 1) ↔ orderOf (a : ZMod m) = o.lambda := by
  constructor
  · intro h
    refine orderOf_eq_of_pow_and_pow_div_prime f.pos ha fun p hp hd => ?_
    obtain ⟨i, h1, rfl⟩ := f.prime_idx hp hd
    exact h i (by omega) h1
  · intro h i _ hi hc
    have hp := (f.prime i hi).1
    have h1 := orderOf_dvd_of_pow_eq_one hc
    have hd : P o i ∣ o.lambda := (dvd_prod_of_mem _ (by rw [mem_Ico]; omega)).trans f.rad_dvd
    have h2 : 0 < o.lambda / P o i := Nat.div_pos (Nat.le_of_dvd f.pos hd) hp.pos
    have h3 := Nat.le_of_dvd h2 h1
    rw [h] at h3
    have h4 := Nat.div_lt_self f.pos hp.one_lt
    omega

/-- What the function computes when the group is cyclic, for an argument that need not be coprime to the modulus. -/
theorem isRootImpl_gen {o : Obj} (f : FacOk o) {m : Nat} (hm : 3 ≤ m) (ho : o.mod = m) (hl : o.lambda = ArithmeticFunction.carmichael m) (hphi : o.lambda = o.phi)
    {pow : Nat → Nat → M Nat} (hpow : PowOk m pow) (a : Nat) :
    Tot (isRootImpl o pow a) (fun b => b = true ↔ ∀ i, 0 ≤ i → i < o.facLambda.size → (a : ZMod m) ^ (o.lambda / P o i) ≠ 1) := by
  unfold isRootImpl
  rw [if_neg (by omega), if_neg (by omega)]
  dsimp only
  rw [rad_eq, hpow, ok_bind]
  split_ifs with h3
  · rw [pure_eq]
    refine tot_ok.mpr ?_
    rw [decide_eq_true_iff, Ne, one_iff (by omega), Nat.cast_pow]
    have hd := f.div_prime (i := 0) (by omega)
    have : (Ico 0 o.facLambda.size).erase 0 = ∅ := by
      ext x
      simp [h3]
    rw [this, prod_empty, mul_one] at hd
    rw [hd]
    constructor
    · intro h i i1 i2
      rwa [show i = 0 by omega]
    · intro h
      exact h 0 (by omega) (by omega)
  · have hs : 0 < o.facLambda.size := by
      refine f.size_pos ?_
      rw [hl]
      exact lambda_ge (by omega)
    refine (rootDfs_tot (m := m) (by omega) hpow _ _ _ _ (by omega) (Nat.le_refl _) (by omega)).mono ?_
    intro b hb
    rw [hb]
    constructor
    · intro h i i1 i2
      have := h i i1 i2
      rwa [cast_pow_mod, ← pow_mul, f.div_prime i2] at this
    · intro h i i1 i2
      rw [cast_pow_mod, ← pow_mul, f.div_prime i2]
      exact h i i1 i2

theorem odd_of_coprime {a : Nat} (ha : Nat.Coprime a 2) : a % 2 = 1 := by
  rcases Nat.mod_two_eq_zero_or_one a with h | h
  · exfalso
    have := Nat.dvd_gcd (Nat.dvd_of_mod_eq_zero h) (dvd_refl 2)
    rw [Nat.Coprime] at ha
    rw [ha] at this
    omega
  · exact h

theorem isRootImpl_tot {o : Obj} (f : FacOk o) {m : Nat} (hm : 2 ≤ m) (ho : o.mod = m) (hl : o.lambda = ArithmeticFunction.carmichael m) (hphi : o.phi = m.totient)
    {pow : Nat → Nat → M Nat} (hpow : PowOk m pow) {a : Nat} (ha : Nat.Coprime a m) :
    Tot (isRootImpl o pow a) (fun b => b = true ↔ orderOf (a : ZMod m) = m.totient) := by
  have hone := pow_lambda ha
  rw [← hl] at hone
  by_cases h1 : o.lambda = o.phi
  · by_cases h2 : m = 2
    · unfold isRootImpl
      rw [if_neg (by omega), if_pos (by omega)]
      subst h2
      rw [pure_eq]
      refine tot_ok.mpr ?_
      rw [decide_eq_true_iff, (one_iff (by omega) a).mp (odd_of_coprime ha), orderOf_one]
      simp [odd_of_coprime ha]
    · refine (isRootImpl_gen f (by omega) ho hl h1 hpow a).mono ?_
      intro b hb
      rw [hb, root_iff f hone, h1, hphi]
  · unfold isRootImpl
    rw [if_pos h1, pure_eq]
    refine tot_ok.mpr ?_
    constructor
    · intro h
      cases h
    · intro h
      exfalso
      have h4 := orderOf_dvd_of_pow_eq_one hone
      rw [h] at h4
      have h5 := ArithmeticFunction.carmichael_dvd_totient m
      rw [← hl] at h5
      exact h1 (by rw [hphi]; exact Nat.dvd_antisymm h5 h4)

/-- No power of a number that is not coprime to the modulus is one. -/
theorem pow_ne_one {m a : Nat} (ha : ¬ Nat.Coprime a m) {x : Nat} (hx : 0 < x) : (a : ZMod m) ^ x ≠ 1 := by
  intro h
  apply ha
  rw [← ZMod.isUnit_iff_coprime]
  exact IsUnit.of_pow_eq_one h (by omega)

theorem isRootImpl_bad {o : Obj} (f : FacOk o) {m : Nat} (hm : 3 ≤ m) (ho : o.mod = m) (hl : o.lambda = ArithmeticFunction.carmichael m) (hphi : o.lambda = o.phi)
    {pow : Nat → Nat → M Nat} (hpow : PowOk m pow) {a : Nat} (ha : ¬ Nat.Coprime a m) : isRootImpl o pow a = .ok true := by
  obtain ⟨b, h1, h2⟩ := isRootImpl_gen f hm ho hl hphi hpow a
  rw [h1, h2.mpr]
  intro i _ hi
  refine pow_ne_one ha ?_
  exact Nat.div_pos (Nat.le_of_dvd f.pos ((dvd_prod_of_mem _ (by rw [mem_Ico]; omega)).trans f.rad_dvd)) (f.prime i hi).1.pos

/-! ### Arguments that are not coprime to the modulus -/

theorem loop_diverge {σ : Type} {step : σ → M (Option σ)} {I : σ → Prop} (h : ∀ s, I s → ∃ s', step s = .ok (some s') ∧ I s') : ∀ k s, I s → loop step k s = .error .diverge := by
  intro k
  induction k with
  | zero =>
    intro s hs
    obtain ⟨s', h1, h2⟩ := h s hs
    unfold loop
    rw [h1]
    rfl
  | succ k ih =>
    intro s hs
    obtain ⟨s', h1, h2⟩ := h s hs
    unfold loop
    rw [h1]
    exact ih s' h2

theorem not_coprime_pow {m a x : Nat} (ha : ¬ Nat.Coprime a m) (hx : 0 < x) : ¬ Nat.Coprime (a ^ x % m) m := by
  intro h
  apply ha
  have h1 : IsUnit (((a ^ x % m : Nat)) : ZMod m) := (ZMod.isUnit_iff_coprime _ _).mpr h
  rw [cast_pow_mod] at h1
  exact (ZMod.isUnit_iff_coprime _ _).mp ((isUnit_pow_iff (by omega)).mp h1)

theorem updateAt_bad {o : Obj} (f : FacOk o) {m : Nat} {pow : Nat → Nat → M Nat} (hpow : PowOk m pow) {i : Nat} (hi : i < o.facLambda.size) {val : Nat}
    (hv : ¬ Nat.Coprime val m) (res : Nat) : updateAt o pow i val res = .error .diverge := by
  unfold updateAt
  rw [rd_eq hi, ok_bind]
  unfold update
  have hp : 0 < (o.facLambda[i]).p := by
    have := (f.prime i hi).1.pos
    unfold P at this
    simpa [hi] using this
  rw [loop_diverge (I := fun s : Nat × Nat => ¬ Nat.Coprime s.1 m) ?_ _ _ hv]
  · rfl
  · rintro ⟨v, r⟩ hs
    dsimp only at hs
    unfold updStep
    dsimp only
    have : v ≠ 1 := by
      rintro rfl
      exact hs (Nat.coprime_one_left m)
    rw [if_neg this, hpow]
    exact ⟨_, rfl, not_coprime_pow hs hp⟩

theorem orderDfs_bad {o : Obj} (f : FacOk o) {m : Nat} {pow : Nat → Nat → M Nat} (hpow : PowOk m pow) : ∀ (k l r val res : Nat), l + 2 ≤ r → r ≤ o.facLambda.size →
    ¬ Nat.Coprime val m → orderDfs o pow k l r val res = .error .diverge := by
  intro k
  induction k with
  | zero =>
    intro l r val res h1 h2 h3
    rfl
  | succ k ih =>
    intro l r val res h1 h2 h3
    unfold orderDfs
    dsimp only
    obtain ⟨c, hc⟩ : ∃ c, c = (l + r) / 2 := ⟨_, rfl⟩
    rw [← hc]
    have c1 : l < c := by omega
    have c2 : c < r := by omega
    rw [prodPQ_tot (by omega) h2, ok_bind, hpow, ok_bind]
    have hn : ¬ Nat.Coprime (val ^ (∏ i ∈ Ico c r, PQ o i) % m) m := by
      refine not_coprime_pow h3 (prod_pos fun i hi => ?_)
      rw [mem_Ico] at hi
      exact f.pq_pos (by omega)
    by_cases hs : c - l = 1
    · rw [if_pos hs, updateAt_bad f hpow (by omega) hn]
      rfl
    · rw [if_neg hs, ih l c _ res (by omega) (by omega) hn]
      rfl

theorem orderImpl_bad {o : Obj} (f : FacOk o) {m : Nat} (hm : 3 ≤ m) (ho : o.mod = m) (hl : o.lambda = ArithmeticFunction.carmichael m) {pow : Nat → Nat → M Nat} (hpow : PowOk m pow)
    {a : Nat} (ha : ¬ Nat.Coprime a m) : orderImpl o pow a = .error .diverge := by
  unfold orderImpl
  rw [if_neg (by omega), ho]
  have hs := f.size_pos (by rw [hl]; exact lambda_ge (by omega))
  have hn : ¬ Nat.Coprime (a % m) m := by
    have := not_coprime_pow (x := 1) ha (by omega)
    rwa [pow_one] at this
  split_ifs with h1
  · exact updateAt_bad f hpow hs hn _
  · exact orderDfs_bad f hpow _ _ _ _ _ (by omega) (Nat.le_refl _) hn

/-! ### Prime powers and cyclic groups -/

theorem length_one_iff {m : Nat} {l : List (Nat × Nat)} (h : Factors m l) : l.length = 1 ↔ IsPrimePow m := by
  constructor
  · intro h1
    obtain ⟨x, rfl⟩ := List.length_eq_one_iff.mp h1
    have hp := h.prime x (by simp)
    have hm := h.prod
    simp at hm
    rw [← hm]
    exact hp.1.isPrimePow.pow (by omega)
  · intro h1
    obtain ⟨p, k, hp, hk, rfl⟩ := h1
    have hall : ∀ x ∈ l, x.1 = p := by
      intro x hx
      have hpx := h.prime x hx
      have h2 : x.1 ^ x.2 ∣ p ^ k := by
        rw [← h.prod]
        exact List.dvd_prod (List.mem_map.mpr ⟨x, hx, rfl⟩)
      have h3 : x.1 ∣ p ^ k := (dvd_pow_self _ (by omega)).trans h2
      exact (Nat.prime_dvd_prime_iff_eq hpx.1 hp.nat_prime).mp (hpx.1.dvd_of_dvd_pow h3)
    match l, h, hall with
    | [], h, _ =>
      have := h.prod
      simp at this
      have h2 : 1 < p ^ k := Nat.one_lt_pow (by omega) hp.nat_prime.one_lt
      omega
    | [x], _, _ => rfl
    | x :: y :: l, h, hall =>
      have := h.nodup
      simp [hall x (by simp), hall y (by simp)] at this

theorem cyclic_iff {m : Nat} (hm : 0 < m) : ArithmeticFunction.carmichael m = m.totient ↔ ∃ a : Nat, Nat.Coprime a m ∧ orderOf (a : ZMod m) = m.totient := by
  haveI : NeZero m := ⟨by omega⟩
  constructor
  · intro h
    have hc : IsCyclic (ZMod m)ˣ := by
      refine IsCyclic.of_exponent_eq_card ?_
      rw [← ArithmeticFunction.carmichael_eq_exponent', h, Nat.card_eq_fintype_card, ZMod.card_units_eq_totient]
    obtain ⟨g, hg⟩ := hc.exists_ofOrder_eq_natCard
    refine ⟨(g : ZMod m).val, ?_, ?_⟩
    · rw [← ZMod.isUnit_iff_coprime, ZMod.natCast_zmod_val]
      exact g.isUnit
    · rw [ZMod.natCast_zmod_val, orderOf_units, hg, Nat.card_eq_fintype_card, ZMod.card_units_eq_totient]
  · rintro ⟨a, h1, h2⟩
    have h3 := orderOf_dvd_of_pow_eq_one (pow_lambda h1)
    rw [h2] at h3
    exact Nat.dvd_antisymm (ArithmeticFunction.carmichael_dvd_totient m) h3

theorem search_tot {o : Obj} {Good : Nat → Prop} (hg : ∀ a, 2 ≤ a → a < o.mod → (o.isPrime = false → Nat.Coprime a o.mod) → Tot (isPrimitiveRoot o a) (fun b => b = true ↔ Good a))
    (hbad : ∀ a, Good a → Nat.Coprime a o.mod) (hm : 3 ≤ o.mod) (rng : List Nat) :
    Tot (search o rng) (fun r => match r with
      | some a => Good a ∧ 2 ≤ a ∧ a < o.mod
      | none => ∀ x ∈ rng, ¬ Good (x % (o.mod - 2) + 2)) := by
  induction rng with
  | nil =>
    refine tot_ok.mpr ?_
    intro x hx
    cases hx
  | cons x xs ih =>
    unfold search
    dsimp only
    have hlt : x % (o.mod - 2) < o.mod - 2 := Nat.mod_lt _ (by omega)
    split_ifs with h1
    · refine ih.mono ?_
      intro r hr
      cases r with
      | some a => exact hr
      | none =>
        intro y hy
        rcases List.mem_cons.mp hy with rfl | hy
        · exact fun h => h1.2 (hbad _ h)
        · exact hr y hy
    · refine (hg (x % (o.mod - 2) + 2) (by omega) (by omega) ?_).bind ?_
      · intro h
        by_contra hc
        exact h1 ⟨h, hc⟩
      · intro b hb
        split_ifs with hbt
        · rw [pure_eq]
          exact tot_ok.mpr ⟨hb.mp hbt, by omega, by omega⟩
        · refine ih.mono ?_
          intro r hr
          cases r with
          | some a => exact hr
          | none =>
            intro y hy
            rcases List.mem_cons.mp hy with rfl | hy
            · exact fun h => hbt (hb.mpr h)
            · exact hr y hy

end OrderMod
