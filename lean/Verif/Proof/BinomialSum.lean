import Verif.Model.BinomialSum
import Verif.Proof.Mo
import Verif.Proof.ModTables
import Mathlib.Algebra.BigOperators.Group.Finset.Basic
import Mathlib.Algebra.BigOperators.Intervals
import Mathlib.Tactic.LinearCombination

namespace BinomSum
open Cxx ModTables
variable {F : Type} [Field F] [DecidableEq F]

/-- The sum of the first terms of `(1 + r) ^ m`. -/
def S0 (r : F) (n m : Nat) : F := ∑ i ∈ Finset.range (n + 1), r ^ i * (m.choose i : F)

theorem S0_succ (r : F) (n m : Nat) : S0 r (n + 1) m = S0 r n m + r ^ (n + 1) * (m.choose (n + 1) : F) := by
  unfold S0
  rw [Finset.sum_range_succ]

theorem S0_m (r : F) (n m : Nat) : S0 r n (m + 1) = (r + 1) * S0 r n m - r ^ (n + 1) * (m.choose n : F) := by
  induction n with
  | zero => simp [S0]
  | succ n ih =>
    rw [S0_succ, ih, S0_succ, Nat.choose_succ_succ]
    push_cast
    ring

theorem S0_zero (r : F) : S0 r 0 0 = 1 := by simp [S0]

theorem S0_alt (n m : Nat) : S0 (-1 : F) n (m + 1) = (-1) ^ n * (m.choose n : F) := by
  rw [S0_m]
  ring

theorem S0_cut (r : F) {n m : Nat} (h : m ≤ n) : S0 r n m = S0 r m m := by
  induction n with
  | zero => rw [Nat.le_zero.mp h]
  | succ n ih =>
    by_cases e : m = n + 1
    · rw [e]
    · rw [S0_succ, Nat.choose_eq_zero_of_lt (by omega), ih (by omega)]
      simp

/-- The specified value of a query. -/
def Val (r : F) (n m : Int) : F := if 0 ≤ n ∧ 0 ≤ m then S0 r n.toNat m.toNat else 0

theorem Val_neg (r : F) {n m : Int} (h : min n m < 0) : Val r n m = 0 := by
  unfold Val
  rw [if_neg (by omega)]

theorem Val_min (r : F) {n m : Int} (h : 0 ≤ min n m) : Val r n m = S0 r (min n m).toNat m.toNat := by
  unfold Val
  rw [if_pos (by omega)]
  by_cases e : n ≤ m
  · rw [show min n m = n by omega]
  · rw [show min n m = m by omega]
    exact S0_cut r (by omega)

/-- The table of factorials after calls with arguments below `N`. -/
def TOk (N : Nat) (t : Factorial.Tab F) : Prop := Factorial.Inv t ∧ (t.fac.size = 1 ∨ t.fac.size + 2 ≤ 2 * N)

section
variable {N : Nat} (hF : ∀ k : Nat, 0 < k → k + 2 < 2 * N → (k : F) ≠ 0)
include hF

theorem size_ok {t : Factorial.Tab F} (h : TOk N t) {n : Nat} (hn : n < N) :
    ((Factorial.newSize t.fac.size n - 1).factorial : F) ≠ 0 ∧ (Factorial.newSize t.fac.size n = 1 ∨ Factorial.newSize t.fac.size n + 2 ≤ 2 * N) := by
  obtain ⟨h1, h2⟩ := h
  have hp := h1.pos
  have hlt : Factorial.newSize t.fac.size n = 1 ∨ Factorial.newSize t.fac.size n + 2 ≤ 2 * N := by
    unfold Factorial.newSize
    split_ifs <;> omega
  refine ⟨?_, hlt⟩
  rcases hlt with h | h
  · rw [h]; simp
  · refine Factorial.fac_ne (L := 2 * N - 2) (fun k k1 k2 => hF k k1 (by omega)) _ ?_
    unfold Factorial.newSize at h ⊢
    split_ifs at h ⊢ <;> omega

theorem ensure_ok {t : Factorial.Tab F} (h : TOk N t) {n : Nat} (hn : n < N) : Tot (Factorial.ensure t n) (TOk N) := by
  obtain ⟨h1, h2⟩ := size_ok hF h hn
  refine (Factorial.ensure_tot h.1 h1).mono ?_
  rintro t' ⟨k1, k2, -⟩
  exact ⟨k1, by rw [k2]; exact h2⟩

theorem binom_ok {t : Factorial.Tab F} (h : TOk N t) {n r : Int} (hn : n < N) :
    Tot (Factorial.binom t n r) fun x => TOk N x.1 ∧ x.2 = if 0 ≤ n ∧ 0 ≤ r then (n.toNat.choose r.toNat : F) else 0 := by
  have : Tot (Factorial.step t (.binom n r)) _ := Factorial.step_tot h.1 (op := .binom n r) (fun h0 => (size_ok hF h (by simp only [Factorial.Op.arg] at h0 ⊢; omega)).1)
  refine Tot.mono this ?_
  rintro x ⟨k1, k2, k3⟩
  refine ⟨⟨k1, ?_⟩, k3⟩
  rcases k2 with k2 | k2
  · rw [k2]; exact h.2
  · rw [k2]
    have hp := h.1.pos
    have := h.2
    simp only [Factorial.Op.arg]
    unfold Factorial.newSize
    split_ifs <;> omega

theorem binom_nat {t : Factorial.Tab F} (h : TOk N t) {n r : Nat} (hn : n < N) :
    Tot (Factorial.binom t n r) fun x => TOk N x.1 ∧ x.2 = (n.choose r : F) := by
  refine (binom_ok hF h (by omega)).mono ?_
  rintro x ⟨k1, k2⟩
  refine ⟨k1, ?_⟩
  rw [k2, if_pos (by omega)]
  simp

/-- The callbacks keep the sum up to date. -/
theorem callbacks_ok {r inv : F} (hinv : inv * (r + 1) = 1) {mm : Nat} (hm : mm < N) :
    Mo.Ok mm (callbacks r inv) (fun l k (s : S F) => s.sum = S0 r l k ∧ TOk N s.fac ∧ PowMods.Inv r s.pw) (fun l k x => x = S0 r l k) := by
  refine ⟨?_, ?_, ?_, ?_, ?_⟩
  · rintro l k s h1 h2 ⟨g1, g2, g3⟩
    show Tot (addL r l k s) _
    unfold addL
    refine Tot.bind (PowMods.get_tot g3 (l + 1)) ?_
    rintro p ⟨p1, p2⟩
    refine Tot.bind (binom_nat hF g2 (n := k) (r := l + 1) (by omega)) ?_
    rintro c ⟨c1, c2⟩
    refine Tot.pure ⟨?_, c1, p1⟩
    dsimp only
    rw [g1, p2, c2, S0_succ]
    ring
  · rintro l k s h1 h2 ⟨g1, g2, g3⟩
    show Tot (delL r l k s) _
    unfold delL
    refine Tot.bind (PowMods.get_tot g3 (l + 1)) ?_
    rintro p ⟨p1, p2⟩
    refine Tot.bind (binom_nat hF g2 (n := k) (r := l + 1) (by omega)) ?_
    rintro c ⟨c1, c2⟩
    refine Tot.pure ⟨?_, c1, p1⟩
    dsimp only
    rw [g1, p2, c2, S0_succ]
  · rintro l k s h1 h2 ⟨g1, g2, g3⟩
    show Tot (addR r l k s) _
    unfold addR
    refine Tot.bind (PowMods.get_tot g3 (l + 1)) ?_
    rintro p ⟨p1, p2⟩
    refine Tot.bind (binom_nat hF g2 (n := k) (r := l) (by omega)) ?_
    rintro c ⟨c1, c2⟩
    refine Tot.pure ⟨?_, c1, p1⟩
    dsimp only
    rw [g1, p2, c2, S0_m]
  · rintro l k s h1 h2 ⟨g1, g2, g3⟩
    show Tot (delR r inv l k s) _
    unfold delR
    refine Tot.bind (PowMods.get_tot g3 (l + 1)) ?_
    rintro p ⟨p1, p2⟩
    refine Tot.bind (binom_nat hF g2 (n := k) (r := l) (by omega)) ?_
    rintro c ⟨c1, c2⟩
    refine Tot.pure ⟨?_, c1, p1⟩
    dsimp only
    rw [g1, p2, c2, S0_m]
    linear_combination (S0 r l k) * hinv
  · rintro l k s h1 h2 ⟨g1, g2, g3⟩
    exact Tot.pure g1

theorem alt_tot {qs : Array (Int × Int)} (hq : ∀ q ∈ qs, q.2 + 1 < N) {t : Factorial.Tab F} (ht : TOk N t) :
    Tot (forUp 0 qs.size (t, Array.replicate qs.size 0) (altStep qs)) fun o => TOk N o.1 ∧ o.2.size = qs.size ∧
      ∀ (i : Nat) (q : Int × Int), qs[i]? = some q → o.2[i]? = some (Val (-1 : F) q.1 q.2) := by
  have key : Tot (forUp 0 qs.size (t, Array.replicate qs.size 0) (altStep qs)) fun o => TOk N o.1 ∧ o.2.size = qs.size ∧
      ∀ i : Nat, i < qs.size → ∀ q : Int × Int, qs[i]? = some q → o.2[i]? = some (Val (-1 : F) q.1 q.2) := by
    refine Tot.forUp (lo := 0) (hi := qs.size) (P := fun k (st : Factorial.Tab F × Array F) => TOk N st.1 ∧ st.2.size = qs.size ∧
      ∀ i : Nat, i < k → ∀ q : Int × Int, qs[i]? = some q → st.2[i]? = some (Val (-1 : F) q.1 q.2)) (Nat.zero_le _) ⟨ht, by simp, by omega⟩ ?_
    rintro i ⟨t, res⟩ - hi ⟨h1, h2, h3⟩
    dsimp only at h1 h2 h3
    have hr : qs[i]? = some qs[i] := by simp [hi]
    have si : i < res.size := by omega
    have hqi := hq qs[i] (by simp)
    -- the new results
    have hset : ∀ x : F, x = Val (-1) qs[i].1 qs[i].2 → ∀ j, j < i + 1 → ∀ q : Int × Int, qs[j]? = some q → (res.setIfInBounds i x)[j]? = some (Val (-1 : F) q.1 q.2) := by
      intro x hx j hj q hjq
      rw [Array.getElem?_setIfInBounds]
      by_cases e : i = j
      · subst e
        rw [hr] at hjq
        obtain rfl := Option.some.inj hjq
        simp [si, hx]
      · rw [if_neg e]
        exact h3 j (by omega) q hjq
    unfold altStep
    rw [rd_some hr, ok_bind]
    obtain ⟨q, hqe⟩ : ∃ q, q = qs[i] := ⟨_, rfl⟩
    rw [← hqe] at hset hqi ⊢
    dsimp only
    split_ifs with c1 c2
    · rw [wr_eq si, ok_bind]
      exact Tot.pure ⟨h1, by simpa using h2, hset 0 (Val_neg _ c1).symm⟩
    · rw [wr_eq si, ok_bind]
      refine Tot.pure ⟨h1, by simpa using h2, hset 1 ?_⟩
      rw [Val_min _ (by omega), show (min q.1 q.2).toNat = 0 by omega, show q.2.toNat = 0 by omega, S0_zero]
    · refine Tot.bind (binom_ok hF h1 (by omega)) ?_
      rintro c ⟨k1, k2⟩
      rw [wr_eq si, ok_bind]
      refine Tot.pure ⟨k1, by simpa using h2, hset _ ?_⟩
      rw [Val_min _ (by omega), k2, if_pos (by omega), show q.2.toNat = (q.2 - 1).toNat + 1 by omega, S0_alt]
      congr 1
      obtain ⟨m, hm⟩ : ∃ m : Nat, min q.1 q.2 = m := ⟨(min q.1 q.2).toNat, by omega⟩
      rw [hm, Int.toNat_natCast]
      unfold altSign
      rcases Nat.mod_two_eq_zero_or_one m with e | e
      · rw [if_neg (by omega), Even.neg_one_pow (Nat.even_iff.mpr e)]
      · rw [if_pos (by omega), Odd.neg_one_pow (Nat.odd_iff.mpr e)]
  refine key.mono ?_
  rintro o ⟨h1, h2, h3⟩
  refine ⟨h1, h2, ?_⟩
  intro i q hi
  refine h3 i ?_ q hi
  by_contra c
  rw [Array.getElem?_eq_none (by omega)] at hi
  cases hi

omit hF in
/-- What the collecting loop leaves. -/
theorem coll_tot {qs : Array (Int × Int)} (hq : ∀ q ∈ qs, q.2 + 1 < N) (hN : 2 < N) (r : F) :
    Tot (forUp 0 qs.size (Coll.mk (Array.replicate qs.size 0) #[] #[] 1) (collStep qs)) fun c => c.res.size = qs.size ∧ c.qid.size = c.ranges.size ∧ 1 ≤ c.maxM ∧ c.maxM + 1 < N ∧
      (∀ q ∈ c.ranges, q.1 ≤ q.2 ∧ (q.2 : Int) ≤ c.maxM) ∧
      (∀ (j k : Nat), c.qid[j]? = some k → ∃ (q : Int × Int) (p : Nat × Nat), qs[k]? = some q ∧ c.ranges[j]? = some p ∧ Val r q.1 q.2 = S0 r p.1 p.2) ∧
      (∀ (i : Nat) (q : Int × Int), qs[i]? = some q → i ∈ c.qid ∨ c.res[i]? = some (Val r q.1 q.2)) := by
  have key : Tot (forUp 0 qs.size (Coll.mk (Array.replicate qs.size 0) #[] #[] 1) (collStep qs)) fun c => c.res.size = qs.size ∧ c.qid.size = c.ranges.size ∧ 1 ≤ c.maxM ∧ c.maxM + 1 < N ∧
      (∀ q ∈ c.ranges, q.1 ≤ q.2 ∧ (q.2 : Int) ≤ c.maxM) ∧
      (∀ (j k : Nat), c.qid[j]? = some k → ∃ (q : Int × Int) (p : Nat × Nat), qs[k]? = some q ∧ c.ranges[j]? = some p ∧ Val r q.1 q.2 = S0 r p.1 p.2) ∧
      (∀ i : Nat, i < qs.size → ∀ q : Int × Int, qs[i]? = some q → i ∈ c.qid ∨ c.res[i]? = some (Val r q.1 q.2)) := by
    refine Tot.forUp (lo := 0) (hi := qs.size) (P := fun n (c : Coll F) => c.res.size = qs.size ∧ c.qid.size = c.ranges.size ∧ 1 ≤ c.maxM ∧ c.maxM + 1 < N ∧
      (∀ q ∈ c.ranges, q.1 ≤ q.2 ∧ (q.2 : Int) ≤ c.maxM) ∧
      (∀ (j k : Nat), c.qid[j]? = some k → ∃ (q : Int × Int) (p : Nat × Nat), qs[k]? = some q ∧ c.ranges[j]? = some p ∧ Val r q.1 q.2 = S0 r p.1 p.2) ∧
      (∀ i : Nat, i < n → ∀ q : Int × Int, qs[i]? = some q → i ∈ c.qid ∨ c.res[i]? = some (Val r q.1 q.2))) (Nat.zero_le _) ⟨by simp, rfl, by simp, by dsimp only; omega, by simp, by simp, by omega⟩ ?_
    rintro i ⟨res, qid, ranges, maxM⟩ - hi ⟨h1, h2, h3, h4, h5, h6, h7⟩
    dsimp only at h1 h2 h3 h4 h5 h6 h7
    have hr : qs[i]? = some qs[i] := by simp [hi]
    have si : i < res.size := by omega
    have hqi := hq qs[i] (by simp)
    have hset : ∀ x : F, x = Val r qs[i].1 qs[i].2 → ∀ j, j < i + 1 → ∀ q : Int × Int, qs[j]? = some q → j ∈ qid ∨ (res.setIfInBounds i x)[j]? = some (Val r q.1 q.2) := by
      intro x hx j hj q hjq
      rw [Array.getElem?_setIfInBounds]
      by_cases e : i = j
      · subst e
        rw [hr] at hjq
        obtain rfl := Option.some.inj hjq
        right
        simp [si, hx]
      · rw [if_neg e]
        exact h7 j (by omega) q hjq
    unfold collStep
    rw [rd_some hr, ok_bind]
    obtain ⟨q, hqe⟩ : ∃ q, q = qs[i] := ⟨_, rfl⟩
    rw [← hqe] at hset hqi hr ⊢
    dsimp only
    split_ifs with c1 c2
    · rw [wr_eq si, ok_bind]
      exact Tot.pure ⟨by simpa using h1, h2, h3, h4, h5, h6, hset 0 (Val_neg _ c1).symm⟩
    · rw [wr_eq si, ok_bind]
      refine Tot.pure ⟨by simpa using h1, h2, h3, h4, h5, h6, hset 1 ?_⟩
      rw [Val_min _ (by omega), show (min q.1 q.2).toNat = 0 by omega, show q.2.toNat = 0 by omega, S0_zero]
    · refine Tot.pure ⟨h1, by simp [h2], by dsimp only; omega, by dsimp only; omega, ?_, ?_, ?_⟩
      · intro p hp
        dsimp only at hp ⊢
        rw [Array.mem_push] at hp
        rcases hp with hp | rfl
        · have := h5 p hp
          omega
        · dsimp only
          omega
      · intro j k hjk
        dsimp only at hjk ⊢
        rw [Array.getElem?_push] at hjk ⊢
        by_cases e : j = qid.size
        · rw [if_pos e] at hjk
          rw [if_pos (by omega)]
          obtain rfl := Option.some.inj hjk
          exact ⟨q, _, hr, rfl, Val_min _ (by omega)⟩
        · rw [if_neg e] at hjk
          rw [if_neg (by omega)]
          exact h6 j k hjk
      · intro j hj p hjp
        dsimp only
        by_cases e : j = i
        · left
          rw [e]
          simp
        · rcases h7 j (by omega) p hjp with h | h
          · left
            simp [h]
          · exact .inr h
  refine key.mono ?_
  rintro o ⟨h1, h2, h3, h4, h5, h6, h7⟩
  refine ⟨h1, h2, h3, h4, h5, h6, ?_⟩
  intro i q hi
  refine h7 i ?_ q hi
  by_contra c
  rw [Array.getElem?_eq_none (by omega)] at hi
  cases hi

theorem general_tot {srt : (Nat → Nat → Bool) → List Nat → List Nat} (hsrt : ∀ lt l, StrictWeak lt → (srt lt l).Perm l) (b : Nat) {qs : Array (Int × Int)}
    (hq : ∀ q ∈ qs, q.2 + 1 < N) (hN : 2 < N) {t : Factorial.Tab F} (ht : TOk N t) {r : F} (hr : r ≠ -1) :
    Tot (general srt b t qs r) fun o => TOk N o.1 ∧ o.2.size = qs.size ∧ ∀ (i : Nat) (q : Int × Int), qs[i]? = some q → o.2[i]? = some (Val r q.1 q.2) := by
  unfold general
  refine Tot.bind (coll_tot hq hN r) ?_
  rintro c ⟨h1, h2, h3, h4, h5, h6, h7⟩
  refine Tot.bind (PowMods.ensure_tot (PowMods.inv_init r) _) ?_
  rintro pw ⟨hpw, -⟩
  refine Tot.bind (ensure_ok hF ht (by omega)) ?_
  intro t' ht'
  have hr1 : r + 1 ≠ 0 := fun e => hr (eq_neg_of_add_eq_zero_left e)
  unfold minv
  rw [if_neg hr1, pure_eq, ok_bind]
  refine Tot.bind (Mo.solve_tot (callbacks_ok hF (inv_mul_cancel₀ hr1) (mm := c.maxM.toNat) (by omega)) hsrt b ?_ 0 ⟨(S0_zero r).symm, ht', hpw⟩) ?_
  · intro q hq'
    have := h5 q hq'
    omega
  · rintro o ⟨⟨l, k, -, -, -, g1, -⟩, g2, g3⟩
    refine Tot.bind (Tot.forUp (lo := 0) (hi := c.qid.size) (P := fun n (res : Array F) => res.size = qs.size ∧
      ∀ (i : Nat) (q : Int × Int), qs[i]? = some q → (∃ j, n ≤ j ∧ c.qid[j]? = some i) ∨ res[i]? = some (Val r q.1 q.2)) (Nat.zero_le _) ⟨h1, ?_⟩ ?_) ?_
    · intro i q hi
      rcases h7 i q hi with h | h
      · left
        obtain ⟨j, hj, e⟩ := Array.mem_iff_getElem.mp h
        exact ⟨j, Nat.zero_le _, by simp [hj, e]⟩
      · exact .inr h
    · rintro j res - hj ⟨f1, f2⟩
      have hrj : c.qid[j]? = some c.qid[j] := by simp [hj]
      obtain ⟨q, p, e1, e2, e3⟩ := h6 j _ hrj
      obtain ⟨x, x1, x2⟩ := g3 j p e2
      have hk : c.qid[j] < res.size := by
        rw [f1]
        by_contra cc
        rw [Array.getElem?_eq_none (by omega)] at e1
        cases e1
      unfold backStep
      rw [rd_some hrj, ok_bind, rd_some x1, ok_bind, wr_eq hk]
      refine tot_ok.mpr ⟨by simpa using f1, ?_⟩
      intro i q' hi
      rw [Array.getElem?_setIfInBounds]
      by_cases e : c.qid[j] = i
      · right
        rw [if_pos e, if_pos hk]
        rw [e, hi] at e1
        obtain rfl := Option.some.inj e1
        rw [x2, e3]
      · rw [if_neg e]
        rcases f2 i q' hi with ⟨j', d1, d2⟩ | h
        · left
          refine ⟨j', ?_, d2⟩
          by_contra cc
          obtain rfl : j' = j := by omega
          rw [hrj] at d2
          exact e (Option.some.inj d2)
        · exact .inr h
    · rintro res ⟨f1, f2⟩
      refine Tot.pure ⟨g1, f1, ?_⟩
      intro i q hi
      rcases f2 i q hi with ⟨j, d1, d2⟩ | h
      · exfalso
        rw [Array.getElem?_eq_none (by omega)] at d2
        cases d2
      · exact h

theorem prefix_tot {srt : (Nat → Nat → Bool) → List Nat → List Nat} (hsrt : ∀ lt l, StrictWeak lt → (srt lt l).Perm l) (b : Nat) {qs : Array (Int × Int)}
    (hq : ∀ q ∈ qs, q.2 + 1 < N) (hN : 2 < N) {t : Factorial.Tab F} (ht : TOk N t) (r : F) :
    Tot (prefixSum srt b t qs r) fun o => TOk N o.1 ∧ o.2.size = qs.size ∧ ∀ (i : Nat) (q : Int × Int), qs[i]? = some q → o.2[i]? = some (Val r q.1 q.2) := by
  unfold prefixSum
  split_ifs with h
  · rw [h]
    exact alt_tot hF hq ht
  · exact general_tot hF hsrt b hq hN ht h

theorem binomSum_tot {srt : (Nat → Nat → Bool) → List Nat → List Nat} (hsrt : ∀ lt l, StrictWeak lt → (srt lt l).Perm l) (b b' : Nat) {qs : Array (Int × Int × Int)}
    (hq : ∀ q ∈ qs, q.2.2 + 1 < N) (hN : 2 < N) {t : Factorial.Tab F} (ht : TOk N t) (r : F) :
    Tot (binomSum srt b b' t qs r) fun o => TOk N o.1 ∧ o.2.size = qs.size ∧ ∀ (i : Nat) (q : Int × Int × Int), qs[i]? = some q → o.2[i]? = some (Val r q.2.1 q.2.2 - Val r (q.1 - 1) q.2.2) := by
  unfold binomSum
  refine Tot.bind (prefix_tot hF hsrt b ?_ hN ht r) ?_
  · intro q hq'
    rw [Array.mem_map] at hq'
    obtain ⟨p, hp, rfl⟩ := hq'
    exact hq p hp
  · rintro o ⟨h1, h2, h3⟩
    refine Tot.bind (prefix_tot hF hsrt b' ?_ hN h1 r) ?_
    · intro q hq'
      rw [Array.mem_map] at hq'
      obtain ⟨p, hp, rfl⟩ := hq'
      exact hq p hp
    · rintro o' ⟨k1, k2, k3⟩
      refine Tot.pure ⟨k1, ?_, ?_⟩
      · simp only [Array.size_map] at h2 k2
        simp [h2, k2]
      · intro i q hi
        dsimp only
        rw [Array.getElem?_zipWith]
        have e1 := h3 i (q.1 - 1, q.2.2) (by simp [hi])
        have e2 := k3 i (q.2.1, q.2.2) (by simp [hi])
        rw [e1, e2]

end

end BinomSum
