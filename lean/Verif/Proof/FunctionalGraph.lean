import Verif.Model.FunctionalGraph
import Verif.Spec.FunctionalGraph
import Mathlib.Tactic.Ring
import Mathlib.Tactic.Linarith

/-! # Functional graphs: doubling tables -/

namespace FunctionalGraph
open Cxx

theorem floorLog2_tot {v : Int} (hv : v < 2 ^ 62) : Tot (floorLog2 v) fun l => l ≤ 61 ∧ v < 2 ^ (l + 1) ∧ (l = 0 ∨ (2 : Int) ^ l ≤ v) := by
  unfold floorLog2
  refine Tot.loop (P := fun l => l ≤ 61 ∧ (l = 0 ∨ (2 : Int) ^ l ≤ v)) (fun l => 61 - l) ?_ ⟨by omega, Or.inl rfl⟩ (by omega)
  rintro l ⟨h1, h2⟩
  unfold floorLog2Step shl1
  rw [if_pos (by omega), ok_bind]
  by_cases h : (2 : Int) ^ (l + 1) ≤ v
  · rw [if_pos h]
    have : l + 1 < 62 := by
      have := lt_of_le_of_lt h hv
      exact (pow_lt_pow_iff_right₀ (by norm_num : (1 : Int) < 2)).1 this
    exact Tot.pure ⟨⟨by omega, Or.inr h⟩, by omega⟩
  · rw [if_neg h]
    exact Tot.pure ⟨h1, by omega, h2⟩

/-- From `2^62` on the shift runs out of the type. -/
theorem floorLog2_ub {v : Int} (hv : 2 ^ 62 ≤ v) : floorLog2 v = .error .ub := by
  have hs : ∀ l, l ≤ 61 → floorLog2Step v l = .ok (some (l + 1)) := by
    intro l hl
    unfold floorLog2Step shl1
    rw [if_pos (by omega), ok_bind, if_pos]
    · rfl
    · exact le_trans (pow_le_pow_right₀ (by norm_num) (by omega)) hv
  have h62 : floorLog2Step v 62 = .ok (some 63) := by
    unfold floorLog2Step shl1
    rw [if_neg (by omega), if_pos rfl, ok_bind, if_pos]
    · rfl
    · exact le_trans (by norm_num) hv
  have h63 : floorLog2Step v 63 = .error .ub := by
    unfold floorLog2Step shl1
    rw [if_neg (by omega), if_neg (by omega)]; rfl
  have key : ∀ m l, l + m = 62 → loop (floorLog2Step v) (m + 2) l = .error .ub := by
    intro m
    induction m with
    | zero =>
      intro l hl
      obtain rfl : l = 62 := by omega
      simp only [loop, h62, ok_bind, h63, err_bind]
    | succ m ih =>
      intro l hl
      rw [show m + 1 + 2 = (m + 2) + 1 by omega]
      rw [loop, hs l (by omega), ok_bind]
      exact ih (l + 1) (by omega)
  exact key 62 0 rfl

/-- All rows have length `n`. -/
def Shape {α : Type} (n rows : Nat) (t : Array (Array α)) : Prop := t.size = rows ∧ ∀ i, i < rows → ∃ r, t[i]? = some r ∧ r.size = n

theorem wr2_tot {α : Type} {n rows : Nat} {t : Array (Array α)} (h : Shape n rows t) {i j : Nat} (hi : i < rows) (hj : j < n) (x : α) :
    Tot (wr2 t i j x) fun t' => Shape n rows t' ∧ ∀ a b, rd2 t' a b = if a = i ∧ b = j then .ok x else rd2 t a b := by
  obtain ⟨h1, h2⟩ := h
  obtain ⟨r, hr, hs⟩ := h2 i hi
  unfold wr2
  rw [rd_some hr, ok_bind, wr_eq (by omega), ok_bind, wr_eq (by omega)]
  refine tot_ok.2 ⟨⟨by simpa using h1, fun a ha => ?_⟩, fun a b => ?_⟩
  · rw [get?_set _ _ _ _ (by omega)]
    by_cases e : i = a
    · rw [if_pos e]; exact ⟨_, rfl, by simpa using hs⟩
    · rw [if_neg e]; exact h2 a ha
  · by_cases e : a = i
    · subst e
      unfold rd2
      rw [rd_some (x := r.setIfInBounds j x) (by rw [get?_set _ _ _ _ (by omega), if_pos rfl]), ok_bind, rd_some hr, ok_bind]
      by_cases e' : b = j
      · subst e'
        rw [if_pos ⟨rfl, rfl⟩, rd_some]
        rw [get?_set _ _ _ _ (by omega), if_pos rfl]
      · rw [if_neg (by tauto)]
        unfold rd
        rw [get?_set _ _ _ _ (by omega), if_neg (Ne.symm e')]
    · rw [if_neg (by tauto)]
      unfold rd2 rd
      rw [get?_set _ _ _ _ (by omega), if_neg (Ne.symm e)]

/-- Filling a table row by row. -/
theorem fill_tot {α : Type} {n log : Nat} {d : α} {t0 : Array α} (h0 : t0.size = n) {F : Nat → Nat → α} (hF : ∀ j, j < n → t0[j]? = some (F 0 j))
    {cell : Nat → Nat → Array (Array α) → M (Array (Array α))}
    (hcell : ∀ i j t, 1 ≤ i → i ≤ log → j < n → (∀ k, k < n → rd2 t (i - 1) k = .ok (F (i - 1) k)) → cell i j t = wr2 t i j (F i j)) {k : Array (Array α) → M (Array (Array α))}
    (hk : ∀ t, k t = forUp 1 (log + 1) t fun i t => forUp 0 n t (cell i)) :
    Tot (wr (Array.replicate (log + 1) (Array.replicate n d)) 0 t0 >>= k) fun t => ∀ i, i ≤ log → ∀ j, j < n → rd2 t i j = .ok (F i j) := by
  rw [wr_eq (by simp), ok_bind, hk]
  have hsh : Shape n (log + 1) ((Array.replicate (log + 1) (Array.replicate n d)).setIfInBounds 0 t0) := by
    refine ⟨by simp, fun i hi => ?_⟩
    rw [get?_set _ _ _ _ (by simp)]
    by_cases e : 0 = i
    · rw [if_pos e]; exact ⟨_, rfl, h0⟩
    · rw [if_neg e, Array.getElem?_replicate, if_pos hi]; exact ⟨_, rfl, by simp⟩
  refine (Tot.forUp (P := fun i t => Shape n (log + 1) t ∧ ∀ i', i' < i → ∀ j, j < n → rd2 t i' j = .ok (F i' j)) (by omega) ⟨hsh, ?_⟩ ?_).mono ?_
  · intro i' hi' j hj
    obtain rfl : i' = 0 := by omega
    unfold rd2
    rw [rd_some (x := t0) (by rw [get?_set _ _ _ _ (by simp), if_pos rfl]), ok_bind, rd_some (hF j hj)]
  · rintro i t hi1 hi2 ⟨g1, g2⟩
    refine (Tot.forUp (P := fun j t => Shape n (log + 1) t ∧ (∀ i', i' < i → ∀ j, j < n → rd2 t i' j = .ok (F i' j)) ∧ ∀ j', j' < j → rd2 t i j' = .ok (F i j'))
      (Nat.zero_le _) ⟨g1, g2, fun j' hj' => absurd hj' (Nat.not_lt_zero _)⟩ ?_).mono ?_
    · rintro j t' - hj ⟨q1, q2, q3⟩
      rw [hcell i j t' hi1 (by omega) hj (fun k hk => q2 (i - 1) (by omega) k hk)]
      refine (wr2_tot q1 hi2 hj _).mono ?_
      rintro t'' ⟨r1, r2⟩
      refine ⟨r1, fun i' hi' j' hj' => ?_, fun j' hj' => ?_⟩
      · rw [r2, if_neg (by omega)]; exact q2 i' hi' j' hj'
      · rw [r2]
        by_cases e : j' = j
        · rw [if_pos ⟨rfl, e⟩, e]
        · rw [if_neg (by tauto)]; exact q3 j' (by omega)
    · rintro t' ⟨q1, q2, q3⟩
      refine ⟨q1, fun i' hi' j hj => ?_⟩
      by_cases e : i' = i
      · rw [e]; exact q3 j hj
      · exact q2 i' (by omega) j hj
  · rintro t ⟨g1, g2⟩ i hi j hj
    exact g2 i (by omega) j hj

/-- The function given by the vector. -/
def fn (nxt : Array Nat) (u : Nat) : Nat := at' 0 nxt u

/-- The vector is a functional graph. -/
def Closed (nxt : Array Nat) : Prop := ∀ u, u < nxt.size → fn nxt u < nxt.size

theorem iter_lt {nxt : Array Nat} (hc : Closed nxt) {u : Nat} (hu : u < nxt.size) (k : Nat) : (fn nxt)^[k] u < nxt.size := by
  induction k with
  | zero => exact hu
  | succ k ih => rw [Function.iterate_succ_apply']; exact hc _ ih

/-- The table of the object. -/
def DRep (nxt : Array Nat) (m : Int) (D : Dbl) : Prop :=
  D.sz = nxt.size ∧ m < 2 ^ (D.log + 1) ∧ D.log ≤ 61 ∧ ∀ i, i ≤ D.log → ∀ j, j < nxt.size → rd2 D.nxt i j = .ok ((fn nxt)^[2 ^ i] j)

theorem doubling_tot {nxt : Array Nat} (hc : Closed nxt) {m : Int} (hm : m < 2 ^ 62) : Tot (doubling nxt m) (DRep nxt m) := by
  unfold doubling
  refine Tot.bind (floorLog2_tot hm) fun log hlog => ?_
  have key : Tot (wr (Array.replicate (log + 1) (Array.replicate nxt.size 0)) 0 nxt >>= fun t => forUp 1 (log + 1) t fun i t => forUp 0 nxt.size t (fillCell i))
      fun t => ∀ i, i ≤ log → ∀ j, j < nxt.size → rd2 t i j = .ok ((fn nxt)^[2 ^ i] j) := by
    refine fill_tot (F := fun i j => (fn nxt)^[2 ^ i] j) rfl ?_ ?_ (fun t => rfl)
    · intro j hj
      simp [fn, at', hj]
    · intro i j t h1 h2 hj hrow
      unfold fillCell
      rw [hrow j hj, ok_bind, hrow _ (iter_lt hc hj _), ok_bind, ← Function.iterate_add_apply]
      congr 3
      rw [← mul_two, ← pow_succ, show i - 1 + 1 = i by omega]
  obtain ⟨t, e, ht⟩ := key
  refine ⟨⟨nxt.size, log, t⟩, ?_, rfl, hlog.2.1, hlog.1, ht⟩
  cases h1 : wr (Array.replicate (log + 1) (Array.replicate nxt.size 0)) 0 nxt with
  | error x => rw [h1] at e; cases e
  | ok t1 =>
    rw [h1, ok_bind] at e
    rw [ok_bind, e]; rfl

theorem bits_succ (d l : Nat) : d / 2 ^ l * 2 ^ l = d / 2 ^ (l + 1) * 2 ^ (l + 1) + d / 2 ^ l % 2 * 2 ^ l := by
  have h1 : d / 2 ^ (l + 1) = d / 2 ^ l / 2 := by rw [pow_succ, Nat.div_div_eq_div_mul]
  have h2 := Nat.div_add_mod (d / 2 ^ l) 2
  rw [h1]
  conv_lhs => rw [← h2]
  ring

theorem query_tot {nxt : Array Nat} (hc : Closed nxt) {m : Int} {D : Dbl} (h : DRep nxt m D) {u d : Nat} (hu : u < nxt.size) (hd : (d : Int) ≤ m) :
    query D u d = .ok ((fn nxt)^[d] u) := by
  obtain ⟨h1, h2, h3, h4⟩ := h
  have hd' : d < 2 ^ (D.log + 1) := by exact_mod_cast lt_of_le_of_lt hd h2
  rw [← tot_eq]
  unfold query
  refine (Tot.forDown (P := fun l (v : Nat) => v = (fn nxt)^[d / 2 ^ l * 2 ^ l] u) (Nat.zero_le _) ?_ ?_).mono ?_
  · rw [Nat.div_eq_of_lt hd']; simp
  · rintro l v - hl rfl
    unfold queryStep
    by_cases hb : d / 2 ^ l % 2 = 1
    · rw [if_pos hb, h4 l (by omega) _ (iter_lt hc hu _)]
      refine tot_ok.2 ?_
      rw [← Function.iterate_add_apply, bits_succ d l, hb, one_mul, add_comm]
    · rw [if_neg hb]
      refine Tot.pure ?_
      rw [bits_succ d l, show d / 2 ^ l % 2 = 0 by omega, zero_mul, add_zero]
  · rintro v rfl
    simp

theorem or_bit {s l : Nat} (h : 2 ^ (l + 1) ∣ s) : s ||| 1 <<< l = s + 2 ^ l := by
  obtain ⟨a, rfl⟩ := h
  rw [Nat.one_shiftLeft, Nat.two_pow_add_eq_or_of_lt (Nat.pow_lt_pow_right (by omega) (by omega))]

/-- The states of the binary search: `Q k` says that the predicate holds after `k` steps. -/
structure BS (Q : Nat → Prop) (top l s : Nat) : Prop where
  dvd : 2 ^ l ∣ s
  lt : s < 2 ^ top
  here : Q s
  above : ∀ k, s + 2 ^ l ≤ k → k < 2 ^ top → ¬ Q k

theorem anti {Q : Nat → Prop} (hm : ∀ k, Q (k + 1) → Q k) {a b : Nat} (h : a ≤ b) : Q b → Q a := by
  intro hb
  induction b, h using Nat.le_induction with
  | base => exact hb
  | succ b _ ih => exact ih (hm b hb)

theorem BS.yes {Q : Nat → Prop} {top l s : Nat} (h : BS Q top (l + 1) s) (hl : l < top) (hq : Q (s + 2 ^ l)) : BS Q top l (s + 2 ^ l) := by
  obtain ⟨h1, h2, h3, h4⟩ := h
  refine ⟨?_, ?_, hq, ?_⟩
  · exact (Nat.dvd_add ((pow_dvd_pow 2 (Nat.le_succ l)).trans h1) (dvd_refl _))
  · obtain ⟨a, rfl⟩ := h1
    have e : 2 ^ top = 2 ^ (l + 1) * 2 ^ (top - (l + 1)) := by rw [← pow_add]; congr 1; omega
    rw [e] at h2 ⊢
    have ha : a < 2 ^ (top - (l + 1)) := Nat.lt_of_mul_lt_mul_left h2
    have : 2 ^ (l + 1) * (a + 1) ≤ 2 ^ (l + 1) * 2 ^ (top - (l + 1)) := Nat.mul_le_mul_left _ ha
    have hp : 0 < 2 ^ l := by positivity
    rw [pow_succ] at this ⊢
    rw [Nat.mul_add] at this
    omega
  · intro k hk
    refine h4 k ?_
    rw [pow_succ]; omega

theorem BS.no {Q : Nat → Prop} {top l s : Nat} (hm : ∀ k, Q (k + 1) → Q k) (h : BS Q top (l + 1) s) (hq : ¬ Q (s + 2 ^ l)) : BS Q top l s := by
  obtain ⟨h1, h2, h3, h4⟩ := h
  exact ⟨(pow_dvd_pow 2 (Nat.le_succ l)).trans h1, h2, h3, fun k hk _ hk' => hq (anti hm hk hk')⟩

theorem BS.init {Q : Nat → Prop} {top : Nat} (h : Q 0) : BS Q top top 0 := ⟨dvd_zero _, by positivity, h, fun k h1 h2 => by omega⟩

theorem maxStep_tot {nxt : Array Nat} (hc : Closed nxt) {m : Int} {D : Dbl} (h : DRep nxt m D) {u : Nat} (hu : u < nxt.size) (p : Nat → Bool)
    (h0 : p u = true) (hmono : ∀ k, p ((fn nxt)^[k + 1] u) = true → p ((fn nxt)^[k] u) = true) :
    Tot (maxStep D u p) fun r => r.1 = (fn nxt)^[r.2] u ∧ p r.1 = true ∧ r.2 < 2 ^ (D.log + 1) ∧ ∀ k, r.2 < k → k < 2 ^ (D.log + 1) → p ((fn nxt)^[k] u) = false := by
  obtain ⟨h1, h2, h3, h4⟩ := h
  unfold maxStep
  rw [h0, check_true, ok_bind]
  refine (Tot.forDown (P := fun l (s : Nat × Nat) => s.1 = (fn nxt)^[s.2] u ∧ BS (fun k => p ((fn nxt)^[k] u) = true) (D.log + 1) l s.2) (Nat.zero_le _) ⟨rfl, BS.init h0⟩ ?_).mono ?_
  · rintro l ⟨v, s⟩ - hl ⟨e, b⟩
    dsimp only at e b
    subst e
    unfold maxStepStep
    dsimp only
    rw [h4 l (by omega) _ (iter_lt hc hu _), ok_bind, ← Function.iterate_add_apply, add_comm, or_bit b.dvd]
    by_cases hp : p ((fn nxt)^[s + 2 ^ l] u) = true
    · rw [if_pos hp]
      exact Tot.pure ⟨rfl, b.yes hl hp⟩
    · rw [if_neg hp]
      exact Tot.pure ⟨rfl, b.no hmono hp⟩
  · rintro ⟨v, s⟩ ⟨e, b⟩
    dsimp only at e b ⊢
    refine ⟨e, by rw [e]; exact b.here, b.lt, fun k hk hk' => ?_⟩
    have := b.above k (by rw [pow_zero]; exact hk) hk'
    simpa using this

theorem stepUntil_tot {nxt : Array Nat} (hc : Closed nxt) {m : Int} {D : Dbl} (h : DRep nxt m D) {u : Nat} (hu : u < nxt.size) (p : Nat → Bool)
    (hmono : ∀ k, p ((fn nxt)^[k] u) = true → p ((fn nxt)^[k + 1] u) = true) :
    Tot (stepUntil D u p) fun r => (∀ v s, r = some (v, s) → v = (fn nxt)^[s] u ∧ p v = true ∧ s ≤ 2 ^ (D.log + 1) ∧ ∀ k, k < s → p ((fn nxt)^[k] u) = false) ∧
      (r = none → ∀ k, k ≤ 2 ^ (D.log + 1) → p ((fn nxt)^[k] u) = false) := by
  unfold stepUntil
  by_cases hp : p u = true
  · rw [if_pos hp]
    refine Tot.pure ⟨?_, fun hn => (by cases hn)⟩
    rintro v s ⟨⟩
    exact ⟨rfl, hp, Nat.zero_le _, fun k hk => absurd hk (Nat.not_lt_zero _)⟩
  · rw [if_neg hp]
    unfold stepOnce
    have h0 := h
    obtain ⟨h1, h2, h3, h4⟩ := h
    refine Tot.bind (maxStep_tot hc h0 hu (fun v => ! p v) (by simpa using hp) ?_) ?_
    · intro k hk
      by_contra hcon
      have := hmono k (by simpa using hcon)
      rw [this] at hk; cases hk
    · rintro ⟨v, s⟩ ⟨e, g1, g2, g3⟩
      dsimp only at e g1 g2 g3 ⊢
      subst e
      have hlow : ∀ k, k ≤ s → p ((fn nxt)^[k] u) = false := by
        intro k hk
        by_contra hcon
        have hcon : p ((fn nxt)^[k] u) = true := by simpa using hcon
        have hup : ∀ j, p ((fn nxt)^[k + j] u) = true := by
          intro j
          induction j with
          | zero => exact hcon
          | succ j ih => exact hmono _ ih
        have := hup (s - k)
        rw [show k + (s - k) = s by omega] at this
        rw [this] at g1; cases g1
      rw [h4 0 (by omega) _ (iter_lt hc hu _), ok_bind, pow_zero, ← Function.iterate_add_apply, add_comm]
      by_cases hq : p ((fn nxt)^[s + 1] u) = true
      · rw [hq]
        refine Tot.pure ⟨?_, fun hn => (by cases hn)⟩
        rintro v' s' ⟨⟩
        exact ⟨rfl, hq, by omega, fun k hk => hlow k (by omega)⟩
      · have hq : p ((fn nxt)^[s + 1] u) = false := by simpa using hq
        rw [hq]
        refine Tot.pure ⟨fun v' s' hn => (by cases hn), fun _ k hk => ?_⟩
        -- the search stopped before the end only if the predicate holds right after it
        have hs : s + 1 = 2 ^ (D.log + 1) := by
          by_contra hne
          have := g3 (s + 1) (by omega) (by omega)
          rw [hq] at this; cases this
        rcases Nat.lt_or_ge s k with hk' | hk'
        · obtain rfl : k = s + 1 := by omega
          exact hq
        · exact hlow k hk'

/-! ### Sums -/

section
variable {T : Type} (op : T → T → T) (e : T)

theorem orbitSum_add (hassoc : ∀ a b c, op (op a b) c = op a (op b c)) (hr : ∀ a, op a e = a) (f : Nat → Nat) (a : Nat → T) (u x y : Nat) :
    orbitSum op e f a u (x + y) = op (orbitSum op e f a u x) (orbitSum op e f a (f^[x] u) y) := by
  induction y with
  | zero => simp [orbitSum, hr]
  | succ y ih =>
    rw [← add_assoc, orbitSum, ih, orbitSum, hassoc, ← Function.iterate_add_apply, add_comm y x]

/-- The tables of the object. -/
def SRep (nxt : Array Nat) (dat : Array T) (m : Int) (D : DblSum T) : Prop :=
  DRep nxt m D.toDbl ∧ ∀ i, i ≤ D.log → ∀ j, j < nxt.size → rd2 D.dat i j = .ok (orbitSum op e (fn nxt) (at' e dat) j (2 ^ i))

variable {op e}

theorem doublingSum_tot (hassoc : ∀ a b c, op (op a b) c = op a (op b c)) (hl : ∀ a, op e a = a) (hr : ∀ a, op a e = a)
    {nxt : Array Nat} (hc : Closed nxt) {dat : Array T} (hd : dat.size = nxt.size) {m : Int} (hm : m < 2 ^ 62) : Tot (doublingSum op e nxt m dat) (SRep op e nxt dat m) := by
  unfold doublingSum
  refine Tot.bind (doubling_tot hc hm) fun D hD => ?_
  have key : Tot (wr (Array.replicate (D.log + 1) (Array.replicate D.sz e)) 0 dat >>= fun t => forUp 1 (D.log + 1) t fun i t => forUp 0 D.sz t (fillSum op D.nxt i))
      fun t => ∀ i, i ≤ D.log → ∀ j, j < D.sz → rd2 t i j = .ok (orbitSum op e (fn nxt) (at' e dat) j (2 ^ i)) := by
    refine fill_tot (F := fun i j => orbitSum op e (fn nxt) (at' e dat) j (2 ^ i)) (by rw [hd, hD.1]) ?_ ?_ (fun t => rfl)
    · intro j hj
      rw [hD.1, ← hd] at hj
      simp [orbitSum, at', hj, hl]
    · intro i j t h1 h2 hj hrow
      unfold fillSum
      have hj' : j < nxt.size := by rw [← hD.1]; exact hj
      rw [hrow j hj, ok_bind, hD.2.2.2 (i - 1) (by omega) j hj', ok_bind, hrow _ (by rw [hD.1]; exact iter_lt hc hj' _), ok_bind]
      rw [← orbitSum_add op e hassoc hr, ← mul_two, ← pow_succ, show i - 1 + 1 = i by omega]
  obtain ⟨t, et, ht⟩ := key
  refine ⟨{ D with dat := t }, ?_, hD, fun i hi j hj => ht i hi j (by rw [hD.1]; exact hj)⟩
  cases h1 : wr (Array.replicate (D.log + 1) (Array.replicate D.sz e)) 0 dat with
  | error x => rw [h1] at et; cases et
  | ok t1 =>
    rw [h1, ok_bind] at et
    rw [ok_bind, et]; rfl

theorem querySum_tot (hassoc : ∀ a b c, op (op a b) c = op a (op b c)) (hr : ∀ a, op a e = a)
    {nxt : Array Nat} (hc : Closed nxt) {dat : Array T} {m : Int} {D : DblSum T} (h : SRep op e nxt dat m D) {u d : Nat} (hu : u < nxt.size) (hd : (d : Int) ≤ m) :
    querySum op e D u d = .ok ((fn nxt)^[d] u, orbitSum op e (fn nxt) (at' e dat) u d) := by
  obtain ⟨⟨h1, h2, h3, h4⟩, h5⟩ := h
  have hd' : d < 2 ^ (D.log + 1) := by exact_mod_cast lt_of_le_of_lt hd h2
  rw [← tot_eq]
  unfold querySum
  refine (Tot.forDown (P := fun l (v : Nat × T) => v = ((fn nxt)^[d / 2 ^ l * 2 ^ l] u, orbitSum op e (fn nxt) (at' e dat) u (d / 2 ^ l * 2 ^ l))) (Nat.zero_le _) ?_ ?_).mono ?_
  · rw [Nat.div_eq_of_lt hd']; simp [orbitSum]
  · rintro l v - hl rfl
    unfold querySumStep
    by_cases hb : d / 2 ^ l % 2 = 1
    · rw [if_pos hb]
      dsimp only
      rw [h4 l (by omega) _ (iter_lt hc hu _), ok_bind, h5 l (by omega) _ (iter_lt hc hu _), ok_bind]
      refine tot_ok.2 ?_
      rw [← Function.iterate_add_apply, ← orbitSum_add op e hassoc hr, bits_succ d l, hb, one_mul, add_comm (2 ^ l)]
    · rw [if_neg hb]
      refine Tot.pure ?_
      rw [bits_succ d l, show d / 2 ^ l % 2 = 0 by omega, zero_mul, add_zero]
  · rintro v rfl
    simp

theorem maxStepSum_tot (hassoc : ∀ a b c, op (op a b) c = op a (op b c)) (hr : ∀ a, op a e = a)
    {nxt : Array Nat} (hc : Closed nxt) {dat : Array T} {m : Int} {D : DblSum T} (h : SRep op e nxt dat m D) {u : Nat} (hu : u < nxt.size) (p : T → Bool)
    (h0 : p e = true) (hmono : ∀ k, p (orbitSum op e (fn nxt) (at' e dat) u (k + 1)) = true → p (orbitSum op e (fn nxt) (at' e dat) u k) = true) :
    Tot (maxStepSum op e D u p) fun r => r.1 = (fn nxt)^[r.2.2] u ∧ r.2.1 = orbitSum op e (fn nxt) (at' e dat) u r.2.2 ∧ p r.2.1 = true ∧ r.2.2 < 2 ^ (D.log + 1) ∧
      ∀ k, r.2.2 < k → k < 2 ^ (D.log + 1) → p (orbitSum op e (fn nxt) (at' e dat) u k) = false := by
  obtain ⟨⟨h1, h2, h3, h4⟩, h5⟩ := h
  unfold maxStepSum
  rw [h0, check_true, ok_bind]
  refine (Tot.forDown (P := fun l (s : Nat × T × Nat) => s.1 = (fn nxt)^[s.2.2] u ∧ s.2.1 = orbitSum op e (fn nxt) (at' e dat) u s.2.2 ∧
    BS (fun k => p (orbitSum op e (fn nxt) (at' e dat) u k) = true) (D.log + 1) l s.2.2) (Nat.zero_le _) ⟨rfl, rfl, BS.init h0⟩ ?_).mono ?_
  · rintro l ⟨v, x, s⟩ - hl ⟨e1, e2, b⟩
    dsimp only at e1 e2 b
    subst e1
    subst e2
    unfold maxStepSumStep
    dsimp only
    rw [h5 l (by omega) _ (iter_lt hc hu _), ok_bind, ← orbitSum_add op e hassoc hr, or_bit b.dvd]
    by_cases hp : p (orbitSum op e (fn nxt) (at' e dat) u (s + 2 ^ l)) = true
    · rw [if_pos hp, h4 l (by omega) _ (iter_lt hc hu _), ok_bind]
      refine Tot.pure ⟨?_, rfl, b.yes hl hp⟩
      dsimp only
      rw [← Function.iterate_add_apply, add_comm]
    · rw [if_neg hp]
      exact Tot.pure ⟨rfl, rfl, b.no hmono hp⟩
  · rintro ⟨v, x, s⟩ ⟨e1, e2, b⟩
    dsimp only at e1 e2 b ⊢
    refine ⟨e1, e2, by rw [e2]; exact b.here, b.lt, fun k hk hk' => ?_⟩
    have := b.above k (by rw [pow_zero]; exact hk) hk'
    simpa using this

theorem stepUntilSum_tot (hassoc : ∀ a b c, op (op a b) c = op a (op b c)) (hl : ∀ a, op e a = a) (hr : ∀ a, op a e = a)
    {nxt : Array Nat} (hc : Closed nxt) {dat : Array T} {m : Int} {D : DblSum T} (h : SRep op e nxt dat m D) {u : Nat} (hu : u < nxt.size) (p : T → Bool)
    (hmono : ∀ k, p (orbitSum op e (fn nxt) (at' e dat) u k) = true → p (orbitSum op e (fn nxt) (at' e dat) u (k + 1)) = true) :
    Tot (stepUntilSum op e D u p) fun r => (∀ v x s, r = some (v, x, s) → v = (fn nxt)^[s] u ∧ x = orbitSum op e (fn nxt) (at' e dat) u s ∧ p x = true ∧ s ≤ 2 ^ (D.log + 1) ∧
        ∀ k, k < s → p (orbitSum op e (fn nxt) (at' e dat) u k) = false) ∧
      (r = none → ∀ k, k ≤ 2 ^ (D.log + 1) → p (orbitSum op e (fn nxt) (at' e dat) u k) = false) := by
  unfold stepUntilSum
  by_cases hp : p e = true
  · rw [if_pos hp]
    refine Tot.pure ⟨?_, fun hn => (by cases hn)⟩
    rintro v x s ⟨⟩
    exact ⟨rfl, rfl, hp, Nat.zero_le _, fun k hk => absurd hk (Nat.not_lt_zero _)⟩
  · rw [if_neg hp]
    unfold stepOnceSum
    have h0 := h
    obtain ⟨⟨h1, h2, h3, h4⟩, h5⟩ := h
    refine Tot.bind (maxStepSum_tot hassoc hr hc h0 hu (fun v => ! p v) (by simpa using hp) ?_) ?_
    · intro k hk
      by_contra hcon
      have := hmono k (by simpa using hcon)
      rw [this] at hk; cases hk
    · rintro ⟨v, x, s⟩ ⟨e1, e2, g1, g2, g3⟩
      dsimp only at e1 e2 g1 g2 g3 ⊢
      subst e1
      subst e2
      have hlow : ∀ k, k ≤ s → p (orbitSum op e (fn nxt) (at' e dat) u k) = false := by
        intro k hk
        by_contra hcon
        have hcon : p (orbitSum op e (fn nxt) (at' e dat) u k) = true := by simpa using hcon
        have hup : ∀ j, p (orbitSum op e (fn nxt) (at' e dat) u (k + j)) = true := by
          intro j
          induction j with
          | zero => exact hcon
          | succ j ih => exact hmono _ ih
        have := hup (s - k)
        rw [show k + (s - k) = s by omega] at this
        rw [this] at g1; cases g1
      rw [h5 0 (by omega) _ (iter_lt hc hu _), ok_bind, h4 0 (by omega) _ (iter_lt hc hu _), ok_bind, pow_zero, ← Function.iterate_add_apply, add_comm,
        ← orbitSum_add op e hassoc hr]
      by_cases hq : p (orbitSum op e (fn nxt) (at' e dat) u (s + 1)) = true
      · rw [hq]
        refine Tot.pure ⟨?_, fun hn => (by cases hn)⟩
        rintro v' x' s' ⟨⟩
        exact ⟨rfl, rfl, hq, by omega, fun k hk => hlow k (by omega)⟩
      · have hq : p (orbitSum op e (fn nxt) (at' e dat) u (s + 1)) = false := by simpa using hq
        rw [hq]
        refine Tot.pure ⟨fun v' x' s' hn => (by cases hn), fun _ k hk => ?_⟩
        have hs : s + 1 = 2 ^ (D.log + 1) := by
          by_contra hne
          have := g3 (s + 1) (by omega) (by omega)
          rw [hq] at this; cases this
        rcases Nat.lt_or_ge s k with hk' | hk'
        · obtain rfl : k = s + 1 := by omega
          exact hq
        · exact hlow k hk'

end

end FunctionalGraph
