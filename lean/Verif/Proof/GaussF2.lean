import Verif.Model.GaussF2
import Verif.Spec.F2
import Verif.Proof.Gauss3

/-! # Proofs for `gaussian_elimination_f2` -/

namespace GaussF2
open Cxx Gauss

attribute [local instance] F2.field

theorem tt_or (x : Bool) : x = 0 ∨ x = 1 := by cases x <;> [exact Or.inl rfl; exact Or.inr rfl]
theorem add_self' (x : Bool) : x + x = 0 := by cases x <;> rfl
theorem neg_one' : (-1 : Bool) = 1 := rfl

variable {n m : Nat} {A : Array (Array Bool)}

theorem bit_eq (hs : Shape n m A) {i j : Nat} (hi : i < n) (hj : j ≤ m) : bit A i j = .ok (ent A i j) := by
  rw [bit, rd_at #[] (by have := hs.1; omega), ok_bind, rd_at 0 (by have := hs.2 i hi; omega)]
  rfl

theorem at_zipWith (u v : Array Bool) {c : Nat} (hu : c < u.size) (hv : c < v.size) : at' 0 (Array.zipWith (· ^^ ·) u v) c = at' 0 u c + at' 0 v c := by
  simp only [at', Array.getElem?_zipWith, Array.getElem?_eq_getElem hu, Array.getElem?_eq_getElem hv]
  rfl

theorem xorRow_tot (hs : Shape n m A) {i r : Nat} (hi : i < n) (hr : r < n) :
    Tot (xorRow A i r) fun A' => Shape n m A' ∧ ∀ x c, ent A' x c = if x = i then ent A i c + ent A r c else ent A x c := by
  have h1 := hs.1
  have h2 := hs.2 i hi
  have h3 := hs.2 r hr
  rw [xorRow, rd_at #[] (by omega), ok_bind, rd_at #[] (by omega), ok_bind, wr_eq (by omega)]
  obtain ⟨q1, q2⟩ := ent_set hs hi (v := Array.zipWith (· ^^ ·) (at' #[] A i) (at' #[] A r)) (by rw [Array.size_zipWith]; omega)
  refine Tot.pure ⟨q1, fun x c => ?_⟩
  rw [q2]
  split
  · by_cases hc : c ≤ m
    · rw [ent, ent]
      exact at_zipWith _ _ (by omega) (by omega)
    · rw [ent, ent, at_ge _ (by rw [Array.size_zipWith]; omega), at_ge _ (by omega), at_ge _ (by omega)]
      rfl
  · rfl

theorem clearRow_tot (hs : Shape n m A) {i r j : Nat} (hi : i < n) (hr : r < n) (hj : j ≤ m) :
    Tot (clearRow r j i A) fun A' => Shape n m A' ∧ ∀ x c, ent A' x c = if x = i then ent A i c + ent A i j * ent A r c else ent A x c := by
  rw [clearRow, bit_eq hs hi hj, ok_bind]
  rcases tt_or (ent A i j) with h | h
  · rw [h]
    refine Tot.pure ⟨hs, fun x c => ?_⟩
    split
    · rename_i e
      rw [zero_mul, add_zero, e]
    · rfl
  · rw [h]
    refine (xorRow_tot hs hi hr).mono ?_
    rintro A' ⟨h1, h2⟩
    refine ⟨h1, fun x c => ?_⟩
    rw [h2, one_mul]

theorem swapRows_eq (A : Array (Array Bool)) (i j : Nat) : swapRows A i j = Gauss.swapRows A i j := rfl

/-- After the first inner loop has treated the rows before `i`. -/
structure Down (n m ρ j : Nat) (A0 : Array (Array Bool)) (i : Nat) (A : Array (Array Bool)) : Prop where
  shape : Shape n m A
  sol : ∀ x, Sol n m (ent A) x ↔ Sol n m (ent A0) x
  low : ∀ r < ρ, ∀ c, ent A r c = ent A0 r c
  old : ∀ r, ρ ≤ r → r < n → ∀ c < j, ent A r c = 0
  col : ∀ r, ρ < r → r < i → ent A r j = 0

theorem down_tot {ρ j : Nat} (hs : Shape n m A) (hρ : ρ < n) (hj : j < m) (h0 : ∀ r, ρ ≤ r → r < n → ∀ c < j, ent A r c = 0) :
    Tot (forUp (ρ + 1) n A (downStep ρ j)) (Down n m ρ j A n) := by
  refine Tot.forUp (P := fun i => Down n m ρ j A i) (by omega) ?_ ?_
  · exact ⟨hs, fun x => Iff.rfl, fun r _ c => rfl, h0, fun r h1 h2 => by omega⟩
  · rintro i B h1 h2 h
    rw [downStep, bit_eq h.shape h2 (by omega), ok_bind]
    rcases tt_or (ent B i j) with hb | hb
    · rw [hb]
      refine Tot.pure { h with col := fun r q1 q2 => ?_ }
      by_cases e : r = i
      · rw [e]; exact hb
      · exact h.col r q1 (by omega)
    · rw [hb, if_pos (show (1 : Bool) = true from rfl), swapRows_eq]
      refine Tot.bind (swapRows_tot h.shape hρ h2) ?_
      rintro C ⟨c1, c2⟩
      refine (clearRow_tot c1 h2 hρ (by omega : j ≤ m)).mono ?_
      rintro D ⟨d1, d2⟩
      have hCρ : ∀ c, ent C ρ c = ent B i c := fun c => by rw [c2, if_pos rfl]
      have hCi : ∀ c, ent C i c = ent B ρ c := fun c => by rw [c2, if_neg (by omega), if_pos rfl]
      have hCo : ∀ r, r ≠ ρ → r ≠ i → ∀ c, ent C r c = ent B r c := fun r e1 e2 c => by rw [c2, if_neg e1, if_neg e2]
      refine ⟨d1, fun x => ?_, fun r hr c => ?_, fun r q1 q2 c hc => ?_, fun r q1 q2 => ?_⟩
      · rw [sol_elim (i := ρ) (e := ent C) hρ (fun c => by rw [d2, if_neg (by omega)]) (fun r hr => ?_) x, sol_swap hρ h2 c2 x, h.sol x]
        by_cases e : r = i
        · exact ⟨ent C i j, fun c => by rw [d2, if_pos e, e]⟩
        · exact ⟨0, fun c => by rw [d2, if_neg e, zero_mul, add_zero]⟩
      · rw [d2, if_neg (by omega), hCo r (by omega) (by omega)]
        exact h.low r hr c
      · rw [d2]
        split
        · rw [hCi, hCρ, hCi, h.old ρ (le_refl _) hρ c hc, h.old i (by omega) h2 c hc, mul_zero, add_zero]
        · by_cases e : r = ρ
          · rw [e, hCρ]
            exact h.old i (by omega) h2 c hc
          · rw [hCo r e (by assumption)]
            exact h.old r q1 q2 c hc
      · rw [d2]
        split
        · rw [hCi, hCρ, hb, mul_one, add_self']
        · rw [hCo r (by omega) (by assumption)]
          exact h.col r q1 (by omega)

/-- The state after the columns before `j`; `J` columns have been looked at. -/
structure CInv (n m : Nat) (A0 : Array (Array Bool)) (j J : Nat) (s : St) : Prop where
  shape : Shape n m s.A
  sol : ∀ x, Sol n m (ent s.A) x ↔ Sol n m (ent A0) x
  rank : s.rank ≤ n
  ones : s.ones.size = s.rank
  le : J ≤ j
  full : s.rank < n → J = j
  plt : ∀ k < s.rank, at' 0 s.ones k < J
  qlt : ∀ t < s.zeros.size, at' 0 s.zeros t < J
  pmono : ∀ k k', k < k' → k' < s.rank → at' 0 s.ones k < at' 0 s.ones k'
  qmono : ∀ t t', t < t' → t' < s.zeros.size → at' 0 s.zeros t < at' 0 s.zeros t'
  disj : ∀ k < s.rank, ∀ t < s.zeros.size, at' 0 s.ones k ≠ at' 0 s.zeros t
  cover : ∀ c < J, (∃ k < s.rank, c = at' 0 s.ones k) ∨ ∃ t < s.zeros.size, c = at' 0 s.zeros t
  one : ∀ k < s.rank, ent s.A k (at' 0 s.ones k) = 1
  zero : ∀ k < s.rank, ∀ r < n, r ≠ k → ent s.A r (at' 0 s.ones k) = 0
  rest : ∀ r, s.rank ≤ r → r < n → ∀ c < J, ent s.A r c = 0
  num : J = s.rank + s.zeros.size

theorem clear_tot {ρ j : Nat} (hs : Shape n m A) (hρ : ρ < n) (hj : j ≤ m) :
    Tot (forUp 0 ρ A (clearRow ρ j)) fun A' => Shape n m A' ∧ (∀ r, ρ ≤ r → ∀ c, ent A' r c = ent A r c) ∧ ∀ r < ρ, ∀ c, ent A' r c = ent A r c + ent A r j * ent A ρ c := by
  refine Tot.forUp (P := fun i (A' : Array (Array Bool)) => Shape n m A' ∧ (∀ r, i ≤ r → ∀ c, ent A' r c = ent A r c) ∧ ∀ r < i, ∀ c, ent A' r c = ent A r c + ent A r j * ent A ρ c) (Nat.zero_le _) ?_ ?_
  · exact ⟨hs, fun r _ c => rfl, fun r h => by omega⟩
  · rintro i B - hi ⟨h1, h2, h3⟩
    refine (clearRow_tot h1 (by omega : i < n) hρ hj).mono ?_
    rintro D ⟨d1, d2⟩
    refine ⟨d1, fun r hr c => ?_, fun r hr c => ?_⟩
    · rw [d2, if_neg (by omega)]
      exact h2 r (by omega) c
    · rw [d2]
      split
      · rename_i e
        rw [e, h2 i (le_refl _), h2 i (le_refl _), h2 ρ (by omega)]
      · exact h3 r (by omega) c

theorem colStep_tot {A0 : Array (Array Bool)} {j J : Nat} {s : St} (h : CInv n m A0 j J s) (hj : j < m) :
    Tot (colStep n j s) fun s' => ∃ J', CInv n m A0 (j + 1) J' s' := by
  rw [colStep]
  by_cases hr : s.rank < n
  · rw [if_pos hr]
    have hJ := h.full hr
    subst hJ
    refine Tot.bind (down_tot h.shape hr hj h.rest) ?_
    intro B hB
    have hBz : ∀ k < s.rank, ∀ r < n, r ≠ k → ent B r (at' 0 s.ones k) = 0 := by
      intro k hk r hrn hne
      by_cases e : r < s.rank
      · rw [hB.low r e]
        exact h.zero k hk r hrn hne
      · exact hB.old r (by omega) hrn _ (h.plt k hk)
    rw [decideCol, bit_eq hB.shape hr (by omega), ok_bind]
    rcases tt_or (ent B s.rank J) with hb | hb
    · rw [hb, if_neg (by decide)]
      refine Tot.pure ⟨J + 1, ?_⟩
      have hp : ∀ t < s.zeros.size, at' 0 (s.zeros.push J) t = at' 0 s.zeros t := fun t ht => at_push_lt 0 ht
      have hp2 : at' 0 (s.zeros.push J) s.zeros.size = J := at_push_eq 0
      refine { shape := hB.shape, sol := fun x => (hB.sol x).trans (h.sol x), rank := h.rank, ones := h.ones, le := le_refl _, full := fun _ => rfl,
               plt := fun k hk => ?_, qlt := fun t ht => ?_, pmono := h.pmono, qmono := fun t t' h1 h2 => ?_, disj := fun k hk t ht => ?_, cover := fun c hc => ?_,
               one := fun k hk => ?_, zero := hBz, rest := fun r q1 q2 c hc => ?_, num := ?_ }
      · have := h.plt k hk
        dsimp only
        omega
      · dsimp only at ht ⊢
        rw [Array.size_push] at ht
        by_cases e : t = s.zeros.size
        · rw [e, hp2]; omega
        · rw [hp t (by omega)]
          have := h.qlt t (by omega)
          omega
      · dsimp only at h2 ⊢
        rw [Array.size_push] at h2
        rw [hp t (by omega)]
        by_cases e : t' = s.zeros.size
        · rw [e, hp2]
          exact h.qlt t (by omega)
        · rw [hp t' (by omega)]
          exact h.qmono t t' h1 (by omega)
      · dsimp only at ht hk ⊢
        rw [Array.size_push] at ht
        by_cases e : t = s.zeros.size
        · rw [e, hp2]
          have := h.plt k hk
          omega
        · rw [hp t (by omega)]
          exact h.disj k hk t (by omega)
      · dsimp only
        rw [Array.size_push]
        by_cases e : c = J
        · exact Or.inr ⟨s.zeros.size, by omega, by rw [hp2, e]⟩
        · rcases h.cover c (by omega) with h1 | ⟨t, t1, t2⟩
          · exact Or.inl h1
          · exact Or.inr ⟨t, by omega, by rw [hp t t1]; exact t2⟩
      · dsimp only at hk ⊢
        rw [hB.low k hk]
        exact h.one k hk
      · dsimp only at q1 ⊢
        by_cases e : c = J
        · subst e
          by_cases e2 : r = s.rank
          · rw [e2]; exact hb
          · exact hB.col r (by omega) q2
        · exact hB.old r q1 q2 c (by omega)
      · dsimp only
        rw [Array.size_push]
        have := h.num
        omega
    · rw [hb, if_pos (show (1 : Bool) = true from rfl)]
      refine Tot.bind (clear_tot hB.shape hr (by omega : J ≤ m)) ?_
      rintro C ⟨c1, c2, c3⟩
      refine Tot.pure ⟨J + 1, ?_⟩
      have hones := h.ones
      have hp : ∀ t < s.rank, at' 0 (s.ones.push J) t = at' 0 s.ones t := fun t ht => at_push_lt 0 (by omega)
      have hp2 : at' 0 (s.ones.push J) s.rank = J := by
        rw [← hones]
        exact at_push_eq 0
      have hCold : ∀ r < n, ∀ k < s.rank, ent C r (at' 0 s.ones k) = ent B r (at' 0 s.ones k) := by
        intro r hrn k hk
        by_cases e : r < s.rank
        · rw [c3 r e, hB.old s.rank (le_refl _) hr _ (h.plt k hk), mul_zero, add_zero]
        · exact c2 r (by omega) _
      refine { shape := c1, sol := fun x => ?_, rank := hr, ones := ?_, le := le_refl _, full := fun _ => rfl,
               plt := fun k hk => ?_, qlt := fun t ht => ?_, pmono := fun k k' h1 h2 => ?_, qmono := h.qmono, disj := fun k hk t ht => ?_, cover := fun c hc => ?_,
               one := fun k hk => ?_, zero := fun k hk r hrn hne => ?_, rest := fun r q1 q2 c hc => ?_, num := ?_ }
      · rw [← h.sol x, ← hB.sol x]
        refine sol_elim (i := s.rank) hr (c2 _ (le_refl _)) (fun r _ => ?_) x
        by_cases e : r < s.rank
        · exact ⟨_, c3 r e⟩
        · exact ⟨0, fun c => by rw [zero_mul, add_zero]; exact c2 r (by omega) c⟩
      · dsimp only
        rw [Array.size_push, hones]
      · dsimp only at hk ⊢
        by_cases e : k = s.rank
        · rw [e, hp2]; omega
        · rw [hp k (by omega)]
          have := h.plt k (by omega)
          omega
      · have := h.qlt t ht
        dsimp only
        omega
      · dsimp only at h2 ⊢
        rw [hp k (by omega)]
        by_cases e : k' = s.rank
        · rw [e, hp2]
          exact h.plt k (by omega)
        · rw [hp k' (by omega)]
          exact h.pmono k k' h1 (by omega)
      · dsimp only at hk ht ⊢
        by_cases e : k = s.rank
        · rw [e, hp2]
          have := h.qlt t ht
          omega
        · rw [hp k (by omega)]
          exact h.disj k (by omega) t ht
      · dsimp only
        by_cases e : c = J
        · exact Or.inl ⟨s.rank, by omega, by rw [hp2, e]⟩
        · rcases h.cover c (by omega) with ⟨t, t1, t2⟩ | h1
          · exact Or.inl ⟨t, by omega, by rw [hp t t1]; exact t2⟩
          · exact Or.inr h1
      · dsimp only at hk ⊢
        by_cases e : k = s.rank
        · rw [e, hp2, c2 _ (le_refl _)]
          exact hb
        · rw [hp k (by omega), hCold k (by omega) k (by omega), hB.low k (by omega)]
          exact h.one k (by omega)
      · dsimp only at hk ⊢
        by_cases e : k = s.rank
        · rw [e, hp2]
          by_cases e2 : r < s.rank
          · rw [c3 r e2, hb, mul_one, add_self']
          · rw [c2 r (by omega)]
            exact hB.col r (by omega) hrn
        · rw [hp k (by omega), hCold r hrn k (by omega)]
          exact hBz k (by omega) r hrn hne
      · dsimp only at q1 ⊢
        rw [c2 r (by omega)]
        by_cases e : c = J
        · rw [e]
          exact hB.col r (by omega) q2
        · exact hB.old r (by omega) q2 c (by omega)
      · dsimp only
        have := h.num
        omega
  · rw [if_neg hr]
    exact Tot.pure ⟨J, { h with le := by have := h.le; omega, full := fun h' => absurd h' hr }⟩

theorem fill_tot {A0 : Array (Array Bool)} {j J c : Nat} {s : St} (h : CInv n m A0 j J s) (hj : j ≤ m) (hc : c ≤ m) {v : Array Bool} (hv : v.size = m) :
    Tot (fill s c v) fun w => w.size = m ∧ (∀ k < s.rank, at' 0 w (at' 0 s.ones k) = ent s.A k c) ∧ ∀ d, (∀ k < s.rank, at' 0 s.ones k ≠ d) → at' 0 w d = at' 0 v d := by
  rw [fill]
  refine Tot.forUp (P := fun i (w : Array Bool) => w.size = m ∧ (∀ k < i, at' 0 w (at' 0 s.ones k) = ent s.A k c) ∧ ∀ d, (∀ k < s.rank, at' 0 s.ones k ≠ d) → at' 0 w d = at' 0 v d) (Nat.zero_le _) ?_ ?_
  · exact ⟨hv, fun k hk => by omega, fun d _ => rfl⟩
  · rintro i w - hi ⟨h1, h2, h3⟩
    have hlt := h.plt i hi
    have hle := h.le
    rw [rd_at 0 (by have := h.ones; omega), ok_bind, bit_eq h.shape (by have := h.rank; omega) hc, ok_bind, wr_eq (by omega)]
    refine Tot.pure ⟨by simpa using h1, fun k hk => ?_, fun d hd => ?_⟩
    · rw [Graph.at_set' 0 (by omega)]
      by_cases e : k = i
      · rw [if_pos (by rw [e]), e]
      · have := h.pmono k i (by omega) hi
        rw [if_neg (by omega)]
        exact h2 k (by omega)
    · rw [Graph.at_set' 0 (by omega), if_neg (fun e => hd i hi e.symm)]
      exact h3 d hd

/-- `B t` is the vector of the free column `q t`. -/
def IsVec (m : Nat) (s : St) (c : Nat) (v : Array Bool) : Prop :=
  v.size = m ∧ (∀ k < s.rank, at' 0 v (at' 0 s.ones k) = ent s.A k c) ∧ ∀ d, (∀ k < s.rank, at' 0 s.ones k ≠ d) → at' 0 v d = if d = c then 1 else 0

theorem at_replicate (m d : Nat) : at' (0 : Bool) (Array.replicate m false) d = 0 := by
  by_cases h : d < m
  · simp [at', h]
    rfl
  · exact at_ge _ (by simp; omega)

theorem basisStep_tot {A0 : Array (Array Bool)} {j J : Nat} {s : St} (h : CInv n m A0 j J s) (hj : j ≤ m) {bs : Array (Array Bool)} {t : Nat} (ht : t < s.zeros.size) :
    Tot (basisStep s m bs (at' 0 s.zeros t)) fun bs' => ∃ v, bs' = bs.push v ∧ IsVec m s (at' 0 s.zeros t) v := by
  have hq := h.qlt t ht
  have hle := h.le
  rw [basisStep]
  refine Tot.bind (fill_tot h hj (by omega) (by simp)) ?_
  rintro w ⟨h1, h2, h3⟩
  rw [wr_eq (by omega), ok_bind]
  refine Tot.pure ⟨_, rfl, by simpa using h1, fun k hk => ?_, fun d hd => ?_⟩
  · rw [Graph.at_set' 0 (by omega), if_neg (h.disj k hk t ht)]
    exact h2 k hk
  · rw [Graph.at_set' 0 (by omega)]
    split
    · rfl
    · rw [h3 d hd]
      exact at_replicate m d

/-- What the function returns. -/
def Outcome (n m : Nat) (A0 : Array (Array Bool)) (r : SolutionSpace) : Prop :=
  match r.solution with
  | none => (¬ ∃ x, Sol n m (ent A0) x) ∧ r.basis.size = 0
  | some x0 => ∃ J, ∃ s, CInv n m A0 m J s ∧ (∀ i, s.rank ≤ i → i < n → ent s.A i m = 0) ∧ x0.size = m ∧ (∀ k < s.rank, at' 0 x0 (at' 0 s.ones k) = ent s.A k m) ∧
      (∀ d, (∀ k < s.rank, at' 0 s.ones k ≠ d) → at' 0 x0 d = 0) ∧ r.basis.size = s.zeros.size ∧ ∀ t < s.zeros.size, IsVec m s (at' 0 s.zeros t) (at' #[] r.basis t)

theorem finish_tot {A0 : Array (Array Bool)} {J : Nat} {s : St} (h : CInv n m A0 m J s) : Tot (finish n m s) fun r => r.normalized = false ∧ Outcome n m A0 r := by
  rw [finish]
  refine Tot.bind (P := fun b => b = true ↔ ∃ i, s.rank ≤ i ∧ i < n ∧ ent s.A i m = 1) ?_ ?_
  · refine Tot.forUp (P := fun k (b : Bool) => b = true ↔ ∃ i, s.rank ≤ i ∧ i < k ∧ ent s.A i m = 1) h.rank ?_ ?_
    · constructor
      · intro h; exact absurd h (by decide)
      · rintro ⟨i, h1, h2, -⟩; omega
    · rintro i b h1 h2 hb
      rw [anyRhs]
      by_cases hbt : b = true
      · rw [if_pos hbt]
        refine Tot.pure ⟨fun _ => ?_, fun _ => rfl⟩
        obtain ⟨i', k1, k2, k3⟩ := hb.1 hbt
        exact ⟨i', k1, by omega, k3⟩
      · rw [if_neg hbt, bit_eq h.shape h2 (le_refl _)]
        refine Tot.pure ⟨fun e => ⟨i, h1, by omega, e⟩, ?_⟩
        rintro ⟨i', k1, k2, k3⟩
        by_cases e : i' = i
        · rw [e] at k3; exact k3
        · exact absurd (hb.2 ⟨i', k1, by omega, k3⟩) hbt
  · intro b hb
    by_cases hbt : b = true
    · rw [if_pos hbt]
      refine Tot.pure ⟨rfl, ?_, rfl⟩
      obtain ⟨i, h1, h2, h3⟩ := hb.1 hbt
      rintro ⟨x, hx⟩
      have := (h.sol x).2 hx i h2
      have hJ := h.full (by omega)
      rw [Finset.sum_eq_zero (fun c hc => by rw [h.rest i h1 h2 c (by have := Finset.mem_range.1 hc; omega), zero_mul]), h3] at this
      exact absurd this (by decide)
    · rw [if_neg hbt]
      refine Tot.bind (fill_tot h (le_refl _) (le_refl _) (by simp)) ?_
      rintro sol ⟨s1, s2, s3⟩
      refine Tot.bind (P := fun (bs : Array (Array Bool)) => bs.size = s.zeros.size ∧ ∀ t < s.zeros.size, IsVec m s (at' 0 s.zeros t) (at' #[] bs t)) ?_ ?_
      · have key : ∀ (l : List Nat) (k : Nat), (∀ i (hi : i < l.length), k + i < s.zeros.size ∧ l[i] = at' 0 s.zeros (k + i)) → k + l.length = s.zeros.size → ∀ bs : Array (Array Bool), bs.size = k →
            (∀ t < k, IsVec m s (at' 0 s.zeros t) (at' #[] bs t)) →
            Tot (forEach l bs (basisStep s m)) fun (bs : Array (Array Bool)) => bs.size = s.zeros.size ∧ ∀ t < s.zeros.size, IsVec m s (at' 0 s.zeros t) (at' #[] bs t) := by
          intro l
          induction l with
          | nil =>
            intro k _ hk bs hbs hv
            rw [List.length_nil] at hk
            exact Tot.pure ⟨by omega, fun t ht => hv t (by omega)⟩
          | cons a l ih =>
            intro k hl hk bs hbs hv
            rw [List.length_cons] at hk
            obtain ⟨a1, a2⟩ := hl 0 (by simp)
            rw [List.getElem_cons_zero, Nat.add_zero] at a2
            rw [forEach, a2]
            refine Tot.bind (basisStep_tot h (le_refl _) (by omega)) ?_
            rintro bs' ⟨v, rfl, hv'⟩
            refine ih (k + 1) (fun i hi => ?_) (by omega) _ (by rw [Array.size_push, hbs]) (fun t ht => ?_)
            · have := hl (i + 1) (by simpa using hi)
              rw [List.getElem_cons_succ] at this
              rw [show k + 1 + i = k + (i + 1) by omega]
              exact this
            · by_cases e : t = k
              · rw [e]
                rw [show at' #[] (bs.push v) k = v by rw [← hbs]; exact at_push_eq #[]]
                exact hv'
              · rw [at_push_lt #[] (by omega)]
                exact hv t (by omega)
        refine key s.zeros.toList 0 (fun i hi => ?_) (by simp) #[] rfl (fun t ht => by omega)
        have hi' : i < s.zeros.size := by simpa using hi
        refine ⟨by omega, ?_⟩
        rw [Nat.zero_add, Array.getElem_toList, at', Array.getElem?_eq_getElem hi']
        rfl
      · rintro bs ⟨b1, b2⟩
        refine Tot.pure ⟨rfl, J, s, h, fun i h1 h2 => ?_, s1, s2, fun d hd => ?_, b1, b2⟩
        · rcases tt_or (ent s.A i m) with e | e
          · exact e
          · exact absurd (hb.2 ⟨i, h1, h2, e⟩) hbt
        · rw [s3 d hd]
          exact at_replicate m d

theorem augment_eq (b : Array Bool) : augment b = Gauss.augment b := rfl

theorem solve_tot {A : MatrixF2} {b : Array Bool} (hn : A.dat.size = A.n) (hrow : ∀ r < A.n, (at' #[] A.dat r).size = A.m) (hb : b.size = A.n) :
    Tot (solve A b) fun r => r.normalized = false ∧ ∃ Ab, (Shape A.n A.m Ab ∧ ∀ r < A.n, (∀ c < A.m, ent Ab r c = ent A.dat r c) ∧ ent Ab r A.m = at' 0 b r) ∧ Outcome A.n A.m Ab r := by
  rw [solve, show (A.n == b.size) = true by simp [hb], check_true, ok_bind, augment_eq]
  rw [← hn]
  refine Tot.bind (augment_tot (m := A.m) rfl (by omega) (by rw [hn]; exact hrow)) ?_
  rw [hn]
  rintro Ab hAb
  refine Tot.bind (P := fun s => ∃ J, CInv A.n A.m Ab A.m J s) ?_ ?_
  · refine Tot.forUp (P := fun j s => ∃ J, CInv A.n A.m Ab j J s) (Nat.zero_le _) ?_ ?_
    · refine ⟨0, ⟨hAb.1, fun x => Iff.rfl, Nat.zero_le _, rfl, le_refl _, fun _ => rfl, fun k hk => ?_, fun t ht => ?_, fun k k' h1 h2 => ?_, fun t t' h1 h2 => ?_, fun k hk => ?_, fun c hc => by omega, fun k hk => ?_, fun k hk => ?_, fun r _ _ c hc => by omega, rfl⟩⟩
      all_goals (first | (dsimp only at hk; omega) | (simp at ht) | (dsimp only at h2; omega) | (simp at h2))
    · rintro j s - hj ⟨J, h⟩
      exact colStep_tot h hj
  · rintro s ⟨J, h⟩
    refine (finish_tot h).mono ?_
    rintro r ⟨h1, h2⟩
    exact ⟨h1, Ab, hAb, h2⟩

/-- The columns that were looked at, as a system of their own. -/
def trunc (J m : Nat) (e : Nat → Nat → Bool) (r c : Nat) : Bool := if c < J then e r c else e r m

theorem sol_trunc {J : Nat} (hJ : J ≤ m) {e : Nat → Nat → Bool} {y : Nat → Bool} (hy : ∀ j, J ≤ j → j < m → y j = 0) : Sol n J (trunc J m e) y ↔ Sol n m e y := by
  refine forall_congr' fun r => imp_congr_right fun _ => ?_
  have h1 : ∑ c ∈ Finset.range m, e r c * y c = ∑ c ∈ Finset.range J, trunc J m e r c * y c := by
    rw [← Finset.sum_subset (Finset.range_mono hJ)]
    · refine Finset.sum_congr rfl fun c hc => ?_
      rw [trunc, if_pos (Finset.mem_range.1 hc)]
    · intro c hc hn
      rw [Finset.mem_range] at hc hn
      rw [hy c (by omega) hc, mul_zero]
  rw [h1, trunc, if_neg (by omega)]

theorem outcome_param {A0 : Array (Array Bool)} {J : Nat} {s : St} {x0 : Array Bool} {basis : Array (Array Bool)} (h : CInv n m A0 m J s) (hr : ∀ i, s.rank ≤ i → i < n → ent s.A i m = 0)
    (h1 : ∀ k < s.rank, at' 0 x0 (at' 0 s.ones k) = ent s.A k m) (h2 : ∀ d, (∀ k < s.rank, at' 0 s.ones k ≠ d) → at' 0 x0 d = 0)
    (h3 : ∀ t < s.zeros.size, IsVec m s (at' 0 s.zeros t) (at' #[] basis t)) :
    Rref n J s.rank s.zeros.size (at' 0 s.ones) (at' 0 s.zeros) (trunc J m (ent s.A)) ∧
      Param J s.rank s.zeros.size (at' 0 s.ones) (at' 0 s.zeros) (trunc J m (ent s.A)) (at' 0 x0) (fun t j => at' 0 (at' #[] basis t) j) := by
  have hle := h.rank
  have pinj : ∀ k < s.rank, ∀ k' < s.rank, at' 0 s.ones k = at' 0 s.ones k' → k = k' := by
    intro a ha b hb hab
    rcases Nat.lt_trichotomy a b with h' | h' | h'
    · have := h.pmono a b h' hb; omega
    · exact h'
    · have := h.pmono b a h' ha; omega
  have qinj : ∀ k < s.zeros.size, ∀ k' < s.zeros.size, at' 0 s.zeros k = at' 0 s.zeros k' → k = k' := by
    intro a ha b hb hab
    rcases Nat.lt_trichotomy a b with h' | h' | h'
    · have := h.qmono a b h' hb; omega
    · exact h'
    · have := h.qmono b a h' ha; omega
  refine ⟨⟨hle, h.plt, h.qlt, pinj, qinj, h.disj, h.cover, fun k hk => ?_, fun k hk r hr' hne => ?_, fun r q1 q2 c hc => ?_⟩, ⟨fun k hk => ?_, fun t ht => ?_, fun t ht k hk => ?_, fun t ht t' ht' => ?_⟩⟩
  · rw [trunc, if_pos (h.plt k hk)]
    exact h.one k hk
  · rw [trunc, if_pos (h.plt k hk)]
    exact h.zero k hk r (by omega) hne
  · rw [trunc]
    split
    · exact h.rest r q1 q2 c (by assumption)
    · exact hr r q1 q2
  · rw [trunc, if_neg (by omega)]
    exact h1 k hk
  · exact h2 _ fun k hk => h.disj k hk t ht
  · rw [trunc, if_pos (h.qlt t ht)]
    exact (h3 t ht).2.1 k hk
  · rw [(h3 t ht).2.2 _ fun k hk => h.disj k hk t' ht', neg_one']
    by_cases e : t = t'
    · rw [if_pos (by rw [e]), if_pos e]
    · rw [if_neg (fun e2 => e (qinj t ht t' ht' e2.symm)), if_neg e]

end GaussF2
