import Verif.Model.SparseTable
import Verif.Proof.SegmentTree

/-! # SparseTable: helper lemmas -/

namespace SparseTable
open Cxx SegTree

variable {T : Type} [Monoid T]

/-- Row `i` holds the products of all windows of length `2^i`. -/
def Row (f : Nat → T) (n i : Nat) (row : Array T) : Prop :=
  row.size = n - 2 ^ i + 1 ∧ ∀ l, l + 2 ^ i ≤ n → row[l]? = some (P f l (l + 2 ^ i))

theorem buildRow_tot (d : T) {f : Nat → T} {n i : Nat} {row : Array T} (h : Row f n i row) (hi : 2 ^ (i + 1) ≤ n) :
    Tot (buildRow (· * ·) d n i row) (Row f n (i + 1)) := by
  unfold buildRow
  have e : 2 ^ (i + 1) = 2 ^ i + 2 ^ i := by ring
  have hp := pow_pos' i
  refine (Tot.forUp (P := fun l (r : Array T) => r.size = n - 2 ^ (i + 1) + 1 ∧ ∀ j, j < l → r[j]? = some (P f j (j + 2 ^ (i + 1))))
    (by omega) ⟨by simp, by omega⟩ ?_).mono ?_
  · rintro l r h1 h2 ⟨h3, h4⟩
    rw [rd_some (h.2 l (by omega)), ok_bind, rd_some (h.2 (l + 2 ^ i) (by omega)), ok_bind, wr_eq (by omega)]
    refine Tot.pure ⟨by simpa using h3, fun j hj => ?_⟩
    rw [get?_set _ _ _ _ (by omega)]
    split
    next c =>
      subst c
      dsimp only
      rw [← P_append f (Nat.le_add_right _ _) (Nat.le_add_right _ _), e, add_assoc]
    next c => exact h4 j (by omega)
  · rintro r ⟨h3, h4⟩
    exact ⟨h3, fun l hl => h4 l (by omega)⟩

theorem buildTable_tot (d : T) (a : Array T) {f : Nat → T} (hf : ∀ i, (h : i < a.size) → f i = a[i]) {log : Nat} (hlog : 2 ^ log ≤ a.size) :
    Tot (buildTable (· * ·) d a a.size log) fun t => ∀ i, i ≤ log → ∃ row, t[i]? = some row ∧ Row f a.size i row := by
  unfold buildTable
  rw [wr_eq (by simp), ok_bind]
  have h1 := pow_pos' log
  refine (Tot.forUp (P := fun k (t : Array (Array T)) => t.size = log + 1 ∧ ∀ i, i ≤ k → ∃ row, t[i]? = some row ∧ Row f a.size i row)
    (by omega) ⟨by simp, ?_⟩ ?_).mono fun t ht => ht.2
  · intro i hi
    have : i = 0 := by omega
    subst this
    refine ⟨a, by rw [get?_set _ _ _ _ (by simp), if_pos rfl], by simp; omega, fun l hl => ?_⟩
    rw [pow_zero, P_one, hf l (by omega)]
    simp
  · rintro k t h2 h3 ⟨h4, h5⟩
    obtain ⟨row, er, hr⟩ := h5 k le_rfl
    rw [rd_some er, ok_bind]
    have h6 : 2 ^ (k + 1) ≤ a.size := le_trans (Nat.pow_le_pow_right (by omega) h3) hlog
    refine Tot.bind (buildRow_tot d hr h6) fun row' hr' => ?_
    rw [wr_eq (by omega)]
    refine Tot.pure ⟨by simpa using h4, fun i hi => ?_⟩
    rw [get?_set _ _ _ _ (by omega)]
    split
    next c => subst c; exact ⟨row', rfl, hr'⟩
    next c => exact h5 i (by omega)

theorem fill_tot {flog : Array Nat} {lo hi v : Nat} (h : lo ≤ hi) (hs : hi ≤ flog.size) :
    Tot (fill flog lo hi v) fun g => g.size = flog.size ∧ ∀ i : Nat, g[i]? = if lo ≤ i ∧ i < hi then some v else flog[i]? := by
  unfold fill
  refine Tot.forUp (P := fun k (g : Array Nat) => g.size = flog.size ∧ ∀ i : Nat, g[i]? = if lo ≤ i ∧ i < k then some v else flog[i]?) h
    ⟨rfl, fun i => by rw [if_neg (by omega)]⟩ ?_
  rintro k g h1 h2 ⟨h3, h4⟩
  rw [wr_eq (by omega)]
  refine Tot.pure ⟨by simpa using h3, fun i => ?_⟩
  rw [get?_set _ _ _ _ (by omega), h4]
  split
  · rw [if_pos (by omega)]
  · congr 1
    simp only [eq_iff_iff]
    omega

theorem buildFlog_tot {n log : Nat} (h1 : 2 ^ log ≤ n) (h2 : n < 2 ^ (log + 1)) :
    Tot (buildFlog n log) fun g => ∀ k, 1 ≤ k → k ≤ n → g[k]? = some (Nat.log2 k) := by
  unfold buildFlog
  refine Tot.bind (Tot.forUp (P := fun l (g : Array Nat) => g.size = n + 1 ∧ ∀ k, 1 ≤ k → k < 2 ^ l → g[k]? = some (Nat.log2 k))
    (by omega) ⟨by simp, by simp; omega⟩ ?_) ?_
  · rintro l g a1 a2 ⟨a3, a4⟩
    have e : 2 ^ (l + 1) = 2 ^ l + 2 ^ l := by ring
    have hp := pow_pos' l
    have : 2 ^ (l + 1) ≤ 2 ^ log := Nat.pow_le_pow_right (by omega) a2
    refine (fill_tot (by omega) (by omega)).mono ?_
    rintro g' ⟨b1, b2⟩
    refine ⟨by omega, fun k c1 c2 => ?_⟩
    rw [b2]
    split
    next c => rw [(Nat.log2_eq_iff (by omega)).2 ⟨c.1, c.2⟩]
    next c => exact a4 k c1 (by omega)
  · rintro g ⟨a3, a4⟩
    refine (fill_tot (by omega) (by omega)).mono ?_
    rintro g' ⟨b1, b2⟩ k c1 c2
    rw [b2]
    split
    next c => rw [(Nat.log2_eq_iff (by omega)).2 ⟨c.1, by omega⟩]
    next c => exact a4 k c1 (by omega)

/-- Two overlapping windows. -/
theorem P_overlap (hid : ∀ x : T, x * x = x) (f : Nat → T) {l a b r : Nat} (h1 : l ≤ a) (h2 : a ≤ b) (h3 : b ≤ r) :
    P f l b * P f a r = P f l r := by
  rw [P_append f h1 h2, P_append f h2 h3, mul_assoc, ← mul_assoc (P f a b), hid, ← mul_assoc, ← P_append f h1 h2, ← P_append f (h1.trans h2) h3]

theorem ofVector_tot (d : T) (hid : ∀ x : T, x * x = x) (a : Array T) (ha : a.size ≠ 0) {f : Nat → T} (hf : ∀ i, (h : i < a.size) → f i = a[i]) :
    Tot (ofVector (· * ·) d a) fun s => ∀ l r, r ≤ a.size → prod (· * ·) 1 s l r = .ok (P f l r) := by
  unfold ofVector floorLog2
  rw [if_neg ha, ok_bind]
  obtain ⟨e1, e2⟩ := (Nat.log2_eq_iff ha).1 rfl
  refine Tot.bind (buildTable_tot d a hf e1) fun t ht => ?_
  refine Tot.bind (buildFlog_tot e1 e2) fun g hg => ?_
  refine Tot.pure fun l r hr => ?_
  unfold prod
  split
  next c => rw [P_empty f c]; rfl
  next c =>
    dsimp only
    rw [rd_some (hg (r - l) (by omega) (by omega)), ok_bind]
    obtain ⟨b1, b2⟩ := (Nat.log2_eq_iff (show r - l ≠ 0 by omega)).1 rfl
    obtain ⟨i, hi⟩ : ∃ i, i = Nat.log2 (r - l) := ⟨_, rfl⟩
    rw [← hi] at b1 b2 ⊢
    have e : 2 ^ (i + 1) = 2 ^ i + 2 ^ i := by ring
    have hil : i ≤ Nat.log2 a.size := by
      by_contra hc
      have : 2 ^ (Nat.log2 a.size + 1) ≤ 2 ^ i := Nat.pow_le_pow_right (by omega) (by omega)
      omega
    obtain ⟨row, er, hrow⟩ := ht i hil
    rw [rd_some er, ok_bind, rd_some (hrow.2 l (by omega)), ok_bind, rd_some (hrow.2 (r - 2 ^ i) (by omega)), ok_bind]
    show Except.ok _ = _
    rw [show r - 2 ^ i + 2 ^ i = r by omega, P_overlap hid f (by omega) (by omega) (by omega)]

end SparseTable
