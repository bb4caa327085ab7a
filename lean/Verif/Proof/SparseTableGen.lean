import Verif.Proof.SparseTable

/-! # Sparse tables for relations closed under overlapping unions -/

namespace SparseTable
open Cxx SegTree

variable {T : Type} {op : T → T → T} {Q : Nat → Nat → T → Prop}

def RowG (Q : Nat → Nat → T → Prop) (n i : Nat) (row : Array T) : Prop :=
  row.size = n - 2 ^ i + 1 ∧ ∀ l, l + 2 ^ i ≤ n → ∃ x, row[l]? = some x ∧ Q l (l + 2 ^ i) x

theorem buildRowG_tot (d : T) {n i : Nat} {row : Array T} (hQ : ∀ l m m' r x y, l < m → l ≤ m' → m' ≤ m → m ≤ r → m' < r → r ≤ n → Q l m x → Q m' r y → Q l r (op x y)) (h : RowG Q n i row) (hi : 2 ^ (i + 1) ≤ n) :
    Tot (buildRow op d n i row) (RowG Q n (i + 1)) := by
  unfold buildRow
  have e : 2 ^ (i + 1) = 2 ^ i + 2 ^ i := by ring
  have hp := pow_pos' i
  refine (Tot.forUp (P := fun l (r : Array T) => r.size = n - 2 ^ (i + 1) + 1 ∧ ∀ j, j < l → ∃ x, r[j]? = some x ∧ Q j (j + 2 ^ (i + 1)) x)
    (by omega) ⟨by simp, by omega⟩ ?_).mono ?_
  · rintro l r h1 h2 ⟨h3, h4⟩
    obtain ⟨x, hx, qx⟩ := h.2 l (by omega)
    obtain ⟨y, hy, qy⟩ := h.2 (l + 2 ^ i) (by omega)
    rw [rd_some hx, ok_bind, rd_some hy, ok_bind, wr_eq (by omega)]
    refine Tot.pure ⟨by simpa using h3, fun j hj => ?_⟩
    rw [get?_set _ _ _ _ (by omega)]
    split
    next c =>
      subst c
      refine ⟨_, rfl, ?_⟩
      have := hQ l (l + 2 ^ i) (l + 2 ^ i) (l + 2 ^ (i + 1)) x y (by omega) (by omega) (by omega) (by omega) (by omega) (by omega) qx (by rw [e, ← Nat.add_assoc]; exact qy)
      exact this
    next c => exact h4 j (by omega)
  · rintro r ⟨h3, h4⟩
    exact ⟨h3, fun l hl => h4 l (by omega)⟩

theorem buildTableG_tot (d : T) (a : Array T) (hQ : ∀ l m m' r x y, l < m → l ≤ m' → m' ≤ m → m ≤ r → m' < r → r ≤ a.size → Q l m x → Q m' r y → Q l r (op x y)) (hf : ∀ i, (h : i < a.size) → Q i (i + 1) a[i]) {log : Nat} (hlog : 2 ^ log ≤ a.size) :
    Tot (buildTable op d a a.size log) fun t => ∀ i, i ≤ log → ∃ row, t[i]? = some row ∧ RowG Q a.size i row := by
  unfold buildTable
  rw [wr_eq (by simp), ok_bind]
  have h1 := pow_pos' log
  refine (Tot.forUp (P := fun k (t : Array (Array T)) => t.size = log + 1 ∧ ∀ i, i ≤ k → ∃ row, t[i]? = some row ∧ RowG Q a.size i row)
    (by omega) ⟨by simp, ?_⟩ ?_).mono fun t ht => ht.2
  · intro i hi
    have : i = 0 := by omega
    subst this
    refine ⟨a, by rw [get?_set _ _ _ _ (by simp), if_pos rfl], by simp; omega, fun l hl => ?_⟩
    rw [pow_zero] at hl ⊢
    exact ⟨a[l], by simp, hf l (by omega)⟩
  · rintro k t h2 h3 ⟨h4, h5⟩
    obtain ⟨row, er, hr⟩ := h5 k le_rfl
    rw [rd_some er, ok_bind]
    have h6 : 2 ^ (k + 1) ≤ a.size := le_trans (Nat.pow_le_pow_right (by omega) h3) hlog
    refine Tot.bind (buildRowG_tot d hQ hr h6) fun row' hr' => ?_
    rw [wr_eq (by omega)]
    refine Tot.pure ⟨by simpa using h4, fun i hi => ?_⟩
    rw [get?_set _ _ _ _ (by omega)]
    split
    next c => subst c; exact ⟨row', rfl, hr'⟩
    next c => exact h5 i (by omega)

theorem ofVectorG_tot (d e : T) (a : Array T) (ha : a.size ≠ 0) (hQ : ∀ l m m' r x y, l < m → l ≤ m' → m' ≤ m → m ≤ r → m' < r → r ≤ a.size → Q l m x → Q m' r y → Q l r (op x y)) (hf : ∀ i, (h : i < a.size) → Q i (i + 1) a[i]) :
    Tot (ofVector op d a) fun s => ∀ l r, l < r → r ≤ a.size → Tot (prod op e s l r) (Q l r) := by
  unfold ofVector floorLog2
  rw [if_neg ha, ok_bind]
  obtain ⟨e1, e2⟩ := (Nat.log2_eq_iff ha).1 rfl
  refine Tot.bind (buildTableG_tot d a hQ hf e1) fun t ht => ?_
  refine Tot.bind (buildFlog_tot e1 e2) fun g hg => ?_
  refine Tot.pure fun l r hlr hr => ?_
  unfold prod
  rw [if_neg (by omega)]
  dsimp only
  rw [rd_some (hg (r - l) (by omega) (by omega)), ok_bind]
  obtain ⟨b1, b2⟩ := (Nat.log2_eq_iff (show r - l ≠ 0 by omega)).1 rfl
  obtain ⟨i, hi⟩ : ∃ i, i = Nat.log2 (r - l) := ⟨_, rfl⟩
  rw [← hi] at b1 b2 ⊢
  have e : 2 ^ (i + 1) = 2 ^ i + 2 ^ i := by ring
  have hil : i ≤ Nat.log2 a.size := by
    by_contra hc
    have : 2 ^ (Nat.log2 a.size + 1) ≤ 2 ^ i := Nat.pow_le_pow_right (by omega) (by omega)
    omega
  have hp := pow_pos' i
  obtain ⟨row, er, hrow⟩ := ht i hil
  obtain ⟨x, hx, qx⟩ := hrow.2 l (by omega)
  obtain ⟨y, hy, qy⟩ := hrow.2 (r - 2 ^ i) (by omega)
  rw [rd_some er, ok_bind, rd_some hx, ok_bind, rd_some hy, ok_bind]
  rw [show r - 2 ^ i + 2 ^ i = r by omega] at qy
  exact Tot.pure (hQ l (l + 2 ^ i) (r - 2 ^ i) r x y (by omega) (by omega) (by omega) (by omega) (by omega) hr qx qy)

end SparseTable
