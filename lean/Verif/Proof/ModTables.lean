import Verif.Spec.ModTables
import Mathlib.Data.Nat.Factorial.Basic
import Mathlib.Data.Nat.Choose.Basic
import Mathlib.Data.Nat.Cast.Basic
import Mathlib.Algebra.Field.Basic
import Mathlib.Data.Nat.Prime.Basic
import Mathlib.Algebra.BigOperators.Group.List.Basic
import Mathlib.Tactic.Ring
import Mathlib.Tactic.FieldSimp
import Mathlib.Tactic.LinearCombination
import Mathlib.Algebra.CharP.Defs

namespace ModTables
open Cxx

theorem at_append {α : Type} (d : α) (a : Array α) (k : Nat) (x : α) (i : Nat) (h : i < a.size) : at' d (a ++ Array.replicate k x) i = at' d a i := by
  unfold at'
  rw [Array.getElem?_append_left h]

end ModTables

namespace Factorial
open Cxx ModTables
variable {F : Type} [Field F] [DecidableEq F]

/-- The tables hold the factorials and their inverses. -/
structure Inv (t : Tab F) : Prop where
  pos : 0 < t.fac.size
  sz : t.inv.size = t.fac.size
  fac : ∀ i, i < t.fac.size → at' 0 t.fac i = (i.factorial : F)
  inv : ∀ i, i < t.fac.size → at' 0 t.inv i * (i.factorial : F) = 1

theorem inv_init : Inv (init : Tab F) := by
  refine ⟨by simp [init], rfl, ?_, ?_⟩ <;> intro i hi <;> (have : i = 0 := by simpa [init] using hi) <;> subst this <;> simp [init, at']

/-- The size of the table after `ensure(n)`. -/
def newSize (sz n : Nat) : Nat := if n + 1 ≤ sz then sz else max (n + 1) (sz * 2)

theorem fill_tot {t : Tab F} (h : Inv t) {new : Nat} (hn : t.fac.size ≤ new) :
    Tot (forUp t.fac.size new (t.fac ++ Array.replicate (new - t.fac.size) 0) facStep) fun a => a.size = new ∧ ∀ i, i < new → at' 0 a i = (i.factorial : F) := by
  refine Tot.forUp (lo := t.fac.size) (hi := new) (P := fun k (a : Array F) => a.size = new ∧ ∀ i, i < k → at' 0 a i = (i.factorial : F)) hn ⟨by simp; omega, ?_⟩ ?_
  · intro i hi
    rw [at_append _ _ _ _ _ hi]
    exact h.fac i hi
  · rintro k a hk hk' ⟨h1, h2⟩
    have hp := h.pos
    have sk : k < a.size := by omega
    unfold facStep
    rw [rd_at 0 (by omega), ok_bind, wr_eq sk]
    refine tot_ok.mpr ⟨by simpa using h1, ?_⟩
    intro i hi
    rw [at_set 0 sk]
    by_cases e : k = i
    · subst e
      obtain ⟨j, rfl⟩ : ∃ j, k = j + 1 := ⟨k - 1, by omega⟩
      rw [if_pos rfl, show j + 1 - 1 = j from rfl, h2 j (by omega), Nat.factorial_succ]
      push_cast
      ring
    · rw [if_neg e]
      exact h2 i (by omega)

theorem ensure_tot {t : Tab F} (h : Inv t) {n : Nat} (hF : ((newSize t.fac.size n - 1).factorial : F) ≠ 0) :
    Tot (ensure t n) fun t' => Inv t' ∧ t'.fac.size = newSize t.fac.size n ∧ n < t'.fac.size := by
  unfold ensure
  dsimp only
  unfold newSize at hF ⊢
  split_ifs with hc
  · exact Tot.pure ⟨h, rfl, by omega⟩
  · rw [if_neg hc] at hF
    obtain ⟨new, hnew⟩ : ∃ new, new = max (n + 1) (t.fac.size * 2) := ⟨_, rfl⟩
    rw [← hnew] at hF ⊢
    have hp := h.pos
    have h1 : t.fac.size < new := by omega
    have h2 : n < new := by omega
    refine Tot.bind (fill_tot h (by omega)) ?_
    rintro fac ⟨f1, f2⟩
    have hsz : (t.inv ++ Array.replicate (new - t.fac.size) 0).size = new := by simp [h.sz]; omega
    have s1 : new - 1 < (t.inv ++ Array.replicate (new - t.fac.size) (0 : F)).size := by omega
    rw [rd_at 0 (by omega), ok_bind, f2 (new - 1) (by omega)]
    unfold minv
    rw [if_neg hF, pure_eq, ok_bind, wr_eq s1, ok_bind]
    refine Tot.bind (Tot.forDown (lo := t.fac.size) (hi := new - 1) (P := fun k (a : Array F) => a.size = new ∧ ∀ i, (i < t.fac.size ∨ k ≤ i) → i < new →
      at' 0 a i * (i.factorial : F) = 1) (by omega) ⟨by simpa using hsz, ?_⟩ ?_) ?_
    · intro i hi hi'
      rw [at_set 0 s1]
      by_cases e : new - 1 = i
      · rw [if_pos e, ← e]
        exact inv_mul_cancel₀ hF
      · rw [if_neg e, at_append _ _ _ _ _ (by rw [h.sz]; omega)]
        exact h.inv i (by omega)
    · rintro j a hj hj' ⟨g1, g2⟩
      have sj : j < a.size := by omega
      unfold invStep
      rw [rd_at 0 (by omega), ok_bind, wr_eq sj]
      refine tot_ok.mpr ⟨by simpa using g1, ?_⟩
      intro i hi hi'
      rw [at_set 0 sj]
      by_cases e : j = i
      · subst e
        rw [if_pos rfl]
        have := g2 (j + 1) (by omega) (by omega)
        rw [Nat.factorial_succ, Nat.cast_mul] at this
        rw [mul_assoc]
        exact this
      · rw [if_neg e]
        exact g2 i (by omega) hi'
    · rintro a ⟨g1, g2⟩
      refine Tot.pure ⟨⟨by dsimp only; omega, by dsimp only; omega, ?_, ?_⟩, f1, by dsimp only; omega⟩
      · intro i hi
        exact f2 i (by dsimp only at hi; omega)
      · intro i hi
        dsimp only at hi ⊢
        exact g2 i (by omega) (by omega)

/-- If the table grows beyond the characteristic, the division fails. -/
theorem ensure_assert {t : Tab F} (h : Inv t) {n : Nat} (hn : t.fac.size ≤ n) (hF : ((max (n + 1) (t.fac.size * 2) - 1).factorial : F) = 0) :
    ensure t n = .error .assertion := by
  unfold ensure
  dsimp only
  rw [if_neg (by omega)]
  have hp := h.pos
  obtain ⟨fac, e, f1, f2⟩ := fill_tot h (new := max (n + 1) (t.fac.size * 2)) (by omega)
  rw [e, ok_bind, rd_at 0 (by omega), ok_bind, f2 _ (by omega)]
  unfold minv
  rw [if_pos hF, err_bind]

theorem inv_ne {t : Tab F} (h : Inv t) {i : Nat} (hi : i < t.fac.size) : (i.factorial : F) ≠ 0 := by
  intro e
  have := h.inv i hi
  rw [e, mul_zero] at this
  exact zero_ne_one this

theorem inv_eq {t : Tab F} (h : Inv t) {i : Nat} (hi : i < t.fac.size) : at' 0 t.inv i = (i.factorial : F)⁻¹ :=
  eq_inv_of_mul_eq_one_left (h.inv i hi)

theorem polyLoop_tot {t : Tab F} (h : Inv t) {n : Int} (hn : n < t.fac.size) : ∀ (ds : List Int) (sumd : Int) (res : F),
    Tot (polyLoop t n ds sumd res) fun r => ((∃ d ∈ ds, d < 0 ∨ d > n) ∧ r = none) ∨
      ((∀ d ∈ ds, 0 ≤ d ∧ d ≤ n) ∧ ∃ x, r = some (sumd + ds.sum, x) ∧ (prodFac ds : F) ≠ 0 ∧ x * prodFac ds = res) := by
  intro ds
  induction ds with
  | nil =>
    intro sumd res
    unfold polyLoop
    exact Tot.pure (.inr ⟨by simp, res, by simp, by simp [prodFac], by simp [prodFac]⟩)
  | cons d ds ih =>
    intro sumd res
    unfold polyLoop
    split_ifs with hc
    · exact Tot.pure (.inl ⟨⟨d, by simp, hc⟩, rfl⟩)
    · have hd : d.toNat < t.fac.size := by omega
      rw [rd_at 0 (by rw [h.sz]; exact hd), ok_bind]
      refine (ih (sumd + d) _).mono ?_
      rintro r (⟨⟨e, e1, e2⟩, rfl⟩ | ⟨e1, x, rfl, e2, e3⟩)
      · exact .inl ⟨⟨e, by simp [e1], e2⟩, rfl⟩
      · refine .inr ⟨?_, x, ?_, ?_, ?_⟩
        · intro e he
          rcases List.mem_cons.mp he with rfl | he
          · omega
          · exact e1 e he
        · simp [add_assoc]
        · unfold prodFac at e2 ⊢
          rw [List.map_cons, List.prod_cons]
          exact mul_ne_zero (inv_ne h hd) e2
        · unfold prodFac at e3 ⊢
          rw [List.map_cons, List.prod_cons]
          have := h.inv d.toNat hd
          calc x * ((d.toNat.factorial : F) * (ds.map fun d => (d.toNat.factorial : F)).prod)
              = (x * (ds.map fun d => (d.toNat.factorial : F)).prod) * (d.toNat.factorial : F) := by ring
            _ = res * (at' 0 t.inv d.toNat * (d.toNat.factorial : F)) := by rw [e3]; ring
            _ = res := by rw [this, mul_one]

theorem mem_le_sum : ∀ {ds : List Int}, (∀ d ∈ ds, 0 ≤ d) → 0 ≤ ds.sum ∧ ∀ d ∈ ds, d ≤ ds.sum := by
  intro ds
  induction ds with
  | nil => intro _; simp
  | cons a l ih =>
    intro h
    obtain ⟨h1, h2⟩ := ih fun d hd => h d (by simp [hd])
    have ha := h a (by simp)
    rw [List.sum_cons]
    refine ⟨by omega, ?_⟩
    intro d hd
    rcases List.mem_cons.mp hd with rfl | hd
    · omega
    · have := h2 d hd
      omega

theorem step_tot {t : Tab F} (h : Inv t) {op : Op} (hF : 0 ≤ op.arg → ((newSize t.fac.size op.arg.toNat - 1).factorial : F) ≠ 0) :
    Tot (step t op) fun r => Inv r.1 ∧ (r.1.fac.size = t.fac.size ∨ r.1.fac.size = newSize t.fac.size op.arg.toNat) ∧ Ans op r.2 := by
  cases op with
  | fac i =>
    have := hF (by simp [Op.arg])
    simp only [Op.arg, Int.toNat_natCast] at this ⊢
    unfold step fac
    refine Tot.bind (ensure_tot h this) ?_
    rintro t' ⟨h1, h2, h3⟩
    rw [rd_at 0 h3, ok_bind]
    exact Tot.pure ⟨h1, .inr h2, h1.fac i h3⟩
  | facInv i =>
    have := hF (by simp [Op.arg])
    simp only [Op.arg, Int.toNat_natCast] at this ⊢
    unfold step facInv
    refine Tot.bind (ensure_tot h this) ?_
    rintro t' ⟨h1, h2, h3⟩
    rw [rd_at 0 (by rw [h1.sz]; exact h3), ok_bind]
    exact Tot.pure ⟨h1, .inr h2, h1.inv i h3⟩
  | binom n r =>
    unfold step
    dsimp only
    unfold binom
    split_ifs with hc
    · refine Tot.pure ⟨h, .inl rfl, ?_⟩
      show (0 : F) = _
      split_ifs with hd
      · rw [Nat.choose_eq_zero_of_lt (by omega)]
        simp
      · rfl
    · have := hF (by simp [Op.arg]; omega)
      simp only [Op.arg] at this ⊢
      refine Tot.bind (ensure_tot h this) ?_
      rintro t' ⟨h1, h2, h3⟩
      rw [rd_at 0 h3, ok_bind, rd_at 0 (by rw [h1.sz]; omega), ok_bind, rd_at 0 (by rw [h1.sz]; omega), ok_bind]
      refine Tot.pure ⟨h1, .inr h2, ?_⟩
      show _ = _
      rw [if_pos (by omega), h1.fac _ h3, inv_eq h1 (by omega), inv_eq h1 (by omega)]
      have hch := Nat.choose_mul_factorial_mul_factorial (n := n.toNat) (k := r.toNat) (by omega)
      rw [show n.toNat - r.toNat = (n - r).toNat by omega] at hch
      have n1 := inv_ne h1 (i := r.toNat) (by omega)
      have n2 := inv_ne h1 (i := (n - r).toNat) (by omega)
      rw [← hch]
      push_cast
      field_simp
  | polynom n ds =>
    unfold step
    dsimp only
    unfold polynom
    split_ifs with hc
    · refine Tot.pure ⟨h, .inl rfl, ?_⟩
      show if _ then _ else _
      rw [if_neg (by rintro ⟨-, h, -⟩; omega)]
    · have := hF (by simp [Op.arg]; omega)
      simp only [Op.arg] at this ⊢
      refine Tot.bind (ensure_tot h this) ?_
      rintro t' ⟨h1, h2, h3⟩
      rw [rd_at 0 h3, ok_bind]
      refine Tot.bind (polyLoop_tot h1 (by omega) ds 0 _) ?_
      rintro r (⟨⟨d, d1, d2⟩, rfl⟩ | ⟨d1, x, rfl, d2, d3⟩)
      · refine Tot.pure ⟨h1, .inr h2, ?_⟩
        show if _ then _ else _
        rw [if_neg]
        rintro ⟨e1, e2, e3⟩
        have := (mem_le_sum e1).2 d d1
        have := e1 d d1
        omega
      · unfold polyEnd
        rw [zero_add]
        dsimp only
        split_ifs with hs
        · refine Tot.pure ⟨h1, .inr h2, ?_⟩
          show if _ then _ else _
          rw [if_neg]
          rintro ⟨e1, e2, e3⟩
          omega
        · have hnn := (mem_le_sum fun d hd => (d1 d hd).1).1
          have hlt : (n - ds.sum).toNat < t'.fac.size := by omega
          rw [rd_at 0 (by rw [h1.sz]; exact hlt), ok_bind]
          refine Tot.pure ⟨h1, .inr h2, ?_⟩
          show if _ then _ else _
          rw [if_pos ⟨fun d hd => (d1 d hd).1, by omega, by omega⟩]
          refine ⟨mul_ne_zero d2 (inv_ne h1 hlt), ?_⟩
          dsimp only
          have hi := h1.inv _ hlt
          rw [h1.fac _ h3] at d3
          calc x * at' 0 t'.inv (n - ds.sum).toNat * (prodFac ds * ((n - ds.sum).toNat.factorial : F))
              = (x * prodFac ds) * (at' 0 t'.inv (n - ds.sum).toNat * ((n - ds.sum).toNat.factorial : F)) := by ring
            _ = _ := by rw [hi, d3, mul_one]
  | perm n r =>
    unfold step
    dsimp only
    unfold perm
    split_ifs with hc
    · refine Tot.pure ⟨h, .inl rfl, ?_⟩
      show (0 : F) = _
      split_ifs with hd
      · rw [Nat.descFactorial_of_lt (by omega)]
        simp
      · rfl
    · have := hF (by simp [Op.arg]; omega)
      simp only [Op.arg] at this ⊢
      refine Tot.bind (ensure_tot h this) ?_
      rintro t' ⟨h1, h2, h3⟩
      rw [rd_at 0 h3, ok_bind, rd_at 0 (by rw [h1.sz]; omega), ok_bind]
      refine Tot.pure ⟨h1, .inr h2, ?_⟩
      show _ = _
      rw [if_pos (by omega), h1.fac _ h3, inv_eq h1 (by omega)]
      have hch := Nat.factorial_mul_descFactorial (n := n.toNat) (k := r.toNat) (by omega)
      rw [show n.toNat - r.toNat = (n - r).toNat by omega] at hch
      have n2 := inv_ne h1 (i := (n - r).toNat) (by omega)
      rw [← hch]
      push_cast
      field_simp

theorem fac_ne {L : Nat} (hF : ∀ k : Nat, 0 < k → k < L → (k : F) ≠ 0) : ∀ k : Nat, k < L → (k.factorial : F) ≠ 0 := by
  intro k
  induction k with
  | zero => intro _; simp
  | succ k ih =>
    intro h
    rw [Nat.factorial_succ, Nat.cast_mul]
    exact mul_ne_zero (hF _ (by omega) h) (ih (by omega))

/-- Histories of calls with arguments below `N`: the table never has more than `2 N - 2` entries. -/
theorem history_tot {N : Nat} (hF : ∀ k : Nat, 0 < k → k + 2 < 2 * N → (k : F) ≠ 0) {ops : List Op} (hv : ∀ op ∈ ops, op.arg < N) :
    Tot (runOps step (init : Tab F) ops) fun r => TraceOk (fun (_ : Unit) _ => ()) (fun _ => Ans) () ops r.2 := by
  have hvalid : ∀ l : List Op, (∀ op ∈ l, op.arg < N) → ValidOps (fun (_ : Unit) (op : Op) => op.arg < N) (fun _ _ => ()) () l := by
    intro l
    induction l with
    | nil => intro _; trivial
    | cons a l ih => intro h; exact ⟨h a (by simp), ih fun op ho => h op (by simp [ho])⟩
  refine (Cxx.refine (Sim := fun (t : Tab F) (_ : Unit) => Inv t ∧ (t.fac.size = 1 ∨ t.fac.size + 2 ≤ 2 * N)) (Ans := fun _ => Ans) ?_ ⟨inv_init, .inl rfl⟩ (hvalid ops hv)).mono fun r h => h.2
  rintro t - op ⟨h1, h2⟩ hop
  refine (step_tot h1 ?_).mono ?_
  · intro h0
    have hlt : newSize t.fac.size op.arg.toNat = 1 ∨ newSize t.fac.size op.arg.toNat + 2 ≤ 2 * N := by
      unfold newSize
      split_ifs <;> omega
    rcases hlt with h | h
    · rw [h]; simp
    · refine fac_ne (L := 2 * N - 2) (fun k k1 k2 => hF k k1 (by omega)) _ ?_
      have := h1.pos
      unfold newSize at h ⊢
      split_ifs at h ⊢ <;> omega
  · rintro ⟨t', x⟩ ⟨g1, g2, g3⟩
    refine ⟨⟨g1, ?_⟩, g3⟩
    have := h1.pos
    dsimp only at g2 ⊢
    rcases g2 with g2 | g2
    · omega
    · rw [g2]
      unfold newSize
      split_ifs <;> omega

end Factorial

namespace InvMods
open Cxx ModTables
variable {F : Type} [Field F] [DecidableEq F]

/-- The table holds inverses. -/
structure Inv (p : Nat) (a : Array F) : Prop where
  two : 2 ≤ a.size
  le : a.size ≤ p
  zero : at' 0 a 0 = 0
  inv : ∀ i, 0 < i → i < a.size → at' 0 a i * (i : F) = 1

theorem grow_tot {p : Nat} (hp : p.Prime) (h0 : (p : F) = 0) {a : Array F} (h : Inv p a) {n : Nat} (hn : n < p) :
    Tot (grow p a n) fun a' => Inv p a' ∧ n < a'.size := by
  have two := h.two
  unfold grow
  split_ifs with hc
  · have key : Tot (forUp a.size (n + 1) (a ++ Array.replicate (n + 1 - a.size) 0) (invStep p)) fun r => r.size = n + 1 ∧ at' 0 r 0 = 0 ∧
        ∀ i, 0 < i → i < n + 1 → at' 0 r i * (i : F) = 1 := by
      refine Tot.forUp (lo := a.size) (hi := n + 1) (P := fun k (r : Array F) => r.size = n + 1 ∧ at' 0 r 0 = 0 ∧ ∀ i, 0 < i → i < k → at' 0 r i * (i : F) = 1)
        (by omega) ⟨by simp; omega, ?_, ?_⟩ ?_
      · rw [at_append _ _ _ _ _ (by omega)]
        exact h.zero
      · intro i hi hi'
        rw [at_append _ _ _ _ _ hi']
        exact h.inv i hi hi'
      · rintro i r hi hi' ⟨h1, h2, h3⟩
        have si : i < r.size := by omega
        have hm : p % i < i := Nat.mod_lt _ (by omega)
        have hm0 : 0 < p % i := by
          rcases Nat.eq_zero_or_pos (p % i) with e | e
          · exfalso
            rcases (Nat.dvd_prime hp).mp (Nat.dvd_of_mod_eq_zero e) with e | e <;> omega
          · exact e
        have hle : p / i ≤ p := Nat.div_le_self _ _
        have hdm := Nat.div_add_mod p i
        unfold invStep
        rw [rd_at 0 (by omega), ok_bind, wr_eq si]
        refine tot_ok.mpr ⟨by simpa using h1, ?_, ?_⟩
        · rw [at_set 0 si, if_neg (by omega), h2]
        · intro j hj hj'
          rw [at_set 0 si]
          by_cases e : i = j
          · subst e
            rw [if_pos rfl, Nat.cast_sub hle, h0]
            have h4 := h3 (p % i) hm0 hm
            have h5 : (i : F) * ((p / i : Nat) : F) + ((p % i : Nat) : F) = 0 := by
              rw [← Nat.cast_mul, ← Nat.cast_add, hdm, h0]
            linear_combination (-at' 0 r (p % i)) * h5 + h4
          · rw [if_neg e]
            exact h3 j hj (by omega)
    refine key.mono ?_
    rintro r ⟨h1, h2, h3⟩
    exact ⟨⟨by omega, by omega, h2, fun i hi hi' => h3 i hi (by omega)⟩, by omega⟩
  · exact Tot.pure ⟨h, by omega⟩

theorem get_tot {p : Nat} (hp : p.Prime) (h0 : (p : F) = 0) {a : Array F} (h : a = #[] ∨ Inv p a) {n : Nat} (hn : n < p) :
    Tot (get p a n) fun r => Inv p r.1 ∧ (0 < n → r.2 * (n : F) = 1) ∧ (n = 0 → r.2 = 0) := by
  have two := hp.two_le
  have base : Inv p (#[0, 1] : Array F) := by
    refine ⟨by simp, by simpa using two, by simp [at'], ?_⟩
    intro i hi hi'
    have : i = 1 := by simp at hi'; omega
    subst this
    simp [at']
  unfold get
  have key : Tot (ensure p a n) fun a' => Inv p a' ∧ n < a'.size := by
    unfold ensure
    split_ifs with hc
    · exact grow_tot hp h0 base hn
    · rcases h with rfl | h
      · simp at hc
      · exact grow_tot hp h0 h hn
  refine Tot.bind key ?_
  rintro a' ⟨h1, h2⟩
  rw [rd_at 0 h2, ok_bind]
  refine Tot.pure ⟨h1, fun h => h1.inv n h h2, ?_⟩
  rintro rfl
  exact h1.zero

theorem history_tot {p : Nat} (hp : p.Prime) (h0 : (p : F) = 0) {is : List Nat} (hv : ∀ i ∈ is, i < p) :
    Tot (runOps (get p) (#[] : Array F) is) fun r => TraceOk (fun (_ : Unit) _ => ()) (fun _ (i : Nat) (x : F) => (0 < i → x * (i : F) = 1) ∧ (i = 0 → x = 0)) () is r.2 := by
  have hvalid : ∀ l : List Nat, (∀ i ∈ l, i < p) → ValidOps (fun (_ : Unit) i => i < p) (fun _ _ => ()) () l := by
    intro l
    induction l with
    | nil => intro _; trivial
    | cons a l ih => intro h; exact ⟨h a (by simp), ih fun op ho => h op (by simp [ho])⟩
  refine (Cxx.refine (Sim := fun (t : Array F) (_ : Unit) => t = #[] ∨ Inv p t) (Ans := fun _ (i : Nat) (x : F) => (0 < i → x * (i : F) = 1) ∧ (i = 0 → x = 0)) ?_ (.inl rfl) (hvalid is hv)).mono
    fun r h => h.2
  rintro t - i h hi
  refine (get_tot hp h0 h hi).mono ?_
  rintro r ⟨h1, h2⟩
  exact ⟨.inr h1, h2⟩

theorem prod_tot : ∀ (l : List F) (p : F), (∀ x ∈ l, x ≠ 0) → forEach l p prodStep = .ok (p * l.prod) := by
  intro l
  induction l with
  | nil => intro p _; simp [forEach]
  | cons a l ih =>
    intro p h
    unfold forEach
    unfold prodStep
    rw [decide_eq_true (h a (by simp)), check_true, ok_bind, pure_eq, ok_bind, List.prod_cons, ← mul_assoc]
    exact ih _ fun x hx => h x (by simp [hx])

theorem prod_assert : ∀ (l : List F) (p : F), (∃ x ∈ l, x = 0) → forEach l p prodStep = .error .assertion := by
  intro l
  induction l with
  | nil => rintro p ⟨x, h, -⟩; simp at h
  | cons a l ih =>
    rintro p ⟨x, h, rfl⟩
    unfold forEach prodStep
    by_cases ha : a = 0
    · rw [decide_eq_false (by simpa using ha)]
      rfl
    · rw [decide_eq_true ha, check_true, ok_bind, pure_eq, ok_bind]
      refine ih _ ⟨0, ?_, rfl⟩
      rcases List.mem_cons.mp h with h | h
      · exact absurd h.symm ha
      · exact h

theorem prod_ne : ∀ {l : List F}, (∀ x ∈ l, x ≠ 0) → l.prod ≠ 0 := by
  intro l
  induction l with
  | nil => intro _; simp
  | cons a l ih =>
    intro h
    rw [List.prod_cons]
    exact mul_ne_zero (h a (by simp)) (ih fun x hx => h x (by simp [hx]))

theorem getInvs_tot {vs : Array F} (h : ∀ x ∈ vs, x ≠ 0) :
    Tot (getInvs vs) fun r => r.size = vs.size ∧ ∀ i, i < vs.size → at' 0 r i * at' 0 vs i = 1 := by
  unfold getInvs
  have hl : ∀ x ∈ vs.toList, x ≠ 0 := fun x hx => h x (by simpa using hx)
  have hne : vs.toList.prod ≠ 0 := prod_ne hl
  rw [prod_tot _ _ hl, ok_bind, one_mul]
  unfold minv
  rw [if_neg hne, pure_eq, ok_bind]
  have s0 : vs.size < (Array.replicate (vs.size + 1) (0 : F)).size := by simp
  rw [wr_eq s0, ok_bind]
  -- the values of the list
  have hat : ∀ i, i < vs.size → vs.toList.drop i = at' 0 vs i :: vs.toList.drop (i + 1) := by
    intro i hi
    rw [List.drop_eq_getElem_cons (by simpa using hi)]
    simp [at', hi]
  refine Tot.bind (Tot.forDown (lo := 0) (hi := vs.size) (P := fun k (rp : Array F) => rp.size = vs.size + 1 ∧ ∀ i, k ≤ i → i ≤ vs.size → at' 0 rp i = (vs.toList.drop i).prod)
    (by omega) ⟨by simp, ?_⟩ ?_) ?_
  · intro i hi hi'
    obtain rfl : i = vs.size := by omega
    rw [at_set 0 s0, if_pos rfl, List.drop_eq_nil_of_le (by simp)]
    simp
  · rintro k rp - hk ⟨h1, h2⟩
    have sk : k < rp.size := by omega
    unfold suffixStep
    rw [rd_at 0 (by omega), ok_bind, rd_at 0 hk, ok_bind, wr_eq sk]
    refine tot_ok.mpr ⟨by simpa using h1, ?_⟩
    intro i hi hi'
    rw [at_set 0 sk]
    by_cases e : k = i
    · subst e
      rw [if_pos rfl, h2 (k + 1) (by omega) (by omega), hat k hk, List.prod_cons, mul_comm]
    · rw [if_neg e]
      exact h2 i (by omega) hi'
  · rintro rp ⟨r1, r2⟩
    refine Tot.bind (Tot.forUp (lo := 0) (hi := vs.size) (P := fun k (st : F × Array F) => st.1 * (vs.toList.drop k).prod = 1 ∧ st.2.size = vs.size ∧
      ∀ i, i < k → at' 0 st.2 i * at' 0 vs i = 1) (by omega) ⟨?_, by simp, by omega⟩ ?_) ?_
    · rw [List.drop_zero]
      exact inv_mul_cancel₀ hne
    · rintro k ⟨ip, res⟩ - hk ⟨h1, h2, h3⟩
      dsimp only at h1 h2 h3
      have sk : k < res.size := by omega
      unfold outStep
      dsimp only
      rw [rd_at 0 (by omega), ok_bind, wr_eq sk, ok_bind, rd_at 0 hk, ok_bind]
      rw [hat k hk, List.prod_cons] at h1
      refine Tot.pure ⟨by rw [← h1]; ring, by simpa using h2, ?_⟩
      intro i hi
      dsimp only
      rw [at_set 0 sk]
      by_cases e : k = i
      · subst e
        rw [if_pos rfl, r2 (k + 1) (by omega) (by omega), ← h1]
        ring
      · rw [if_neg e]
        exact h3 i (by omega)
    · rintro ⟨ip, res⟩ ⟨-, h2, h3⟩
      exact Tot.pure ⟨h2, h3⟩

theorem getInvs_assert {vs : Array F} (h : (0 : F) ∈ vs) : getInvs vs = .error .assertion := by
  unfold getInvs
  rw [prod_assert _ _ ⟨0, by simpa using h, rfl⟩, err_bind]

end InvMods

namespace PowMods
open Cxx ModTables
variable {F : Type} [Field F]

/-- The table holds powers. -/
def Inv (b : F) (a : Array F) : Prop := 0 < a.size ∧ ∀ i, i < a.size → at' 0 a i = b ^ i

theorem ensure_tot {b : F} {a : Array F} (h : Inv b a) (n : Nat) : Tot (ensure b a n) fun a' => Inv b a' ∧ n < a'.size := by
  obtain ⟨pos, h⟩ := h
  unfold ensure
  split_ifs with hc
  · exact Tot.pure ⟨⟨pos, h⟩, hc⟩
  · have : Tot (forUp a.size (n + 1) (a ++ Array.replicate (n + 1 - a.size) 0) (powStep b)) fun r => r.size = n + 1 ∧ ∀ i, i < n + 1 → at' 0 r i = b ^ i := by
      refine Tot.forUp (lo := a.size) (hi := n + 1) (P := fun k (r : Array F) => r.size = n + 1 ∧ ∀ i, i < k → at' 0 r i = b ^ i) (by omega) ⟨by simp; omega, ?_⟩ ?_
      · intro i hi
        rw [at_append _ _ _ _ _ hi]
        exact h i hi
      · rintro k r hk hk' ⟨h1, h2⟩
        have sk : k < r.size := by omega
        unfold powStep
        rw [rd_at 0 (by omega), ok_bind, wr_eq sk]
        refine tot_ok.mpr ⟨by simpa using h1, ?_⟩
        intro i hi
        rw [at_set 0 sk]
        by_cases e : k = i
        · subst e
          obtain ⟨j, rfl⟩ : ∃ j, k = j + 1 := ⟨k - 1, by omega⟩
          rw [if_pos rfl, show j + 1 - 1 = j from rfl, h2 j (by omega), pow_succ']
        · rw [if_neg e]
          exact h2 i (by omega)
    refine this.mono ?_
    rintro r ⟨h1, h2⟩
    exact ⟨⟨by omega, fun i hi => h2 i (by omega)⟩, by omega⟩

theorem get_tot {b : F} {a : Array F} (h : Inv b a) (n : Nat) : Tot (get b a n) fun r => Inv b r.1 ∧ r.2 = b ^ n := by
  unfold get
  refine Tot.bind (ensure_tot h n) ?_
  rintro a' ⟨h1, h2⟩
  rw [rd_at 0 h2, ok_bind]
  exact Tot.pure ⟨h1, h1.2 n h2⟩

theorem inv_init (b : F) : Inv b #[1] := by
  refine ⟨by simp, ?_⟩
  intro i hi
  have : i = 0 := by simpa using hi
  subst this
  simp [at']

theorem history_tot (b : F) (is : List Nat) :
    Tot (runOps (get b) #[1] is) fun r => TraceOk (fun (_ : Unit) _ => ()) (fun _ i x => x = b ^ i) () is r.2 := by
  have hvalid : ∀ l : List Nat, ValidOps (fun (_ : Unit) (_ : Nat) => True) (fun _ _ => ()) () l := by
    intro l
    induction l with
    | nil => trivial
    | cons a l ih => exact ⟨trivial, ih⟩
  refine (Cxx.refine (Sim := fun (t : Array F) (_ : Unit) => Inv b t) (Ans := fun _ i x => x = b ^ i) ?_ (inv_init b) (hvalid is)).mono fun r h => h.2
  rintro t - i h -
  exact get_tot h i

end PowMods
