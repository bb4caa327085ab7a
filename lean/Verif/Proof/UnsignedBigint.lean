import Verif.Model.UnsignedBigint
import Verif.Spec.UnsignedBigint
import Verif.Props.ConvolutionNaive
import Mathlib.Algebra.Order.BigOperators.Group.Finset
import Mathlib.Tactic.Linarith
import Mathlib.Tactic.Ring
import Mathlib.Tactic.LinearCombination
import Mathlib.Tactic.NormNum

namespace UBig
open Cxx

theorem D_eq : D = 1000000000 := rfl

theorem bounded_nil : Bounded [] := fun _ h => by simp at h

theorem bounded_cons {x : Int} {a : List Int} : Bounded (x :: a) ↔ (0 ≤ x ∧ x < 1000000000) ∧ Bounded a := by
  unfold Bounded; simp

theorem bounded_append {a b : List Int} : Bounded (a ++ b) ↔ Bounded a ∧ Bounded b := by
  unfold Bounded
  constructor
  · intro h
    exact ⟨fun x hx => h x (by simp [hx]), fun x hx => h x (by simp [hx])⟩
  · rintro ⟨h1, h2⟩ x hx
    rcases List.mem_append.mp hx with hx | hx
    · exact h1 x hx
    · exact h2 x hx

theorem val_append (a b : List Int) : val (a ++ b) = val a + 1000000000 ^ a.length * val b := by
  induction a with
  | nil => simp [val]
  | cons x a ih =>
    simp only [List.cons_append, val, List.length_cons, ih, pow_succ]
    ring

theorem val_zeros (k : Nat) : val (List.replicate k 0) = 0 := by
  induction k with
  | zero => rfl
  | succ k ih => simp [List.replicate_succ, val, ih]

theorem bounded_zeros (k : Nat) : Bounded (List.replicate k 0) := by
  intro x hx
  rw [(List.mem_replicate.mp hx).2]
  omega

theorem val_bound {a : List Int} (h : Bounded a) : 0 ≤ val a ∧ val a < 1000000000 ^ a.length := by
  induction a with
  | nil => simp [val]
  | cons x a ih =>
    obtain ⟨h1, h2⟩ := bounded_cons.mp h
    obtain ⟨g1, g2⟩ := ih h2
    simp only [val, List.length_cons, pow_succ]
    omega

theorem pow_pos' (k : Nat) : (0 : Int) < 1000000000 ^ k := by positivity

/-- A canonical number that is not zero has its number of digits. -/
theorem canon_lower {a : List Int} (h : Canon a) (hn : a ≠ []) : (1000000000 : Int) ^ (a.length - 1) ≤ val a := by
  obtain ⟨h1, h2⟩ := h
  have e := List.dropLast_concat_getLast hn
  have hl := h2 hn
  generalize a.getLast hn = x at e hl
  rw [← e] at h1 ⊢
  obtain ⟨g1, g2⟩ := bounded_append.mp h1
  obtain ⟨g3, -⟩ := bounded_cons.mp g2
  have := (val_bound g1).1
  rw [val_append]
  simp only [val, List.length_append, List.length_cons, List.length_nil, Nat.zero_add, Nat.add_sub_cancel]
  have hx : 1 ≤ x := by omega
  have hp := pow_pos' a.dropLast.length
  nlinarith

/-- A bounded list with that many digits is canonical. -/
theorem canon_of {a : List Int} (h : Bounded a) (hv : a ≠ [] → (1000000000 : Int) ^ (a.length - 1) ≤ val a) : Canon a := by
  refine ⟨h, fun hn h0 => ?_⟩
  have hv := hv hn
  have e := List.dropLast_concat_getLast hn
  rw [h0] at e
  rw [← e] at h hv
  obtain ⟨g1, -⟩ := bounded_append.mp h
  have := (val_bound g1).2
  rw [val_append] at hv
  simp only [val, List.length_append, List.length_cons, List.length_nil, Nat.zero_add, Nat.add_sub_cancel] at hv
  omega

theorem canon_nil : Canon [] := ⟨bounded_nil, fun h => absurd rfl h⟩

theorem cut_spec {a : List Int} (h : Bounded a) : Canon (cut a) ∧ val (cut a) = val a := by
  refine ⟨⟨fun x hx => h x ((List.rdropWhile_prefix _ a).subset hx), fun hn => ?_⟩, ?_⟩
  · have := List.rdropWhile_last_not (fun x : Int => decide (x = 0)) a hn
    simpa [cut] using this
  · unfold cut
    clear h
    induction a using List.reverseRecOn with
    | nil => simp
    | append_singleton a x ih =>
      by_cases hx : x = 0
      · rw [List.rdropWhile_concat_pos _ _ _ (by simpa using hx), ih, val_append, hx]
        simp [val]
      · rw [List.rdropWhile_concat_neg _ _ _ (by simpa using hx)]

theorem digits_tot : ∀ (k : Nat) (v : Int), 0 ≤ v → v < k → Tot (digits k v) fun r => Canon r ∧ val r = v := by
  intro k
  induction k with
  | zero => intro v h1 h2; omega
  | succ k ih =>
    intro v h1 h2
    unfold digits
    split
    · rename_i h
      exact Tot.pure ⟨canon_nil, h.symm⟩
    · rename_i h
      refine Tot.bind (ih (v / D) (by rw [D_eq]; omega) (by rw [D_eq]; omega)) ?_
      rintro r ⟨g1, g2⟩
      refine Tot.pure ⟨canon_of (bounded_cons.mpr ⟨by rw [D_eq]; omega, g1.1⟩) fun _ => ?_, ?_⟩
      · by_cases hr : r = []
        · subst hr
          simp [val] at g2 ⊢
          rw [D_eq] at g2 ⊢
          omega
        · have := canon_lower g1 hr
          have hl : r.length = (r.length - 1) + 1 := by
            have := List.length_pos_iff.mpr hr
            omega
          simp only [List.length_cons, Nat.add_sub_cancel, val]
          rw [hl, pow_succ]
          rw [D_eq]
          omega
      · simp only [val, g2, D_eq]
        omega

theorem i32_ok' {x : Int} (h1 : -2147483648 ≤ x) (h2 : x < 2147483648) : i32 x = .ok x := by
  unfold i32; rw [if_pos (by norm_num; omega)]

theorem incr_tot : ∀ {a : List Int}, Bounded a → Tot (incr a) fun r => Bounded r ∧ val r = val a + 1 ∧ (r.length = a.length ∨ (r.length = a.length + 1 ∧ (1000000000 : Int) ^ a.length ≤ val r)) := by
  intro a
  induction a with
  | nil =>
    intro _
    exact Tot.pure ⟨by intro x hx; simp at hx; omega, by simp [val], by simp [val]⟩
  | cons x a ih =>
    intro h
    obtain ⟨h1, h2⟩ := bounded_cons.mp h
    unfold incr
    rw [i32_ok' (by omega) (by omega), ok_bind]
    split
    · rename_i hc
      rw [D_eq] at hc
      exact Tot.pure ⟨bounded_cons.mpr ⟨by omega, h2⟩, by simp only [val]; ring, .inl rfl⟩
    · rename_i hc
      rw [D_eq] at hc
      refine Tot.bind (ih h2) ?_
      rintro r ⟨g1, g2, g3⟩
      rw [D_eq]
      refine Tot.pure ⟨bounded_cons.mpr ⟨by omega, g1⟩, by simp only [val, g2]; omega, ?_⟩
      simp only [List.length_cons, val]
      rcases g3 with g3 | ⟨g3, g4⟩
      · exact .inl (by omega)
      · refine .inr ⟨by omega, ?_⟩
        rw [pow_succ]
        omega

theorem decrLoop_tot : ∀ {a : List Int}, Bounded a → 0 < val a → Tot (decrLoop a) fun r => Bounded r ∧ val r = val a - 1 := by
  intro a
  induction a with
  | nil => intro _ h; simp [val] at h
  | cons x a ih =>
    intro h hv
    obtain ⟨h1, h2⟩ := bounded_cons.mp h
    unfold decrLoop
    rw [i32_ok' (by omega) (by omega), ok_bind]
    simp only [val] at hv
    split
    · exact Tot.pure ⟨bounded_cons.mpr ⟨by omega, h2⟩, by simp only [val]; ring⟩
    · refine Tot.bind (ih h2 (by omega)) ?_
      rintro r ⟨g1, g2⟩
      rw [D_eq]
      refine Tot.pure ⟨bounded_cons.mpr ⟨by omega, g1⟩, by simp only [val, g2]; omega⟩

theorem addLoop_tot : ∀ (a b : List Int) (c : Int), Bounded a → Bounded b → b.length ≤ a.length → c = 0 ∨ c = 1 →
    Tot (addLoop a b c) fun r => Bounded r.1 ∧ r.1.length = a.length ∧ (r.2 = 0 ∨ r.2 = 1) ∧
      val r.1 + r.2 * 1000000000 ^ a.length = val a + val b + c := by
  intro a
  induction a with
  | nil =>
    intro b c _ _ hl hc
    have : b = [] := List.length_eq_zero_iff.mp (by simpa using hl)
    subst this
    exact Tot.pure ⟨bounded_nil, rfl, hc, by simp [val]⟩
  | cons x a ih =>
    intro b c ha hb hl hc
    obtain ⟨h1, h2⟩ := bounded_cons.mp ha
    have key : ∀ (b : List Int) (y z : Int), Bounded b → b.length ≤ a.length → (0 ≤ y ∧ y < 1000000000) → z = x + y + c →
        Tot (if z ≥ D then do
            let r ← addLoop a b 1
            return ((z - D) :: r.1, r.2)
          else do
            let r ← addLoop a b 0
            return (z :: r.1, r.2) : M (List Int × Int)) fun r => Bounded r.1 ∧ r.1.length = a.length + 1 ∧ (r.2 = 0 ∨ r.2 = 1) ∧
          val r.1 + r.2 * 1000000000 ^ (a.length + 1) = val (x :: a) + val (y :: b) + c := by
      intro b y z hb hl hy hz
      rw [D_eq]
      split
      · refine Tot.bind (ih b 1 h2 hb hl (.inr rfl)) ?_
        rintro r ⟨g1, g2, g3, g4⟩
        refine Tot.pure ⟨bounded_cons.mpr ⟨by omega, g1⟩, by simp [g2], g3, ?_⟩
        simp only [val, pow_succ]
        subst hz
        linear_combination 1000000000 * g4
      · refine Tot.bind (ih b 0 h2 hb hl (.inl rfl)) ?_
        rintro r ⟨g1, g2, g3, g4⟩
        refine Tot.pure ⟨bounded_cons.mpr ⟨by omega, g1⟩, by simp [g2], g3, ?_⟩
        simp only [val, pow_succ]
        subst hz
        linear_combination 1000000000 * g4
    cases b with
    | nil =>
      unfold addLoop
      split
      · rw [i32_ok' (by omega) (by omega), ok_bind]
        have := key [] 0 (x + 1) bounded_nil (Nat.zero_le _) (by omega) (by omega)
        simpa [val] using this
      · refine Tot.pure ⟨ha, rfl, hc, ?_⟩
        have : c = 0 := by omega
        simp [this, val]
    | cons y b =>
      obtain ⟨k1, k2⟩ := bounded_cons.mp hb
      unfold addLoop
      rw [i32_ok' (by omega) (by omega), ok_bind, i32_ok' (by omega) (by omega), ok_bind]
      exact key b y (x + (y + c)) k2 (by simpa using hl) k1 (by ring)

theorem subLoop_tot : ∀ (a b : List Int) (c : Int), Bounded a → Bounded b → b.length ≤ a.length → c = 0 ∨ c = 1 →
    Tot (subLoop a b c) fun r => Bounded r.1 ∧ r.1.length = a.length ∧ (r.2 = 0 ∨ r.2 = 1) ∧
      val r.1 - r.2 * 1000000000 ^ a.length = val a - val b - c := by
  intro a
  induction a with
  | nil =>
    intro b c _ _ hl hc
    have : b = [] := List.length_eq_zero_iff.mp (by simpa using hl)
    subst this
    exact Tot.pure ⟨bounded_nil, rfl, hc, by simp [val]⟩
  | cons x a ih =>
    intro b c ha hb hl hc
    obtain ⟨h1, h2⟩ := bounded_cons.mp ha
    have key : ∀ (b : List Int) (y z : Int), Bounded b → b.length ≤ a.length → (0 ≤ y ∧ y < 1000000000) → z = x - y - c →
        Tot (if z < 0 then do
            let r ← subLoop a b 1
            return ((z + D) :: r.1, r.2)
          else do
            let r ← subLoop a b 0
            return (z :: r.1, r.2) : M (List Int × Int)) fun r => Bounded r.1 ∧ r.1.length = a.length + 1 ∧ (r.2 = 0 ∨ r.2 = 1) ∧
          val r.1 - r.2 * 1000000000 ^ (a.length + 1) = val (x :: a) - val (y :: b) - c := by
      intro b y z hb hl hy hz
      rw [D_eq]
      split
      · refine Tot.bind (ih b 1 h2 hb hl (.inr rfl)) ?_
        rintro r ⟨g1, g2, g3, g4⟩
        refine Tot.pure ⟨bounded_cons.mpr ⟨by omega, g1⟩, by simp [g2], g3, ?_⟩
        simp only [val, pow_succ]
        subst hz
        linear_combination 1000000000 * g4
      · refine Tot.bind (ih b 0 h2 hb hl (.inl rfl)) ?_
        rintro r ⟨g1, g2, g3, g4⟩
        refine Tot.pure ⟨bounded_cons.mpr ⟨by omega, g1⟩, by simp [g2], g3, ?_⟩
        simp only [val, pow_succ]
        subst hz
        linear_combination 1000000000 * g4
    cases b with
    | nil =>
      unfold subLoop
      split
      · rw [i32_ok' (by omega) (by omega), ok_bind]
        have := key [] 0 (x - 1) bounded_nil (Nat.zero_le _) (by omega) (by omega)
        simpa [val] using this
      · refine Tot.pure ⟨ha, rfl, hc, ?_⟩
        have : c = 0 := by omega
        simp [this, val]
    | cons y b =>
      obtain ⟨k1, k2⟩ := bounded_cons.mp hb
      unfold subLoop
      rw [i32_ok' (by omega) (by omega), ok_bind, i32_ok' (by omega) (by omega), ok_bind]
      exact key b y (x - (y + c)) k2 (by simpa using hl) k1 (by ring)

/-- More digits, larger number. -/
theorem length_lt {a b : List Int} (ha : Canon a) (hb : Canon b) (h : a.length < b.length) : val a < val b := by
  have hn : b ≠ [] := by intro e; simp [e] at h
  have h1 := canon_lower hb hn
  have h2 := (val_bound ha.1).2
  have h3 : (1000000000 : Int) ^ a.length ≤ 1000000000 ^ (b.length - 1) := pow_le_pow_right₀ (by norm_num) (by omega)
  omega

theorem add_tot {a b : List Int} (ha : Canon a) (hb : Canon b) : Tot (add a b) fun r => Canon r ∧ val r = val a + val b := by
  have va := (val_bound ha.1).1
  have vb := (val_bound hb.1).1
  obtain ⟨a', e, hl, hba, hva, hlen⟩ : ∃ a', (if a.length < b.length then a ++ List.replicate (b.length - a.length) 0 else a) = a' ∧
      b.length ≤ a'.length ∧ Bounded a' ∧ val a' = val a ∧ (a' ≠ [] → (1000000000 : Int) ^ (a'.length - 1) ≤ val a + val b) := by
    refine ⟨_, rfl, ?_, ?_, ?_, ?_⟩
    · split <;> (try simp) <;> omega
    · split
      · exact bounded_append.mpr ⟨ha.1, bounded_zeros _⟩
      · exact ha.1
    · split
      · rw [val_append, val_zeros]; ring
      · rfl
    · split
      · rename_i hc
        intro _
        have hn : b ≠ [] := by intro e; simp [e] at hc
        have := canon_lower hb hn
        rw [List.length_append, List.length_replicate, show a.length + (b.length - a.length) = b.length by omega]
        omega
      · intro hn
        have := canon_lower ha hn
        omega
  unfold add
  dsimp only
  rw [e]
  refine Tot.bind (addLoop_tot a' b 0 hba hb.1 hl (.inl rfl)) ?_
  rintro r ⟨g1, g2, g3, g4⟩
  rw [hva] at g4
  split
  · rename_i hc
    have h1 : r.2 = 1 := by omega
    rw [h1] at g4
    have hv : val (r.1 ++ [1]) = val a + val b := by
      rw [val_append, g2]
      simp only [val]
      linarith
    refine Tot.pure ⟨⟨bounded_append.mpr ⟨g1, by intro x hx; simp at hx; omega⟩, fun _ => by simp⟩, hv⟩
  · rename_i hc
    have h0 : r.2 = 0 := by omega
    rw [h0] at g4
    refine Tot.pure ⟨canon_of g1 fun hn => ?_, by linarith⟩
    rw [g2, show val r.1 = val a + val b by linarith]
    refine hlen ?_
    intro e
    rw [e] at g2
    exact hn (List.length_eq_zero_iff.mp g2)

theorem sub_tot {a b : List Int} (ha : Canon a) (hb : Canon b) (h : val b ≤ val a) : Tot (sub a b) fun r => Canon r ∧ val r = val a - val b := by
  have hl : b.length ≤ a.length := by
    by_contra hc
    have := length_lt ha hb (by omega)
    omega
  unfold sub
  rw [decide_eq_true hl, check_true, ok_bind]
  refine Tot.bind (subLoop_tot a b 0 ha.1 hb.1 hl (.inl rfl)) ?_
  rintro r ⟨g1, g2, g3, g4⟩
  have hb1 := val_bound g1
  rw [g2] at hb1
  have h0 : r.2 = 0 := by
    rcases g3 with g3 | g3
    · exact g3
    · rw [g3] at g4; omega
  rw [decide_eq_true h0, check_true, ok_bind]
  obtain ⟨k1, k2⟩ := cut_spec g1
  refine Tot.pure ⟨k1, ?_⟩
  rw [k2]
  rw [h0] at g4
  linarith

theorem sub_fail {a b : List Int} (ha : Canon a) (hb : Canon b) (h : val a < val b) : sub a b = .error .assertion := by
  unfold sub
  by_cases hl : b.length ≤ a.length
  · rw [decide_eq_true hl, check_true, ok_bind]
    obtain ⟨r, hr, g1, g2, g3, g4⟩ := subLoop_tot a b 0 ha.1 hb.1 hl (.inl rfl)
    rw [hr, ok_bind]
    have h0 : ¬ r.2 = 0 := by
      intro e
      rw [e] at g4
      have := (val_bound g1).1
      omega
    rw [decide_eq_false h0]
    rfl
  · rw [decide_eq_false (by omega)]
    rfl

theorem ltRev_iff : ∀ {a b : List Int}, a.length = b.length → Bounded a → Bounded b → (ltRev a b = true ↔ val a.reverse < val b.reverse) := by
  intro a
  induction a with
  | nil =>
    intro b h _ _
    have : b = [] := List.length_eq_zero_iff.mp (by simpa using h.symm)
    subst this
    simp [ltRev]
  | cons x a ih =>
    intro b h ha hb
    cases b with
    | nil => simp at h
    | cons y b =>
      obtain ⟨h1, h2⟩ := bounded_cons.mp ha
      obtain ⟨k1, k2⟩ := bounded_cons.mp hb
      have hl : a.length = b.length := by simpa using h
      have e1 := val_bound (a := a.reverse) (fun z hz => h2 z (by simpa using hz))
      have e2 := val_bound (a := b.reverse) (fun z hz => k2 z (by simpa using hz))
      have hi := ih hl h2 k2
      simp only [List.reverse_cons, val_append, val, List.length_reverse] at e1 e2 ⊢
      rw [← hl] at e2 ⊢
      generalize val a.reverse = u at *
      generalize val b.reverse = v at *
      generalize (1000000000 : Int) ^ a.length = P at *
      unfold ltRev
      split
      · rename_i hne
        rw [decide_eq_true_iff]
        constructor
        · intro hxy
          have : P * (x + 1) ≤ P * y := by
            apply mul_le_mul_of_nonneg_left <;> omega
          nlinarith
        · intro hv
          by_contra hc
          have : P * (y + 1) ≤ P * x := by
            apply mul_le_mul_of_nonneg_left <;> omega
          nlinarith
      · rename_i hne
        have : x = y := not_not.mp hne
        subst this
        rw [hi]
        constructor <;> intro <;> omega

theorem lt_iff {a b : List Int} (ha : Canon a) (hb : Canon b) : lt a b = true ↔ val a < val b := by
  unfold lt
  split
  · rename_i h
    rw [decide_eq_true_iff]
    constructor
    · exact length_lt ha hb
    · intro hv
      by_contra hc
      have := length_lt hb ha (by omega)
      omega
  · rename_i h
    have := ltRev_iff (a := a.reverse) (b := b.reverse) (by simpa using h) (fun z hz => ha.1 z (by simpa using hz)) (fun z hz => hb.1 z (by simpa using hz))
    rw [this, List.reverse_reverse, List.reverse_reverse]

theorem val_inj : ∀ {a b : List Int}, Bounded a → Bounded b → a.length = b.length → val a = val b → a = b := by
  intro a
  induction a with
  | nil =>
    intro b _ _ h _
    exact (List.length_eq_zero_iff.mp (by simpa using h.symm)).symm
  | cons x a ih =>
    intro b ha hb hl hv
    cases b with
    | nil => simp at hl
    | cons y b =>
      obtain ⟨h1, h2⟩ := bounded_cons.mp ha
      obtain ⟨k1, k2⟩ := bounded_cons.mp hb
      simp only [val] at hv
      have e : x = y := by omega
      subst e
      rw [ih h2 k2 (by simpa using hl) (by omega)]

theorem canon_inj {a b : List Int} (ha : Canon a) (hb : Canon b) (h : val a = val b) : a = b := by
  refine val_inj ha.1 hb.1 ?_ h
  by_contra hc
  rcases Nat.lt_or_gt_of_ne hc with hc | hc
  · have := length_lt ha hb hc; omega
  · have := length_lt hb ha hc; omega

theorem buildLoop_tot : ∀ (dat : List Int) (c : Int), (∀ x ∈ dat, 0 ≤ x) → 0 ≤ c → Tot (buildLoop dat c) fun r => Bounded r ∧ val r = val dat + c := by
  intro dat
  induction dat with
  | nil =>
    intro c _ hc
    unfold buildLoop
    refine (digits_tot _ c hc (by omega)).mono ?_
    rintro r ⟨h1, h2⟩
    exact ⟨h1.1, by simp [val, h2]⟩
  | cons v dat ih =>
    intro c hd hc
    have hv := hd v (by simp)
    unfold buildLoop
    rw [D_eq]
    refine Tot.bind (ih ((c + v) / 1000000000) (fun x hx => hd x (by simp [hx])) (by omega)) ?_
    rintro r ⟨g1, g2⟩
    refine Tot.pure ⟨bounded_cons.mpr ⟨by omega, g1⟩, ?_⟩
    simp only [val, g2]
    omega

theorem build_tot {dat : List Int} (h : ∀ x ∈ dat, 0 ≤ x) : Tot (build dat) fun r => Canon r ∧ val r = val dat := by
  unfold build
  refine Tot.bind (buildLoop_tot dat 0 h (by omega)) ?_
  rintro r ⟨g1, g2⟩
  obtain ⟨k1, k2⟩ := cut_spec g1
  exact Tot.pure ⟨k1, by rw [k2, g2]; ring⟩

theorem val_sum : ∀ (l : List Int), val l = ∑ i : Fin l.length, l[i] * 1000000000 ^ i.1 := by
  intro l
  induction l with
  | nil => simp [val]
  | cons x l ih =>
    rw [val, ih]
    simp only [List.length_cons]
    rw [Fin.sum_univ_succ]
    simp only [Fin.getElem_fin, Fin.val_zero, List.getElem_cons_zero, pow_zero, mul_one, Fin.val_succ, List.getElem_cons_succ, pow_succ]
    rw [Finset.mul_sum]
    congr 1
    refine Finset.sum_congr rfl fun i _ => ?_
    ring

theorem coef_nonneg {a b : Array Int} (ha : ∀ x ∈ a, 0 ≤ x) (hb : ∀ x ∈ b, 0 ≤ x) (k : Nat) : 0 ≤ ConvNaive.coef (fun x : Int => x) a b k := by
  unfold ConvNaive.coef
  refine Finset.sum_nonneg fun i _ => Finset.sum_nonneg fun j _ => ?_
  split
  · exact mul_nonneg (ha _ (by simp)) (hb _ (by simp))
  · exact le_refl 0

theorem coef_val (a b : List Int) :
    ∑ k ∈ Finset.range (a.length + b.length - 1), ConvNaive.coef (fun x : Int => x) a.toArray b.toArray k * 1000000000 ^ k = val a * val b := by
  rw [val_sum a, val_sum b, Finset.sum_mul_sum]
  unfold ConvNaive.coef
  simp only [Finset.sum_mul]
  rw [Finset.sum_comm]
  refine Finset.sum_congr rfl fun i _ => ?_
  rw [Finset.sum_comm]
  refine Finset.sum_congr rfl fun j _ => ?_
  have hi : i.1 < a.length := by simpa using i.2
  have hj : j.1 < b.length := by simpa using j.2
  rw [Finset.sum_eq_single (i.1 + j.1)]
  · rw [if_pos rfl, pow_add]
    simp
    ring
  · intro k _ hk
    rw [if_neg (Ne.symm hk)]
    ring
  · intro h
    exact absurd (Finset.mem_range.mpr (by omega)) h

/-- The carries of a convolution. -/
theorem build_coef {a b c : List Int} (ha : Bounded a) (hb : Bounded b) (g1 : c.length = a.length + b.length - 1)
    (g2 : ∀ k < a.length + b.length - 1, c[k]? = some (ConvNaive.coef (fun x : Int => x) a.toArray b.toArray k)) :
    Tot (build c) fun r => Canon r ∧ val r = val a * val b := by
  have hnn : ∀ x ∈ c, 0 ≤ x := by
    intro x hx
    obtain ⟨k, hk, e⟩ := List.mem_iff_getElem.mp hx
    have := g2 k (by omega)
    rw [List.getElem?_eq_getElem hk] at this
    rw [← e, Option.some.inj this]
    exact coef_nonneg (fun x hx => (ha x (by simpa using hx)).1) (fun x hx => (hb x (by simpa using hx)).1) k
  refine (build_tot hnn).mono ?_
  rintro r ⟨k1, k2⟩
  refine ⟨k1, ?_⟩
  rw [k2, ← coef_val, val_sum, ← g1, Finset.sum_range]
  refine Finset.sum_congr rfl fun i _ => ?_
  have := g2 i.1 (by omega)
  rw [List.getElem?_eq_getElem i.2] at this
  have := Option.some.inj this
  rw [← this]
  rfl

theorem mulNaive_tot {a b : List Int} (ha : Bounded a) (hb : Bounded b) (h : a ≠ [] ∨ b ≠ []) :
    Tot (mulNaive a b) fun r => Canon r ∧ val r = val a * val b := by
  have h0 : 0 < a.toArray.size + b.toArray.size := by
    rcases h with h | h
    · have := List.length_pos_iff.mpr h
      simp; omega
    · have := List.length_pos_iff.mpr h
      simp; omega
  unfold mulNaive
  refine Tot.bind (ConvNaive.naive_partial (fun x : Int => x) a.toArray b.toArray h0) ?_
  rintro c ⟨g1, g2⟩
  simp only [List.size_toArray] at g1 g2
  refine build_coef ha hb (by simpa using g1) fun k hk => ?_
  rw [Array.getElem?_toList]
  exact g2 k hk

theorem part_spec {a : List Int} (ha : Bounded a) (l r : Nat) : Canon (part a l r) ∧ val (part a l r) = val ((a.take r).drop l) :=
  cut_spec fun x hx => ha x (List.mem_of_mem_take (List.mem_of_mem_drop hx))

theorem part_length (a : List Int) (l r : Nat) : (part a l r).length ≤ min r a.length - l := by
  have := (List.rdropWhile_prefix (fun x : Int => decide (x = 0)) ((a.take r).drop l)).length_le
  unfold part cut
  simpa using this

/-- The two halves. -/
theorem part_val {a : List Int} (ha : Bounded a) {m : Nat} : val a = val (part a 0 m) + 1000000000 ^ m * val (part a m a.length) := by
  rw [(part_spec ha _ _).2, (part_spec ha _ _).2, List.take_length, List.drop_zero]
  by_cases h : m ≤ a.length
  · conv_lhs => rw [← List.take_append_drop m a]
    rw [val_append, List.length_take, min_eq_left h]
  · rw [List.take_of_length_le (by omega), List.drop_of_length_le (by omega)]
    simp [val]

theorem shl_spec {a : List Int} (ha : Canon a) (m : Nat) : Canon (shl a m) ∧ val (shl a m) = 1000000000 ^ m * val a := by
  unfold shl toBool
  by_cases h : a = []
  · subst h
    exact ⟨canon_nil, by simp [val]⟩
  · have e : (!a.isEmpty) = true := by simpa using h
    rw [if_pos e]
    refine ⟨⟨bounded_append.mpr ⟨bounded_zeros _, ha.1⟩, fun _ => ?_⟩, ?_⟩
    · rw [List.getLast_append_of_ne_nil _ h]
      exact ha.2 h
    · rw [val_append, val_zeros, List.length_replicate]
      ring

/-- The absolute difference. -/
theorem absdiff_tot {x y : List Int} (hx : Canon x) (hy : Canon y) : Tot (absdiff x y) fun r =>
    Canon r ∧ val r = if lt x y then val y - val x else val x - val y := by
  unfold absdiff
  by_cases h : lt x y = true
  · rw [h]
    exact sub_tot hy hx ((lt_iff hx hy).mp h).le
  · have h' : lt x y = false := by simpa using h
    rw [h']
    refine sub_tot hx hy ?_
    by_contra hc
    exact h ((lt_iff hx hy).mpr (by omega))

/-- The outcome is right, or the exception. -/
def Or' (m : M (List Int)) (v : Int) : Prop := (Tot m fun r => Canon r ∧ val r = v) ∨ m = .error .assertion

theorem Or'.bind {m : M (List Int)} {v w : Int} {f : List Int → M (List Int)} (h : Or' m v) (hf : ∀ r, Canon r → val r = v → Or' (f r) w) :
    Or' (m >>= f) w := by
  rcases h with ⟨r, e, h1, h2⟩ | h
  · rw [e, ok_bind]
    exact hf r h1 h2
  · rw [h]
    exact .inr rfl

theorem Or'.tot {m : M (List Int)} {Q : List Int → Prop} {w : Int} {f : List Int → M (List Int)} (h : Tot m Q) (hf : ∀ r, Q r → Or' (f r) w) :
    Or' (m >>= f) w := by
  obtain ⟨r, e, h⟩ := h
  rw [e, ok_bind]
  exact hf r h

theorem mulF_sound {conv : List Int → List Int → M (List Int)}
    (hconv : ∀ a b, Canon a → Canon b → a ≠ [] → b ≠ [] → Tot (conv a b) fun c => c.length = a.length + b.length - 1 ∧
      ∀ k < a.length + b.length - 1, c[k]? = some (ConvNaive.coef (fun x : Int => x) a.toArray b.toArray k)) :
    ∀ (k : Nat) (a b : List Int), Canon a → Canon b → max a.length b.length < k → Or' (mulF conv k a b) (val a * val b) := by
  intro k
  induction k with
  | zero => intro a b _ _ h; omega
  | succ k ih =>
    intro a b ha hb hk
    unfold mulF
    split
    · by_cases h : a ≠ [] ∨ b ≠ []
      · exact .inl (mulNaive_tot ha.1 hb.1 h)
      · have h1 : a = [] := by by_contra hc; exact h (.inl hc)
        have h2 : b = [] := by by_contra hc; exact h (.inr hc)
        subst h1 h2
        exact .inr rfl
    · rename_i h64
      split
      · dsimp only
        generalize hm : max a.length b.length / 2 = m
        obtain ⟨la, -⟩ := part_spec ha.1 0 m
        obtain ⟨ua, -⟩ := part_spec ha.1 m a.length
        obtain ⟨lb, -⟩ := part_spec hb.1 0 m
        obtain ⟨ub, -⟩ := part_spec hb.1 m b.length
        have va := part_val ha.1 (m := m)
        have vb := part_val hb.1 (m := m)
        have l1 := part_length a 0 m
        have l2 := part_length a m a.length
        have l3 := part_length b 0 m
        have l4 := part_length b m b.length
        generalize part a 0 m = loA at *
        generalize part a m a.length = hiA at *
        generalize part b 0 m = loB at *
        generalize part b m b.length = hiB at *
        refine Or'.bind (ih loA loB la lb (by omega)) fun loC cl vl => ?_
        refine Or'.bind (ih hiA hiB ua ub (by omega)) fun hiC cu vu => ?_
        have na := (val_bound la.1).1
        have nua := (val_bound ua.1).1
        have nb := (val_bound lb.1).1
        have nub := (val_bound ub.1).1
        have bound : ∀ x y r : List Int, Canon x → Canon y → Canon r → val r = (if lt x y then val y - val x else val x - val y) →
            0 ≤ val x → 0 ≤ val y → r.length ≤ max x.length y.length := by
          intro x y r hx hy hr hv h1 h2
          by_contra hc
          have g1 := length_lt hx hr (by omega)
          have g2 := length_lt hy hr (by omega)
          split at hv <;> omega
        refine Or'.tot (absdiff_tot ua la) ?_
        rintro mdA ⟨cA, vA⟩
        refine Or'.tot (absdiff_tot ub lb) ?_
        rintro mdB ⟨cB, vB⟩
        have bA := bound _ _ _ ua la cA vA nua na
        have bB := bound _ _ _ ub lb cB vB nub nb
        refine Or'.bind (ih mdA mdB cA cB (by omega)) fun mdAB cAB vAB => ?_
        obtain ⟨c1, v1⟩ := shl_spec cu m
        refine Or'.tot (add_tot c1 cl) ?_
        rintro s ⟨c2, v2⟩
        refine Or'.tot (add_tot c2 cu) ?_
        rintro s' ⟨c3, v3⟩
        obtain ⟨c4, -⟩ := part_spec cl.1 m loC.length
        obtain ⟨c5, -⟩ := part_spec cl.1 0 m
        have v5 := part_val cl.1 (m := m)
        generalize part loC m loC.length = qC at *
        generalize part loC 0 m = rC at *
        refine Or'.tot (add_tot c3 c4) ?_
        rintro mdC ⟨c6, v6⟩
        have nq := (val_bound c4.1).1
        have hP := pow_pos' m
        generalize hPe : (1000000000 : Int) ^ m = P at *
        have fin : ∀ md : List Int, Canon md → val md = P * val hiC + val qC + val hiA * val loB + val loA * val hiB →
            Or' (do let c ← add (shl md m) rC; return cut c) (val a * val b) := by
          intro md hmd vmd
          obtain ⟨c7, v7⟩ := shl_spec hmd m
          refine Or'.tot (add_tot c7 c5) ?_
          rintro c ⟨c8, v8⟩
          obtain ⟨c9, v9⟩ := cut_spec c8.1
          refine .inl (Tot.pure ⟨c9, ?_⟩)
          rw [v9, v8, v7, hPe, vmd, va, vb]
          linear_combination P ^ 2 * vu + vl - v5
        have n1 : 0 ≤ val hiA * val loB := mul_nonneg nua nb
        have n2 : 0 ≤ val loA * val hiB := mul_nonneg na nub
        have n3 : 0 ≤ P * val hiC := mul_nonneg hP.le (val_bound cu.1).1
        have vC : val mdC = P * val hiC + val loC + val hiC + val qC := by rw [v6, v3, v2, v1]
        have same : ∀ v : Int, val mdAB = v → v = (val hiA - val loA) * (val hiB - val loB) → val mdC - val mdAB =
            P * val hiC + val qC + val hiA * val loB + val loA * val hiB := by
          intro v e1 e2
          rw [e1, e2, vC]
          linear_combination vl + vu
        by_cases hn : ((!lt hiA loA) == (!lt hiB loB)) = true
        · rw [hn]
          have e : val mdAB = (val hiA - val loA) * (val hiB - val loB) := by
            rw [vAB, vA, vB]
            cases h1 : lt hiA loA <;> cases h2 : lt hiB loB <;> simp [h1, h2] at hn ⊢
            ring
          have e' := same _ e rfl
          refine Or'.tot (sub_tot c6 cAB (by omega)) ?_
          rintro md ⟨c7, v7⟩
          exact fin md c7 (by rw [v7, e'])
        · have hn' : ((!lt hiA loA) == (!lt hiB loB)) = false := by simpa using hn
          rw [hn']
          have e : val mdAB = -((val hiA - val loA) * (val hiB - val loB)) := by
            rw [vAB, vA, vB]
            cases h1 : lt hiA loA <;> cases h2 : lt hiB loB <;> simp [h1, h2] at hn' ⊢ <;> ring
          refine Or'.tot (add_tot c6 cAB) ?_
          rintro md ⟨c7, v7⟩
          refine fin md c7 ?_
          rw [v7, e, vC]
          linear_combination vl + vu
      · have hn : a ≠ [] ∧ b ≠ [] := by
          constructor <;> (rintro rfl; simp at h64)
        refine Or'.tot (hconv a b ha hb hn.1 hn.2) fun c hc => .inl (build_coef ha.1 hb.1 hc.1 hc.2)

theorem decimal_append (s t : List Char) : decimal (s ++ t) = decimal s * 10 ^ t.length + decimal t := by
  unfold decimal
  have : ∀ (t : List Char) (v : Int), t.foldl (fun v c => v * 10 + ((c.toNat : Int) - 48)) v =
      v * 10 ^ t.length + t.foldl (fun v c => v * 10 + ((c.toNat : Int) - 48)) 0 := by
    intro t
    induction t with
    | nil => intro v; simp
    | cons c t ih =>
      intro v
      simp only [List.foldl_cons, List.length_cons]
      rw [ih (v * 10 + _), ih (0 * 10 + _), pow_succ]
      ring
  rw [List.foldl_append, this]

theorem word_tot : ∀ (s : List Char) (v : Int) (k : Nat), (∀ c ∈ s, c.isDigit = true) → 0 ≤ v → v < 10 ^ k → k + s.length ≤ 9 →
    Tot (word s v) fun w => w = v * 10 ^ s.length + decimal s ∧ 0 ≤ w ∧ w < 10 ^ (k + s.length) := by
  intro s
  induction s with
  | nil =>
    intro v k _ h1 h2 _
    exact Tot.pure ⟨by simp [decimal], h1, by simpa using h2⟩
  | cons c s ih =>
    intro v k hs h1 h2 h3
    have hc := hs c (by simp)
    have hd : 48 ≤ c.toNat ∧ c.toNat ≤ 57 := by
      have := hc
      unfold Char.isDigit at this
      simp [UInt32.le_iff_toNat_le] at this
      exact this
    simp only [List.length_cons] at h3
    have hk : (10 : Int) ^ (k + 1) ≤ 10 ^ 9 := pow_le_pow_right₀ (by norm_num) (by omega)
    rw [pow_succ] at hk
    unfold word
    dsimp only
    rw [decide_eq_true (by omega), check_true, ok_bind, i32_ok' (by omega) (by omega), ok_bind, i32_ok' (by omega) (by omega), ok_bind]
    refine (ih (v * 10 + ((c.toNat : Int) - 48)) (k + 1) (fun x hx => hs x (by simp [hx])) (by omega) (by rw [pow_succ]; omega) (by omega)).mono ?_
    rintro w ⟨g1, g2, g3⟩
    refine ⟨?_, g2, ?_⟩
    · rw [g1]
      have e := decimal_append [c] s
      simp only [List.singleton_append] at e
      rw [e, List.length_cons, pow_succ]
      simp only [decimal, List.foldl_cons, List.foldl_nil]
      ring
    · rw [List.length_cons, show k + (s.length + 1) = k + 1 + s.length by omega]
      exact g3

theorem words_tot (s : List Char) (hs : ∀ c ∈ s, c.isDigit = true) : ∀ (k i : Nat), i < k → i ≤ s.length →
    Tot (words s k i) fun r => Bounded r ∧ val r = decimal (s.take i) ∧ r.length = (i + 8) / 9 := by
  intro k
  induction k with
  | zero => intro i h; omega
  | succ k ih =>
    intro i hi hl
    unfold words
    split
    · rename_i h
      subst h
      exact Tot.pure ⟨bounded_nil, by simp [val, decimal], by simp⟩
    · rename_i h
      have hlen : ((s.take i).drop (i - 9)).length = i - (i - 9) := by simp; omega
      refine Tot.bind (word_tot ((s.take i).drop (i - 9)) 0 0 (fun c hc => hs c (List.mem_of_mem_take (List.mem_of_mem_drop hc))) (by omega) (by norm_num)
        (by rw [hlen]; omega)) ?_
      rintro v ⟨g1, g2, g3⟩
      refine Tot.bind (ih (i - 9) (by omega) (by omega)) ?_
      rintro r ⟨k1, k2, k3⟩
      have hb : v < 1000000000 := by
        refine lt_of_lt_of_le g3 ?_
        rw [hlen]
        refine le_trans (pow_le_pow_right₀ (by norm_num) (show 0 + (i - (i - 9)) ≤ 9 by omega)) (by norm_num)
      refine Tot.pure ⟨bounded_cons.mpr ⟨⟨g2, hb⟩, k1⟩, ?_, by rw [List.length_cons, k3]; omega⟩
      simp only [val, k2]
      have e := decimal_append ((s.take i).take (i - 9)) ((s.take i).drop (i - 9))
      rw [List.take_append_drop, List.take_take, min_eq_left (by omega), hlen] at e
      rw [e, g1]
      by_cases h9 : 9 ≤ i
      · rw [show i - (i - 9) = 9 by omega]
        ring
      · rw [show i - 9 = 0 by omega]
        simp [decimal]

theorem digit_range {c : Char} (h : c.isDigit = true) : 48 ≤ c.toNat ∧ c.toNat ≤ 57 := by
  unfold Char.isDigit at h
  simp [UInt32.le_iff_toNat_le] at h
  exact h

theorem decimal_nonneg : ∀ {s : List Char}, (∀ c ∈ s, c.isDigit = true) → 0 ≤ decimal s := by
  intro s
  induction s with
  | nil => intro _; simp [decimal]
  | cons c s ih =>
    intro h
    have e := decimal_append [c] s
    simp only [List.singleton_append] at e
    rw [e]
    have h1 := ih fun x hx => h x (by simp [hx])
    have h2 := digit_range (h c (by simp))
    have : 0 ≤ decimal [c] := by simp only [decimal, List.foldl_cons, List.foldl_nil]; omega
    positivity

/-- A string that does not begin with `'0'` denotes a number of that length. -/
theorem decimal_lower {c : Char} {s : List Char} (h : ∀ x ∈ c :: s, x.isDigit = true) (h0 : c ≠ '0') : (10 : Int) ^ s.length ≤ decimal (c :: s) := by
  have e := decimal_append [c] s
  simp only [List.singleton_append] at e
  rw [e]
  have h1 := decimal_nonneg (s := s) fun x hx => h x (List.mem_cons_of_mem _ hx)
  have h2 := digit_range (h c (by simp))
  have h3 : c.toNat ≠ 48 := fun e => h0 (Char.toNat_inj.mp e)
  have : 1 ≤ decimal [c] := by simp only [decimal, List.foldl_cons, List.foldl_nil]; omega
  have hp : (0 : Int) < 10 ^ s.length := by positivity
  nlinarith

theorem divLoop_tot {b0 : Int} (h0 : 0 < b0) (h1 : b0 < 1000000000) : ∀ (s : List Int) (r : Int), Bounded s → 0 ≤ r → r < b0 →
    Tot (divLoop b0 s r) fun p => Bounded p.1 ∧ p.1.length = s.length ∧ 0 ≤ p.2 ∧ p.2 < b0 ∧
      val s.reverse + r * 1000000000 ^ s.length = b0 * val p.1.reverse + p.2 := by
  intro s
  induction s with
  | nil =>
    intro r _ h2 h3
    exact Tot.pure ⟨bounded_nil, rfl, h2, h3, by simp [val]⟩
  | cons x s ih =>
    intro r hs h2 h3
    obtain ⟨k1, k2⟩ := bounded_cons.mp hs
    unfold divLoop
    rw [D_eq, i64_ok (by norm_num; omega), ok_bind, i64_ok (by norm_num; omega), ok_bind, if_neg (by omega)]
    have hn : 0 ≤ r * 1000000000 + x := by omega
    rw [Int.tdiv_eq_ediv_of_nonneg hn, Int.tmod_eq_emod_of_nonneg hn]
    have e := Int.mul_ediv_add_emod (r * 1000000000 + x) b0
    have m1 := Int.emod_nonneg (r * 1000000000 + x) (show b0 ≠ 0 by omega)
    have m2 := Int.emod_lt_of_pos (r * 1000000000 + x) h0
    have q1 : 0 ≤ (r * 1000000000 + x) / b0 := Int.ediv_nonneg hn h0.le
    have q2 : (r * 1000000000 + x) / b0 < 1000000000 := by
      refine Int.ediv_lt_of_lt_mul h0 ?_
      nlinarith
    refine Tot.bind (ih _ k2 m1 m2) ?_
    rintro p ⟨g1, g2, g3, g4, g5⟩
    refine Tot.pure ⟨bounded_cons.mpr ⟨⟨q1, q2⟩, g1⟩, by simp [g2], g3, g4, ?_⟩
    simp only [List.reverse_cons, val_append, val, List.length_reverse, List.length_cons, g2, pow_succ]
    linear_combination g5 - 1000000000 ^ s.length * e

theorem shr_spec {a : List Int} (ha : Canon a) (k : Nat) : Canon (shr a k) ∧ val (shr a k) = val a / 1000000000 ^ k := by
  have e : shr a k = a.drop k := by
    unfold shr
    by_cases h : k ≤ a.length
    · rw [min_eq_left h]
    · rw [min_eq_right (by omega), List.drop_length, List.drop_of_length_le (by omega)]
  rw [e]
  refine ⟨⟨fun x hx => ha.1 x (List.mem_of_mem_drop hx), fun hn => ?_⟩, ?_⟩
  · rw [List.getLast_drop]
    exact ha.2 _
  · have hb : Bounded (a.take k) := fun x hx => ha.1 x (List.mem_of_mem_take hx)
    have h1 := val_bound hb
    have h2 : val a = val (a.take k) + 1000000000 ^ (a.take k).length * val (a.drop k) := by
      conv_lhs => rw [← List.take_append_drop k a]
      rw [val_append]
    have hp := pow_pos' k
    by_cases h : k ≤ a.length
    · rw [List.length_take, min_eq_left h] at h1 h2
      rw [h2, Int.add_mul_ediv_left _ _ (by omega), Int.ediv_eq_zero_of_lt h1.1 h1.2, zero_add]
    · rw [List.drop_of_length_le (by omega)]
      have h3 := val_bound ha.1
      have h4 : (1000000000 : Int) ^ a.length ≤ 1000000000 ^ k := pow_le_pow_right₀ (by norm_num) (by omega)
      rw [Int.ediv_eq_zero_of_lt h3.1 (by omega)]
      rfl

theorem toNat_digit {n : Nat} (h : n < 10) : (Char.ofNat (48 + n)).toNat = 48 + n ∧ (Char.ofNat (48 + n)).isDigit = true := by
  revert h
  revert n
  decide

theorem decimal_single {n : Nat} (h : n < 10) : decimal [Char.ofNat (48 + n)] = n := by
  simp only [decimal, List.foldl_cons, List.foldl_nil, (toNat_digit h).1]
  push_cast
  ring

theorem dec_spec : ∀ (k n : Nat), n < 10 ^ k → 0 < k → decimal (dec k n) = n ∧ (∀ c ∈ dec k n, c.isDigit = true) ∧ (dec k n).length ≤ k ∧
    (0 < n → (dec k n).head? ≠ some '0') ∧ dec k n ≠ [] := by
  intro k
  induction k with
  | zero => intro n _ h; omega
  | succ k ih =>
    intro n hn _
    unfold dec
    by_cases hc : n < 10
    · rw [if_pos hc]
      refine ⟨decimal_single hc, ?_, by simp, ?_, by simp⟩
      · intro c h
        rw [List.mem_singleton.mp h]
        exact (toNat_digit hc).2
      · intro h0 e
        simp only [List.head?_cons, Option.some.injEq] at e
        have := congrArg Char.toNat e
        rw [(toNat_digit hc).1] at this
        have h48 : Char.toNat '0' = 48 := rfl
        omega
    · rw [if_neg hc]
      have hm : n % 10 < 10 := Nat.mod_lt _ (by omega)
      have hk : 0 < k := by
        by_contra h
        have : k = 0 := by omega
        subst this
        simp at hn
        omega
      obtain ⟨g1, g2, g3, g4, g5⟩ := ih (n / 10) (by rw [pow_succ] at hn; omega) hk
      refine ⟨?_, ?_, by simp; omega, ?_, by simp⟩
      · rw [decimal_append, g1, decimal_single hm]
        simp only [List.length_cons, List.length_nil]
        push_cast
        omega
      · intro c h
        rcases List.mem_append.mp h with h | h
        · exact g2 c h
        · rw [List.mem_singleton.mp h]
          exact (toNat_digit hm).2
      · intro _
        rw [List.head?_append_of_ne_nil _ g5]
        exact g4 (by omega)

theorem decimal_zeros (k : Nat) : decimal (List.replicate k '0') = 0 := by
  induction k with
  | zero => rfl
  | succ k ih =>
    rw [List.replicate_succ, ← List.singleton_append, decimal_append, ih]
    simp [decimal]

theorem put_spec {x : Int} (h : 0 ≤ x ∧ x < 1000000000) : decimal (put x) = x ∧ (∀ c ∈ put x, c.isDigit = true) ∧ (put x).length ≤ 9 ∧
    (0 < x → (put x).head? ≠ some '0') ∧ put x ≠ [] := by
  obtain ⟨g1, g2, g3, g4, g5⟩ := dec_spec 9 x.toNat (by norm_num; omega) (by omega)
  exact ⟨by unfold put; rw [g1]; omega, g2, g3, fun h => g4 (by omega), g5⟩

theorem padded_spec {x : Int} (h : 0 ≤ x ∧ x < 1000000000) : decimal (putPadded x) = x ∧ (∀ c ∈ putPadded x, c.isDigit = true) ∧ (putPadded x).length = 9 := by
  obtain ⟨g1, g2, g3, -, -⟩ := put_spec h
  unfold putPadded
  refine ⟨by rw [decimal_append, decimal_zeros, g1]; ring, ?_, by simp; omega⟩
  intro c hc
  rcases List.mem_append.mp hc with hc | hc
  · rw [(List.mem_replicate.mp hc).2]; rfl
  · exact g2 c hc

theorem blocks_spec : ∀ {s : List Int}, Bounded s → decimal (s.flatMap putPadded) = val s.reverse ∧ (∀ c ∈ s.flatMap putPadded, c.isDigit = true) ∧
    (s.flatMap putPadded).length = 9 * s.length := by
  intro s
  induction s with
  | nil => intro _; simp [decimal, val]
  | cons x s ih =>
    intro h
    obtain ⟨h1, h2⟩ := bounded_cons.mp h
    obtain ⟨g1, g2, g3⟩ := ih h2
    obtain ⟨k1, k2, k3⟩ := padded_spec h1
    rw [List.flatMap_cons]
    refine ⟨?_, ?_, by rw [List.length_append, k3, g3, List.length_cons]; ring⟩
    · rw [decimal_append, g1, k1, g3, List.reverse_cons, val_append, List.length_reverse, pow_mul]
      simp only [val]
      norm_num
      ring
    · intro c hc
      rcases List.mem_append.mp hc with hc | hc
      · exact k2 c hc
      · exact g2 c hc

theorem toUnsigned_aux (w : Nat) : ∀ (s : List Int) (r : Int), s.foldl (fun res x => (res * D + x) % 2 ^ w) (r % 2 ^ w) =
    (r * 1000000000 ^ s.length + val s.reverse) % 2 ^ w := by
  intro s
  induction s with
  | nil => intro r; simp [val]
  | cons x s ih =>
    intro r
    rw [List.foldl_cons]
    have e : (r % 2 ^ w * D + x) % 2 ^ w = (r * 1000000000 + x) % 2 ^ w := by
      rw [D_eq, Int.add_emod, Int.mul_emod, Int.emod_emod_of_dvd _ (dvd_refl _), ← Int.mul_emod, ← Int.add_emod]
    rw [e, ih]
    congr 1
    rw [List.reverse_cons, val_append, List.length_reverse, List.length_cons, pow_succ]
    simp only [val]
    ring

end UBig
