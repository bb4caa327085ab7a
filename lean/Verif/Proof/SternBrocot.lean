import Verif.Model.SternBrocot
import Verif.Spec.SternBrocot
import Mathlib.Tactic.Ring
import Mathlib.Tactic.Linarith
import Mathlib.Data.List.Induction
import Mathlib.Tactic.LinearCombination

/-! # Proofs for the Stern–Brocot tree -/

namespace SternBrocot

abbrev BB := (Nat × Nat) × (Nat × Nat)

/-- `P` applied to a fraction: `v.2 * L + v.1 * R`. -/
def app (P : BB) (v : Nat × Nat) : Nat × Nat := (v.2 * P.1.1 + v.1 * P.2.1, v.2 * P.1.2 + v.1 * P.2.2)

theorem foldl_app (P Q : BB) (es : List Bool) : es.foldl step (app P Q.1, app P Q.2) = (app P (es.foldl step Q).1, app P (es.foldl step Q).2) := by
  induction es generalizing Q with
  | nil => rfl
  | cons x es ih =>
    rw [List.foldl_cons, List.foldl_cons, ← ih]
    congr 1
    cases x
    · simp only [step, app, Bool.false_eq_true, if_false, Prod.mk.injEq, true_and, and_true]
      constructor <;> ring
    · simp only [step, app, if_true, Prod.mk.injEq, true_and, and_true]
      constructor <;> ring

theorem bounds_append (ds es : List Bool) : bounds (ds ++ es) = (app (bounds ds) (bounds es).1, app (bounds ds) (bounds es).2) := by
  rw [bounds, List.foldl_append]
  have := foldl_app (bounds ds) ((0, 1), (1, 0)) es
  have e : (app (bounds ds) (((0, 1), (1, 0)) : BB).1, app (bounds ds) (((0, 1), (1, 0)) : BB).2) = bounds ds := by
    simp [app]
  rw [e] at this
  exact this

theorem value_append (ds es : List Bool) : value (ds ++ es) = app (bounds ds) (value es) := by
  rw [value, value, bounds_append]
  simp only [app, Prod.mk.injEq]
  constructor <;> ring

theorem bounds_snoc (ds : List Bool) (d : Bool) : bounds (ds ++ [d]) = step (bounds ds) d := by
  rw [bounds, List.foldl_append]
  rfl

theorem det (ds : List Bool) : (bounds ds).2.1 * (bounds ds).1.2 = (bounds ds).1.1 * (bounds ds).2.2 + 1 := by
  induction ds using List.reverseRecOn with
  | nil => rfl
  | append_singleton ds d ih =>
    rw [bounds_snoc]
    cases d
    · simp only [step, Bool.false_eq_true, if_false]
      linarith
    · simp only [step, if_true]
      linarith

theorem value_pos (ds : List Bool) : 0 < (value ds).1 ∧ 0 < (value ds).2 := by
  have h := det ds
  have h1 : 0 < (bounds ds).2.1 := by
    by_contra hc
    have : (bounds ds).2.1 = 0 := by omega
    rw [this] at h
    omega
  have h2 : 0 < (bounds ds).1.2 := by
    by_contra hc
    have : (bounds ds).1.2 = 0 := by omega
    rw [this] at h
    omega
  simp only [value]
  omega

/-- Applying `bounds ds` keeps comparisons. -/
theorem lt_app (ds : List Bool) (u v : Nat × Nat) : Lt (app (bounds ds) u) (app (bounds ds) v) ↔ Lt u v := by
  have h := det ds
  generalize bounds ds = P at *
  obtain ⟨⟨a, b⟩, c, d⟩ := P
  obtain ⟨u1, u2⟩ := u
  obtain ⟨v1, v2⟩ := v
  simp only [Lt, app] at *
  have e1 : ((v2 * a + v1 * c) * (u2 * b + u1 * d) : Int) = (u2 * a + u1 * c) * (v2 * b + v1 * d) + (v1 * u2 - u1 * v2) * (c * b - a * d) := by ring
  have h' : (c * b - a * d : Int) = 1 := by
    have : ((c * b : Nat) : Int) = ((a * d + 1 : Nat) : Int) := by rw [h]
    push_cast at this
    omega
  rw [h', mul_one] at e1
  have e2 : (((v2 * a + v1 * c) * (u2 * b + u1 * d) : Nat) : Int) = ((u2 * a + u1 * c) * (v2 * b + v1 * d) : Nat) + ((v1 * u2 : Nat) - (u1 * v2 : Nat)) := by
    push_cast
    exact e1
  constructor <;> intro h <;> omega

/-- Applying `bounds ds` is injective. -/
theorem app_inj (ds : List Bool) {u v : Nat × Nat} (h : app (bounds ds) u = app (bounds ds) v) : u = v := by
  have hd := det ds
  generalize bounds ds = P at *
  obtain ⟨⟨a, b⟩, c, d⟩ := P
  obtain ⟨u1, u2⟩ := u
  obtain ⟨v1, v2⟩ := v
  simp only [app, Prod.mk.injEq] at *
  obtain ⟨h1, h2⟩ := h
  have h1' : (u2 * a + u1 * c : Int) = v2 * a + v1 * c := by exact_mod_cast h1
  have h2' : (u2 * b + u1 * d : Int) = v2 * b + v1 * d := by exact_mod_cast h2
  have hd' : (c * b : Int) = a * d + 1 := by exact_mod_cast hd
  have k1 : (u1 * (c * b - a * d) : Int) = v1 * (c * b - a * d) := by linear_combination b * h1' - a * h2'
  have k2 : (u2 * (c * b - a * d) : Int) = v2 * (c * b - a * d) := by linear_combination c * h2' - d * h1'
  have e : (c * b - a * d : Int) = 1 := by omega
  rw [e, mul_one, mul_one] at k1 k2
  constructor <;> omega

theorem bounds_right (t : List Bool) : (bounds (true :: t)).1.2 ≤ (bounds (true :: t)).1.1 ∧ (bounds (true :: t)).2.2 < (bounds (true :: t)).2.1 := by
  induction t using List.reverseRecOn with
  | nil => decide
  | append_singleton t d ih =>
    rw [← List.cons_append, bounds_snoc]
    cases d
    · simp only [step, Bool.false_eq_true, if_false]; omega
    · simp only [step, if_true]; omega

theorem bounds_left (t : List Bool) : (bounds (false :: t)).1.1 < (bounds (false :: t)).1.2 ∧ (bounds (false :: t)).2.1 ≤ (bounds (false :: t)).2.2 := by
  induction t using List.reverseRecOn with
  | nil => decide
  | append_singleton t d ih =>
    rw [← List.cons_append, bounds_snoc]
    cases d
    · simp only [step, Bool.false_eq_true, if_false]; omega
    · simp only [step, if_true]; omega

theorem value_right (t : List Bool) : (value (true :: t)).2 < (value (true :: t)).1 := by
  have := bounds_right t
  simp only [value]
  omega

theorem value_left (t : List Bool) : (value (false :: t)).1 < (value (false :: t)).2 := by
  have := bounds_left t
  simp only [value]
  omega

/-- The value lies in the open interval of a prefix. -/
theorem between_prefix (ds es : List Bool) : Lt (bounds ds).1 (value (ds ++ es)) ∧ Lt (value (ds ++ es)) (bounds ds).2 := by
  have h := value_pos es
  rw [value_append]
  have e1 : (bounds ds).1 = app (bounds ds) (0, 1) := by simp [app]
  have e2 : (bounds ds).2 = app (bounds ds) (1, 0) := by simp [app]
  constructor
  · rw [show Lt (bounds ds).1 (app (bounds ds) (value es)) ↔ Lt (app (bounds ds) (0, 1)) (app (bounds ds) (value es)) by rw [← e1], lt_app]
    simp only [Lt]
    omega
  · rw [show Lt (app (bounds ds) (value es)) (bounds ds).2 ↔ Lt (app (bounds ds) (value es)) (app (bounds ds) (1, 0)) by rw [← e2], lt_app]
    simp only [Lt]
    omega

theorem split (a b : List Bool) : ∃ p s t, a = p ++ s ∧ b = p ++ t ∧ lcp a b = p ∧ lcp s t = [] := by
  induction a generalizing b with
  | nil => exact ⟨[], [], b, rfl, rfl, by cases b <;> rfl, by cases b <;> rfl⟩
  | cons x a ih =>
    cases b with
    | nil => exact ⟨[], x :: a, [], rfl, rfl, rfl, rfl⟩
    | cons y b =>
      by_cases h : x = y
      · subst h
        obtain ⟨p, s, t, h1, h2, h3, h4⟩ := ih b
        exact ⟨x :: p, s, t, by rw [h1, List.cons_append], by rw [h2, List.cons_append], by rw [lcp, if_pos rfl, h3], h4⟩
      · exact ⟨[], x :: a, y :: b, rfl, rfl, by rw [lcp, if_neg h], by rw [lcp, if_neg h]⟩

theorem between_iff (a b : List Bool) : Lt (bounds a).1 (value b) ∧ Lt (value b) (bounds a).2 ↔ a <+: b := by
  constructor
  · obtain ⟨p, s, t, rfl, rfl, -, h4⟩ := split a b
    rw [bounds_append, value_append, lt_app, lt_app]
    rintro ⟨h1, h2⟩
    cases s with
    | nil => rw [List.append_nil]; exact List.prefix_append _ _
    | cons x s =>
      exfalso
      cases t with
      | nil =>
        cases x
        · have := bounds_left s
          simp only [Lt, value, bounds, List.foldl_nil] at *
          omega
        · have := bounds_right s
          simp only [Lt, value, bounds, List.foldl_nil] at *
          omega
      | cons y t =>
        cases x <;> cases y
        · simp [lcp] at h4
        · have k1 := bounds_left s
          have k2 := value_right t
          simp only [Lt] at h2
          have := Nat.mul_le_mul k2.le k1.2
          have := Nat.mul_comm (value (true :: t)).2 (bounds (false :: s)).2.1
          omega
        · have k1 := bounds_right s
          have k2 := value_left t
          simp only [Lt] at h1
          have := Nat.mul_le_mul k2.le k1.1
          have := Nat.mul_comm (value (false :: t)).2 (bounds (true :: s)).1.1
          omega
        · simp [lcp] at h4
  · rintro ⟨es, rfl⟩
    exact between_prefix a es

theorem bounds_inj {a b : List Bool} (h : bounds a = bounds b) : a = b := by
  have h1 : a <+: b := by
    rw [← between_iff, h]
    have := between_prefix b []
    rwa [List.append_nil] at this
  have h2 : b <+: a := by
    rw [← between_iff, ← h]
    have := between_prefix a []
    rwa [List.append_nil] at this
  exact h1.eq_of_length (Nat.le_antisymm h1.length_le h2.length_le)

theorem value_lt_iff (a b : List Bool) : Lt (value a) (value b) ↔ inOrder a b = .lt := by
  obtain ⟨p, s, t, rfl, rfl, -, h4⟩ := split a b
  have e : inOrder (p ++ s) (p ++ t) = inOrder s t := by
    induction p with
    | nil => rfl
    | cons x p ih => rw [List.cons_append, List.cons_append, inOrder, if_pos rfl]; exact ih
  rw [e, value_append, value_append, lt_app]
  cases s with
  | nil =>
    cases t with
    | nil => simp [Lt, inOrder]
    | cons y t =>
      have hv : value [] = (1, 1) := rfl
      cases y
      · have := value_left t
        simp only [Lt, hv, inOrder]
        constructor
        · intro h; omega
        · intro h; simp at h
      · have := value_right t
        simp only [Lt, hv, inOrder]
        constructor
        · intro h; simp
        · intro h; omega
  | cons x s =>
    have hv : value [] = (1, 1) := rfl
    cases t with
    | nil =>
      cases x
      · have := value_left s
        simp only [Lt, hv, inOrder]
        constructor
        · intro h; simp
        · intro h; omega
      · have := value_right s
        simp only [Lt, hv, inOrder]
        constructor
        · intro h; omega
        · intro h; simp at h
    | cons y t =>
      cases x <;> cases y
      · simp [lcp] at h4
      · have k1 := value_left s
        have k2 := value_right t
        simp only [Lt, inOrder]
        refine ⟨fun _ => by simp, fun _ => ?_⟩
        exact Nat.lt_of_lt_of_le (Nat.mul_lt_mul'' k1 k2) (by rw [Nat.mul_comm])
      · have k1 := value_right s
        have k2 := value_left t
        simp only [Lt, inOrder]
        refine ⟨fun h => ?_, fun h => by simp at h⟩
        have := Nat.mul_lt_mul'' k2 k1
        have := Nat.mul_comm (value (false :: t)).2 (value (true :: s)).1
        omega
      · simp [lcp] at h4

theorem inOrder_eq_iff (a b : List Bool) : inOrder a b = .eq ↔ a = b := by
  induction a generalizing b with
  | nil =>
    cases b with
    | nil => simp [inOrder]
    | cons y b => cases y <;> simp [inOrder]
  | cons x a ih =>
    cases b with
    | nil => cases x <;> simp [inOrder]
    | cons y b =>
      by_cases h : x = y
      · subst h
        rw [inOrder, if_pos rfl, ih]
        simp
      · cases x <;> cases y <;> simp_all [inOrder]

theorem preOrder_eq (a b : List Bool) : preOrder a b = if a = b then .eq else if a <+: b then .lt else if b <+: a then .gt else inOrder a b := by
  induction a generalizing b with
  | nil => cases b <;> simp [preOrder]
  | cons x a ih =>
    cases b with
    | nil => simp [preOrder]
    | cons y b =>
      by_cases h : x = y
      · subst h
        rw [preOrder, if_pos rfl, ih, inOrder, if_pos rfl]
        simp
      · have h' : ¬ y = x := fun e => h e.symm
        rw [preOrder, if_neg h, inOrder, if_neg h]
        simp [h, h']

theorem postOrder_eq (a b : List Bool) : postOrder a b = if a = b then .eq else if a <+: b then .gt else if b <+: a then .lt else inOrder a b := by
  induction a generalizing b with
  | nil => cases b <;> simp [postOrder]
  | cons x a ih =>
    cases b with
    | nil => simp [postOrder]
    | cons y b =>
      by_cases h : x = y
      · subst h
        rw [postOrder, if_pos rfl, ih, inOrder, if_pos rfl]
        simp
      · have h' : ¬ y = x := fun e => h e.symm
        rw [postOrder, if_neg h, inOrder, if_neg h]
        simp [h, h']

theorem bounds_replicate_left (ds : List Bool) (k : Nat) : bounds (ds ++ List.replicate k false) =
    ((bounds ds).1, ((bounds ds).2.1 + (bounds ds).1.1 * k, (bounds ds).2.2 + (bounds ds).1.2 * k)) := by
  induction k with
  | zero => simp
  | succ k ih =>
    rw [List.replicate_succ', ← List.append_assoc, bounds_snoc, ih]
    simp only [step, Bool.false_eq_true, if_false, Prod.mk.injEq, true_and]
    constructor <;> ring

theorem bounds_replicate_right (ds : List Bool) (k : Nat) : bounds (ds ++ List.replicate k true) =
    (((bounds ds).1.1 + (bounds ds).2.1 * k, (bounds ds).1.2 + (bounds ds).2.2 * k), (bounds ds).2) := by
  induction k with
  | zero => simp
  | succ k ih =>
    rw [List.replicate_succ', ← List.append_assoc, bounds_snoc, ih]
    simp only [step, if_true, Prod.mk.injEq, and_true]
    constructor <;> ring

/-- The bounds grow along the tree. -/
theorem bounds_mono (ds es : List Bool) : (bounds ds).1.1 ≤ (bounds (ds ++ es)).1.1 ∧ (bounds ds).1.2 ≤ (bounds (ds ++ es)).1.2 ∧ (bounds ds).2.1 ≤ (bounds (ds ++ es)).2.1 ∧ (bounds ds).2.2 ≤ (bounds (ds ++ es)).2.2 := by
  induction es using List.reverseRecOn with
  | nil => simp
  | append_singleton es d ih =>
    rw [← List.append_assoc, bounds_snoc]
    cases d
    · simp only [step, Bool.false_eq_true, if_false]; omega
    · simp only [step, if_true]; omega

end SternBrocot
