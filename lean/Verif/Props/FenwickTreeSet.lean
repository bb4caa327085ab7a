import Verif.Proof.FenwickTreeSet

/-!
# fenwick_tree_set: property C06

The abstract state is a finite set of naturals below `n`; every query takes an arbitrary integer.
-/

namespace FenwickTreeSet
open Cxx

/-- Effect on the set. -/
def next (S : Finset Nat) : Op → Finset Nat
  | .insert v => Insert.insert v.toNat S
  | .erase v => if 0 ≤ v then S.erase v.toNat else S
  | _ => S

/-- `insert` asserts that the value is in the universe. With an empty universe (`n = 0`) `max_leq` / `max_lt` on a non-negative bound are excluded:
they read out of range, see `maxLeq_empty_undefined`. -/
def Pre (n : Nat) : Op → Prop
  | .insert v => 0 ≤ v ∧ v < n
  | .maxLeq v => v < 0 ∨ 0 < n
  | .maxLt v => v ≤ 0 ∨ 0 < n
  | _ => True

instance (n : Nat) (op : Op) : Decidable (Pre n op) := by
  cases op <;> (unfold Pre; infer_instance)

/-- What each call must answer on the set `S`. -/
def Ans (S : Finset Nat) : Op → Out → Prop
  | .insert v, o => o = .bool (decide (v.toNat ∉ S))
  | .erase v, o => o = .bool (decide (∃ x ∈ S, (x : Int) = v))
  | .contains v, o => o = .bool (decide (∃ x ∈ S, (x : Int) = v))
  | .size, o => o = .int S.card
  | .countLt v, o => o = .int (S.filter fun (x : Nat) => (x : Int) < v).card
  | .countLeq v, o => o = .int (S.filter fun (x : Nat) => (x : Int) ≤ v).card
  | .countGt v, o => o = .int (S.filter fun (x : Nat) => v < (x : Int)).card
  | .countGeq v, o => o = .int (S.filter fun (x : Nat) => v ≤ (x : Int)).card
  | .kth k, o => (¬ (0 ≤ k ∧ k < S.card) ∧ o = .int (-1)) ∨ (0 ≤ k ∧ k < S.card ∧ ∃ x ∈ S, o = .int x ∧ ((S.filter (· < x)).card : Int) = k)
  | .maxLeq v, o => (o = .int (-1) ∧ ∀ x ∈ S, v < (x : Int)) ∨ ∃ x ∈ S, o = .int x ∧ (x : Int) ≤ v ∧ ∀ y ∈ S, (y : Int) ≤ v → y ≤ x
  | .maxLt v, o => (o = .int (-1) ∧ ∀ x ∈ S, v ≤ (x : Int)) ∨ ∃ x ∈ S, o = .int x ∧ (x : Int) < v ∧ ∀ y ∈ S, (y : Int) < v → y ≤ x
  | .minGeq v, o => (o = .int (-1) ∧ ∀ x ∈ S, (x : Int) < v) ∨ ∃ x ∈ S, o = .int x ∧ v ≤ (x : Int) ∧ ∀ y ∈ S, v ≤ (y : Int) → x ≤ y
  | .minGt v, o => (o = .int (-1) ∧ ∀ x ∈ S, (x : Int) ≤ v) ∨ ∃ x ∈ S, o = .int x ∧ v < (x : Int) ∧ ∀ y ∈ S, v < (y : Int) → x ≤ y
  | .find v, o => (o = .int S.card ∧ ∀ x ∈ S, (x : Int) ≠ v) ∨ ∃ x ∈ S, (x : Int) = v ∧ o = .int (S.filter (· < x)).card

theorem cnt_lt (S : Finset Nat) (v : Int) : cnt S v.toNat = (S.filter fun (x : Nat) => (x : Int) < v).card := by
  rw [cnt_eq]
  congr 1
  ext x
  simp only [Finset.mem_filter]
  constructor
  · rintro ⟨h1, h2⟩; exact ⟨h1, by omega⟩
  · rintro ⟨h1, h2⟩; exact ⟨h1, by omega⟩

theorem card_split (S : Finset Nat) (v : Int) : (S.card : Int) - cnt S v.toNat = (S.filter fun (x : Nat) => v ≤ (x : Int)).card := by
  have := Finset.card_filter_add_card_filter_not (s := S) fun x : Nat => (x : Int) < v
  rw [cnt_lt]
  have e : (S.filter fun x : Nat => ¬ (x : Int) < v) = S.filter fun (x : Nat) => v ≤ (x : Int) := by
    ext x; simp
  rw [e] at this
  omega

theorem has_iff (S : Finset Nat) (v : Int) : (0 ≤ v ∧ v.toNat ∈ S) ↔ ∃ x ∈ S, (x : Int) = v := by
  constructor
  · rintro ⟨h1, h2⟩; exact ⟨_, h2, by omega⟩
  · rintro ⟨x, h1, rfl⟩; exact ⟨by omega, by simpa using h1⟩

theorem step_spec {n : Nat} {s : State} {S : Finset Nat} (h : Inv n s S) (op : Op) (hp : Pre n op) :
    Tot (step s op) fun q => Inv n q.1 (next S op) ∧ Ans S op q.2 := by
  cases op with
  | insert v =>
    obtain ⟨w, rfl⟩ : ∃ w : Nat, v = w := ⟨v.toNat, by have := hp.1; omega⟩
    refine Tot.bind (insert_tot h (v := w) (by have := hp.2; omega)) fun r hr => Tot.pure ⟨hr.1, ?_⟩
    show _ = _
    rw [hr.2, Int.toNat_natCast]
  | erase v =>
    refine Tot.bind (erase_tot h v) fun r hr => Tot.pure ⟨hr.1, ?_⟩
    show _ = _
    rw [hr.2]; simp only [has_iff]
  | contains v =>
    simp only [step, contains_eq h, ok_bind]
    refine Tot.pure ⟨h, ?_⟩
    show _ = _
    simp only [has_iff]
  | size => exact Tot.pure ⟨h, by show _ = _; rw [h.siz]⟩
  | countLt v =>
    simp only [step, countLt_eq h, ok_bind]
    exact Tot.pure ⟨h, by show _ = _; rw [cnt_lt]⟩
  | countLeq v =>
    simp only [step, countLt_eq h, ok_bind]
    refine Tot.pure ⟨h, ?_⟩
    show _ = _
    rw [cnt_lt]
    simp only [Int.lt_add_one_iff]
  | countGt v =>
    simp only [step, countLt_eq h, ok_bind]
    refine Tot.pure ⟨h, ?_⟩
    show _ = _
    rw [h.siz, card_split]
    simp only [Int.add_one_le_iff]
  | countGeq v =>
    simp only [step, countLt_eq h, ok_bind]
    refine Tot.pure ⟨h, ?_⟩
    show _ = _
    rw [h.siz, card_split]
  | kth k =>
    refine Tot.bind (kthElement_eq h k) fun o ho => Tot.pure ⟨h, ?_⟩
    rcases ho with ⟨h1, rfl⟩ | ⟨⟨h1, h1'⟩, x, h2, rfl, h3⟩
    · exact Or.inl ⟨h1, rfl⟩
    · exact Or.inr ⟨h1, h1', x, h2, rfl, by rw [← cnt_eq]; exact h3⟩
  | maxLeq v =>
    refine Tot.bind (maxLeq_tot h v hp) fun o ho => Tot.pure ⟨h, ?_⟩
    rcases ho with ⟨rfl, h1⟩ | ⟨x, h1, rfl, h2⟩
    · exact Or.inl ⟨rfl, h1⟩
    · exact Or.inr ⟨x, h1, rfl, h2⟩
  | maxLt v =>
    refine Tot.bind (maxLeq_tot h (v - 1) (by unfold Pre at hp; omega)) fun o ho => Tot.pure ⟨h, ?_⟩
    rcases ho with ⟨rfl, h1⟩ | ⟨x, h1, rfl, h2, h3⟩
    · exact Or.inl ⟨rfl, fun x hx => by have := h1 x hx; omega⟩
    · exact Or.inr ⟨x, h1, rfl, by omega, fun y hy hyv => h3 y hy (by omega)⟩
  | minGeq v =>
    refine Tot.bind (minGeq_tot h v) fun o ho => Tot.pure ⟨h, ?_⟩
    rcases ho with ⟨rfl, h1⟩ | ⟨x, h1, rfl, h2⟩
    · exact Or.inl ⟨rfl, h1⟩
    · exact Or.inr ⟨x, h1, rfl, h2⟩
  | minGt v =>
    refine Tot.bind (minGeq_tot h (v + 1)) fun o ho => Tot.pure ⟨h, ?_⟩
    rcases ho with ⟨rfl, h1⟩ | ⟨x, h1, rfl, h2, h3⟩
    · exact Or.inl ⟨rfl, fun x hx => by have := h1 x hx; omega⟩
    · exact Or.inr ⟨x, h1, rfl, by omega, fun y hy hyv => h3 y hy (by omega)⟩
  | find v =>
    simp only [step, find, contains_eq h, ok_bind]
    by_cases c : 0 ≤ v ∧ v.toNat ∈ S
    · rw [if_pos (by simpa using c), countLt_eq h, ok_bind]
      exact Tot.pure ⟨h, Or.inr ⟨v.toNat, c.2, by omega, by rw [cnt_eq]⟩⟩
    · rw [if_neg (by simpa using c), pure_eq, ok_bind]
      refine Tot.pure ⟨h, Or.inl ⟨by rw [h.siz], fun x hx e => c ((has_iff S v).2 ⟨x, hx, e⟩)⟩⟩

theorem validOps {n : Nat} {ops : List Op} (hv : ∀ op ∈ ops, Pre n op) : ∀ S, ValidOps (fun (_ : Finset Nat) op => Pre n op) next S ops := by
  intro S
  induction ops generalizing S with
  | nil => trivial
  | cons op ops ih => exact ⟨hv op (by simp), ih (fun o ho => hv o (by simp [ho])) _⟩

/-- **C06**, set constructed empty. For `0 < n` the hypothesis only says that inserted values are in the universe. -/
theorem fenwickTreeSet_correct (n : Nat) (ops : List Op) (hv : ∀ op ∈ ops, Pre n op) :
    ∃ s outs, runOps step (init n) ops = .ok (s, outs) ∧ TraceOk next Ans ∅ ops outs := by
  obtain ⟨⟨s, outs⟩, e, h⟩ := refine (Sim := Inv n) (fun s S op h hp => step_spec h op hp) (init_inv n) (validOps hv ∅)
  exact ⟨s, outs, e, h.2⟩

/-- **C06**, set constructed from a list of values (duplicates allowed) below `n`. -/
theorem fenwickTreeSet_ofValues (n : Nat) (vs : List Nat) (hvs : ∀ v ∈ vs, v < n) (ops : List Op) (hv : ∀ op ∈ ops, Pre n op) :
    ∃ s0 s outs, ofValues n vs = .ok s0 ∧ runOps step s0 ops = .ok (s, outs) ∧ TraceOk next Ans vs.toFinset ops outs := by
  obtain ⟨s0, e0, h0⟩ := ofValues_tot hvs
  obtain ⟨⟨s, outs⟩, e, h⟩ := refine (Sim := Inv n) (fun s S op h hp => step_spec h op hp) h0 (validOps hv _)
  exact ⟨s0, s, outs, e0, e, h.2⟩

/-- **C06**, full set `{0, …, n - 1}`. -/
theorem fenwickTreeSet_full (n : Nat) (ops : List Op) (hv : ∀ op ∈ ops, Pre n op) :
    ∃ s0 s outs, full n = .ok s0 ∧ runOps step s0 ops = .ok (s, outs) ∧ TraceOk next Ans (Finset.range n) ops outs := by
  have := fenwickTreeSet_ofValues n (List.range n) (by simp) ops hv
  rwa [List.toFinset_range] at this

/-- **C06**, set constructed from a 0/1 sequence. -/
theorem fenwickTreeSet_ofSeq {α : Type} [DecidableEq α] (seq : List α) (one : α) (ops : List Op) (hv : ∀ op ∈ ops, Pre seq.length op) :
    ∃ s0 s outs, ofSeq seq one = .ok s0 ∧ runOps step s0 ops = .ok (s, outs) ∧
      TraceOk next Ans ((Finset.range seq.length).filter fun i => seq[i]? = some one) ops outs := by
  have := fenwickTreeSet_ofValues seq.length ((List.range seq.length).filter fun i => decide (seq[i]? = some one)) (by
    intro v hv; simp at hv; exact hv.1) ops hv
  have e : ((List.range seq.length).filter fun i => decide (seq[i]? = some one)).toFinset = (Finset.range seq.length).filter fun i => seq[i]? = some one := by
    ext x; simp
  rwa [e] at this

/-- An insertion outside of the universe fails an assertion. -/
theorem insert_outside_aborts {n : Nat} {s : State} {S : Finset Nat} (h : Inv n s S) (v : Int) (hv : ¬ (0 ≤ v ∧ v < n)) :
    step s (.insert v) = .error .assertion := by
  have hc : contains s v = .ok false := by
    rw [contains_eq h]
    congr 1
    rw [decide_eq_false_iff_not]
    rintro ⟨h1, h2⟩
    exact hv ⟨h1, by have := h.sub _ h2; omega⟩
  simp only [step, insert, hc, ok_bind, add]
  rw [decide_eq_false (by rw [h.hn]; exact hv), check_false]
  rfl

/-- **Finding.** On an empty universe `max_leq(v)` with `v ≥ 0` reads `_bs[-1]`. -/
theorem maxLeq_empty_undefined (v : Int) (hv : 0 ≤ v) : step (init 0) (.maxLeq v) = .error .ub := by
  simp only [step, maxLeq]
  rw [if_neg (by omega)]
  have e : min v (((init 0).n : Int) - 1) < 0 := by
    show min v ((0 : Nat) - 1 : Int) < 0
    omega
  rw [if_pos e]
  rfl

/-! ### The hypotheses are met by a non-trivial history -/

def demoOps : List Op := [.insert 5, .insert 70, .insert 130, .insert 5, .size, .kth 2, .countLt 71, .maxLeq 200, .minGt 5, .erase 70, .erase (-3), .maxLt 130, .countGeq 6, .find 130]

example : ∀ op ∈ demoOps, Pre 200 op := by decide

example : (runOps step (init 200) demoOps >>= fun r => .ok r.2) = .ok [.bool true, .bool true, .bool true, .bool false, .int 3, .int 130, .int 2,
    .int 130, .int 70, .bool true, .bool false, .int 5, .int 1, .int 1] := by decide +kernel

end FenwickTreeSet
