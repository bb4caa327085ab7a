import Verif.Spec.TwoSat
import Mathlib.Tactic.Tauto

namespace TwoSat
open Cxx

/-- The clauses say the same as the constraints. -/
def Same (cs : List Clause) (ops : List Op) : Prop := ∀ A : List Bool, (∀ c ∈ cs, c.Holds A) ↔ ∀ i ∈ ops, Meaning A i

/-- Simulation. -/
structure Sim (n : Nat) (o : Obj) (t : Abs) : Prop where
  hn : o.n = n
  vars : ∀ c ∈ o.cs, c.x < n ∧ c.y < n
  same : Same o.cs t.cs
  last : ∀ l, t.last = some l → (∃ B, Sat n l B) → Sat n l o.ans

theorem add_sim {n : Nat} {o : Obj} {t : Abs} (h : Sim n o t) {i : Op} (l : List Clause) (hl : ∀ c ∈ l, c.x < n ∧ c.y < n) (hm : ∀ A, (∀ c ∈ l, c.Holds A) ↔ Meaning A i) :
    Sim n { o with cs := o.cs ++ l } ⟨t.cs ++ [i], t.last⟩ := by
  refine ⟨h.hn, ?_, ?_, h.last⟩
  · intro c hc
    rcases List.mem_append.mp hc with hc | hc
    · exact h.vars c hc
    · exact hl c hc
  · intro A
    simp only [List.mem_append, List.mem_singleton, or_imp, forall_and, forall_eq]
    rw [h.same A, hm A]

theorem step_tot {solver : Nat → List Clause → Bool × List Bool} (hc : Contract solver) {n : Nat} {o : Obj} {t : Abs} (h : Sim n o t) (i : Op) (hp : Pre n t i) :
    Tot (step solver o i) (fun r => Sim n r.1 (next t i) ∧ Ans n t i r.2) := by
  have add : ∀ (x : Int) (f : Bool) (y : Int) (g : Bool), (0 ≤ x ∧ x < n) ∧ 0 ≤ y ∧ y < n → ∀ o' : Obj, o'.n = n → addClause o' x f y g = .ok { o' with cs := o'.cs ++ [⟨x.toNat, f, y.toNat, g⟩] } := by
    intro x f y g hxy o' ho
    unfold addClause
    rw [ho, decide_eq_true (by exact_mod_cast hxy.1), check_true, ok_bind, decide_eq_true (by exact_mod_cast hxy.2), check_true, ok_bind]
    rfl
  have nb : ∀ x y : Bool, (x = !y) ↔ ¬ x = y := by decide
  cases i with
  | addClause x f y g =>
    have hp' : (0 ≤ x ∧ x < n) ∧ 0 ≤ y ∧ y < n := hp
    unfold step
    dsimp only
    rw [add x f y g hp' o h.hn, ok_bind]
    refine tot_ok.mpr ⟨add_sim h _ ?_ ?_, rfl⟩
    · intro c hc
      rw [List.mem_singleton.mp hc]
      dsimp only
      omega
    · intro A
      simp [Clause.Holds, Meaning, val]
  | implies x f y g =>
    have hp' : (0 ≤ x ∧ x < n) ∧ 0 ≤ y ∧ y < n := hp
    unfold step implies
    dsimp only
    rw [add _ _ _ _ hp' o h.hn, ok_bind]
    refine tot_ok.mpr ⟨add_sim h _ ?_ ?_, rfl⟩
    · intro c hc
      rw [List.mem_singleton.mp hc]
      dsimp only
      omega
    · intro A
      simp only [Clause.Holds, Meaning, val, List.mem_singleton, forall_eq, nb]
      tauto
  | set x f =>
    have hp' : 0 ≤ x ∧ x < n := hp
    unfold step TwoSat.set
    dsimp only
    rw [add _ _ _ _ ⟨hp', hp'⟩ o h.hn, ok_bind]
    refine tot_ok.mpr ⟨add_sim h _ ?_ ?_, rfl⟩
    · intro c hc
      rw [List.mem_singleton.mp hc]
      dsimp only
      omega
    · intro A
      simp [Clause.Holds, Meaning, val]
  | atMostOne x f y g =>
    have hp' : (0 ≤ x ∧ x < n) ∧ 0 ≤ y ∧ y < n := hp
    unfold step atMostOne
    dsimp only
    rw [add _ _ _ _ hp' o h.hn, ok_bind]
    refine tot_ok.mpr ⟨add_sim h _ ?_ ?_, rfl⟩
    · intro c hc
      rw [List.mem_singleton.mp hc]
      dsimp only
      omega
    · intro A
      simp only [Clause.Holds, Meaning, val, List.mem_singleton, forall_eq, nb]
      tauto
  | exactlyOne x f y g =>
    have hp' : (0 ≤ x ∧ x < n) ∧ 0 ≤ y ∧ y < n := hp
    unfold step exactlyOne
    dsimp only
    rw [add _ _ _ _ hp' o h.hn, ok_bind, add _ _ _ _ hp' { o with cs := o.cs ++ [⟨x.toNat, f, y.toNat, g⟩] } h.hn, ok_bind]
    dsimp only
    rw [List.append_assoc]
    refine tot_ok.mpr ⟨add_sim h _ ?_ ?_, rfl⟩
    · intro c hc
      simp only [List.singleton_append, List.mem_cons, List.not_mem_nil, or_false] at hc
      rcases hc with rfl | rfl
      · dsimp only
        omega
      · dsimp only
        omega
    · intro A
      simp only [Clause.Holds, Meaning, val, List.singleton_append, List.mem_cons, List.not_mem_nil, or_false, or_imp, forall_and, forall_eq, nb]
      tauto
  | satisfiable =>
    obtain ⟨c1, c2⟩ := hc n o.cs h.vars
    have key : (∃ A, Sat n t.cs A) ↔ (solver n o.cs).1 = true := by
      rw [c1]
      exact exists_congr fun A => and_congr_right fun _ => (h.same A).symm
    unfold step
    dsimp only
    rw [h.hn]
    refine tot_ok.mpr ⟨⟨rfl, h.vars, h.same, ?_⟩, _, rfl, key.symm⟩
    intro l hl hB
    have hl' : some t.cs = some l := hl
    cases hl'
    have hs := c2 (key.mp hB)
    exact ⟨hs.1, (h.same _).mp hs.2⟩
  | answer =>
    exact tot_ok.mpr ⟨h, o.ans, rfl, h.last⟩

theorem init_sim (n : Nat) : Sim n (init n) ⟨[], none⟩ := by
  refine ⟨rfl, fun c hc => (by cases hc), fun A => ?_, fun l hl => (by cases hl)⟩
  simp [init]

end TwoSat
