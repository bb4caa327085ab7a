import Verif.Proof.EulerianUTrail

namespace Eulerian
open Cxx

/-- `DirectedEulerianGraph g(n)` followed by `g.add_edge(u, v)` for each pair of the list. -/
def dbuild (n : Nat) (E : List (Nat × Nat)) : M DObj := E.foldlM (fun o p => o.addEdge p.1 p.2) (DObj.new n)

/-- `UndirectedEulerianGraph g(n)` followed by `g.add_edge(u, v)` for each pair of the list. -/
def ubuild (n : Nat) (E : List (Nat × Nat)) : M UObj := E.foldlM (fun o p => o.addEdge p.1 p.2) (UObj.new n)

theorem dbuild_tot {n : Nat} {E : List (Nat × Nat)} (hE : ∀ p ∈ E, p.1 < n ∧ p.2 < n) : Tot (dbuild n E) (fun o => DRep o n E) := by
  suffices h : ∀ (F : List (Nat × Nat)) (o : DObj) (D : List (Nat × Nat)), DRep o n D → (∀ p ∈ F, p.1 < n ∧ p.2 < n) →
      Tot (F.foldlM (fun (o : DObj) p => o.addEdge p.1 p.2) o) (fun o => DRep o n (D ++ F)) from h E _ [] (dnew n) hE
  intro F
  induction F with
  | nil =>
    intro o D h _
    rw [List.foldlM_nil, List.append_nil]
    exact tot_ok.mpr h
  | cons p F ih =>
    intro o D h hF
    rw [List.foldlM_cons]
    refine (dadd h (hF p (by simp)).1 (hF p (by simp)).2).bind ?_
    intro o' ho'
    have := ih o' _ ho' fun q hq => hF q (by simp [hq])
    rwa [List.append_assoc] at this

theorem ubuild_tot {n : Nat} {E : List (Nat × Nat)} (hE : ∀ p ∈ E, p.1 < n ∧ p.2 < n) : Tot (ubuild n E) (fun o => ∃ S, URep o n E S) := by
  suffices h : ∀ (F : List (Nat × Nat)) (o : UObj) (D : List (Nat × Nat)), (∃ S, URep o n D S) → (∀ p ∈ F, p.1 < n ∧ p.2 < n) →
      Tot (F.foldlM (fun (o : UObj) p => o.addEdge p.1 p.2) o) (fun o => ∃ S, URep o n (D ++ F) S) from h E _ [] ⟨[], unew n⟩ hE
  intro F
  induction F with
  | nil =>
    intro o D h _
    rw [List.foldlM_nil, List.append_nil]
    exact tot_ok.mpr h
  | cons p F ih =>
    intro o D ⟨S, h⟩ hF
    rw [List.foldlM_cons]
    refine (uadd h (hF p (by simp)).1 (hF p (by simp)).2).bind ?_
    intro o' ho'
    have := ih o' _ ho'.2 fun q hq => hF q (by simp [hq])
    rwa [List.append_assoc] at this

theorem DRep.unique {o o' : DObj} {n : Nat} {E : List (Nat × Nat)} (h : DRep o n E) (h' : DRep o' n E) : o' = o := by
  obtain ⟨m, g, d⟩ := o
  obtain ⟨m', g', d'⟩ := o'
  have e1 : m' = m := by rw [show m = n from h.hn, show m' = n from h'.hn]
  have s1 : g.size = n := h.gsz
  have s2 : g'.size = n := h'.gsz
  have s3 : d.size = n := h.isz
  have s4 : d'.size = n := h'.isz
  have e2 : g' = g := by
    refine Array.ext (by rw [s1, s2]) ?_
    intro i hi hi'
    have h1 := h.row i (by omega)
    have h2 := h'.row i (by omega)
    dsimp only at h1 h2
    rw [← h1] at h2
    have h3 := Array.toList_inj.mp h2
    unfold at' at h3
    rw [Array.getElem?_eq_getElem hi, Array.getElem?_eq_getElem hi'] at h3
    exact h3
  have e3 : d' = d := by
    refine Array.ext (by rw [s3, s4]) ?_
    intro i hi hi'
    have h1 := h.deg i (by omega)
    have h2 := h'.deg i (by omega)
    dsimp only at h1 h2
    rw [← h1] at h2
    unfold at' at h2
    rw [Array.getElem?_eq_getElem hi, Array.getElem?_eq_getElem hi'] at h2
    exact h2
  rw [e1, e2, e3]

/-- C141. On every directed multigraph with `n > 0` vertices (self-loops, parallel edges and isolated vertices included) the circuit function ends without undefined behaviour. A list that it returns is a closed walk
    that uses every edge exactly once, beginning at the requested vertex; `nullopt` is returned only if there is no such walk (through the requested vertex). -/
theorem directed_circuit {n : Nat} (hn : 0 < n) {E : List (Nat × Nat)} (hE : ∀ p ∈ E, p.1 < n ∧ p.2 < n) (start : Option Nat) (hs : ∀ s, start = some s → s < n) :
    ∃ o r, dbuild n E = .ok o ∧ o.circuit start = .ok r ∧
      (∀ w, r = some w → DTrail E w ∧ Closed w ∧ ∀ s, start = some s → w.head? = some s) ∧
      (r = none → ¬ ∃ w, DTrail E w ∧ Closed w ∧ ∀ s, start = some s → s ∈ w) := by
  obtain ⟨o, h1, h2⟩ := dbuild_tot hE
  obtain ⟨r, r1, r2⟩ := dcircuit_tot h2 hn hs
  refine ⟨o, r, h1, r1, ?_, ?_⟩
  · rintro w rfl
    exact r2
  · rintro rfl
    exact r2

/-- Two cycles through vertex 0, one of them a self-loop: a circuit from vertex 1. -/
example : (do let o ← dbuild 4 [(0, 1), (1, 2), (2, 0), (0, 0)]; o.circuit (some 1)) = .ok (some [1, 2, 0, 0, 1]) := by decide +kernel

/-- Two components: no circuit although every vertex is balanced. -/
example : (do let o ← dbuild 4 [(0, 1), (1, 0), (2, 3), (3, 2)]; o.circuit none) = .ok none := by decide +kernel

/-- C142, the part that holds. The trail function ends without undefined behaviour. A list that it returns is a walk that uses every edge exactly once, with different end points if they are requested, and the object is then as before
    the call; `nullopt` is returned only if there is no such walk. Missing: after `nullopt` the object need not be as before (`directed_trail_leftover`). -/
theorem directed_trail_partial {n : Nat} (hn : 0 < n) {E : List (Nat × Nat)} (hE : ∀ p ∈ E, p.1 < n ∧ p.2 < n) (different : Bool) :
    ∃ o o' r, dbuild n E = .ok o ∧ o.trail different = .ok (o', r) ∧
      (∀ w, r = some w → DTrail E w ∧ (different = true → ¬ Closed w) ∧ o' = o) ∧
      (r = none → ¬ ∃ w, DTrail E w ∧ (different = true → ¬ Closed w)) := by
  obtain ⟨o, h1, h2⟩ := dbuild_tot hE
  obtain ⟨⟨o', r⟩, r1, r2, r3⟩ := dtrail_tot h2 hn different
  refine ⟨o, o', r, h1, r1, ?_, ?_⟩
  · rintro w rfl
    exact ⟨r2.1, r2.2, h2.unique (r3 (by simp))⟩
  · rintro rfl
    exact r2

/-- A trail from vertex 0 to vertex 2. -/
example : (do let o ← dbuild 3 [(0, 1), (1, 0), (0, 2)]; let r ← o.trail true; return r.2) = .ok (some [0, 1, 0, 2]) := by decide +kernel

/-- The edge from the last to the first vertex that the trail function adds stays in the graph when it returns `nullopt`: a later call then sees another graph (here the edge `1 → 0`). -/
theorem directed_trail_leftover : ∃ o o', dbuild 4 [(0, 1), (2, 3), (3, 2)] = .ok o ∧ o.trail false = .ok (o', none) ∧ o.g = #[#[1], #[], #[3], #[2]] ∧ o'.g = #[#[1], #[0], #[3], #[2]] :=
  ⟨⟨4, #[#[1], #[], #[3], #[2]], #[0, 1, 1, 1]⟩, ⟨4, #[#[1], #[0], #[3], #[2]], #[1, 1, 1, 1]⟩, by decide +kernel, by decide +kernel, rfl, rfl⟩

/-- A graph without vertices: the search reads the first element of an empty vector. -/
theorem directed_circuit_empty : (DObj.new 0).circuit none = .error .ub := by decide +kernel

/-- C143. The same for undirected multigraphs: the walk may use an edge in either direction. -/
theorem undirected_circuit {n : Nat} (hn : 0 < n) {E : List (Nat × Nat)} (hE : ∀ p ∈ E, p.1 < n ∧ p.2 < n) (start : Option Nat) (hs : ∀ s, start = some s → s < n) :
    ∃ o r, ubuild n E = .ok o ∧ o.circuit start = .ok r ∧
      (∀ w, r = some w → UTrail E w ∧ Closed w ∧ ∀ s, start = some s → w.head? = some s) ∧
      (r = none → ¬ ∃ w, UTrail E w ∧ Closed w ∧ ∀ s, start = some s → s ∈ w) := by
  obtain ⟨o, h1, S, h2⟩ := ubuild_tot hE
  obtain ⟨r, r1, r2⟩ := ucircuit_tot h2 hn hs
  refine ⟨o, r, h1, r1, ?_, ?_⟩
  · rintro w rfl
    exact r2
  · rintro rfl
    exact r2

/-- A triangle and a self-loop: a circuit from vertex 1. -/
example : (do let o ← ubuild 4 [(0, 1), (1, 2), (2, 0), (0, 0)]; o.circuit (some 1)) = .ok (some [1, 2, 0, 0, 1]) := by decide +kernel

/-- C144, the part that holds. The same for the trail function of undirected multigraphs. Missing: after `nullopt` the object need not be as before (`undirected_trail_leftover`). -/
theorem undirected_trail_partial {n : Nat} (hn : 0 < n) {E : List (Nat × Nat)} (hE : ∀ p ∈ E, p.1 < n ∧ p.2 < n) (different : Bool) :
    ∃ o o' r, ubuild n E = .ok o ∧ o.trail different = .ok (o', r) ∧
      (∀ w, r = some w → UTrail E w ∧ (different = true → ¬ Closed w) ∧ o' = o) ∧
      (r = none → ¬ ∃ w, UTrail E w ∧ (different = true → ¬ Closed w)) := by
  obtain ⟨o, h1, S, h2⟩ := ubuild_tot hE
  obtain ⟨⟨o', r⟩, r1, r2, r3⟩ := utrail_tot h2 hn different
  refine ⟨o, o', r, h1, r1, ?_, ?_⟩
  · rintro w rfl
    exact ⟨r2.1, r2.2, r3 (by simp)⟩
  · rintro rfl
    exact r2

/-- A triangle with a further edge: a trail between the two vertices of odd degree. -/
example : (do let o ← ubuild 4 [(0, 1), (1, 2), (2, 0), (0, 3)]; let r ← o.trail true; return r.2) = .ok (some [3, 0, 2, 1, 0]) := by decide +kernel

/-- The edge that the trail function adds stays in the graph when it returns `nullopt`. -/
theorem undirected_trail_leftover : ∃ o o', ubuild 4 [(0, 1), (2, 3), (3, 2)] = .ok o ∧ o.trail false = .ok (o', none) ∧ o.g = #[#[1], #[0], #[3, 3], #[2, 2]] ∧ o'.g = #[#[1, 1], #[0, 0], #[3, 3], #[2, 2]] :=
  ⟨⟨4, #[#[1], #[0], #[3, 3], #[2, 2]], #[#[0], #[0], #[0, 1], #[0, 1]]⟩, ⟨4, #[#[1, 1], #[0, 0], #[3, 3], #[2, 2]], #[#[0, 1], #[0, 1], #[0, 1], #[0, 1]]⟩, by decide +kernel, by decide +kernel, rfl, rfl⟩

end Eulerian
