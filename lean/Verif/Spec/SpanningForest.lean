import Mathlib.Logic.Relation
import Mathlib.Data.List.Perm.Subperm

/-! # Specification: spanning forests of multigraphs given by edge lists -/

namespace SpanningForest

/-- An edge: two endpoints and a weight. -/
abbrev Edge := Nat × Nat × Int

/-- The vertices are connected by the edges (reflexive, symmetric, transitive closure). -/
def Conn (es : List Edge) (x y : Nat) : Prop := Relation.EqvGen (fun a b => ∃ w, (a, b, w) ∈ es) x y

/-- No edge joins two vertices that the other edges connect. -/
def Acyclic (es : List Edge) : Prop := ∀ e ∈ es, ¬ Conn (es.erase e) e.1 e.2.1

/-- `F` consists of edges of `E` (each used at most as often as it occurs), has no cycle and connects the same vertices. -/
def Spans (E F : List Edge) : Prop := List.Subperm F E ∧ Acyclic F ∧ ∀ x y, Conn F x y ↔ Conn E x y

/-- The total weight. -/
def total (F : List Edge) : Int := (F.map fun e => e.2.2).sum

end SpanningForest
