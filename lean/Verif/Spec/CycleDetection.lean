import Verif.Cxx

/-! # Specification of cycle detection in a directed graph -/

namespace CycleDetection
open Cxx

variable {W : Type}

/-- The edges of a vertex. -/
def adj (g : Array (List (Nat × W))) (u : Nat) : List (Nat × W) := g[u]?.getD []

/-- The edges lead to vertices. -/
def WF (g : Array (List (Nat × W))) : Prop := ∀ u, ∀ e ∈ adj g u, e.1 < g.size

/-- The edges `es` are a walk from `u` to `v`. -/
def Walk (g : Array (List (Nat × W))) : Nat → List (Nat × W) → Nat → Prop
  | u, [], v => u = v
  | u, e :: es, v => e ∈ adj g u ∧ Walk g e.1 es v

/-- The edges are a cycle that passes through no vertex twice. -/
def IsCycle (g : Array (List (Nat × W))) (es : List (Nat × W)) : Prop := es ≠ [] ∧ (es.map (·.1)).Nodup ∧ ∃ v, Walk g v es v

/-- There is no closed walk with an edge. -/
def Acyclic (g : Array (List (Nat × W))) : Prop := ∀ v es, Walk g v es v → es = []

end CycleDetection
