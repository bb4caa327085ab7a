import Verif.Spec.SternBrocot
import Verif.Model.SternBrocot

/-! # Specification: which `sbt_node` objects stand for which nodes of the tree -/

namespace SBT
open SternBrocot

/-- A pair of naturals as a `rational`. -/
def cast (v : Nat × Nat) : Int × Int := ((v.1 : Int), (v.2 : Int))

/-- A run-length list as a `sbt_path`. -/
def castPath (p : List (Bool × Nat)) : List (Bool × Int) := p.map fun r => (r.1, (r.2 : Int))

/-- The object stands for the node `ds`. -/
structure Rep (s : Node) (ds : List Bool) : Prop where
  l : s.l = cast (bounds ds).1
  r : s.r = cast (bounds ds).2
  dep : s.dep = ds.length
  path : ∃ p, s.path = castPath p ∧ expand p = ds ∧ Canonical p

/-- The value of the node is representable. -/
def ValFits (B : Int) (ds : List Bool) : Prop := ((value ds).1 : Int) < B ∧ ((value ds).2 : Int) < B

/-- The value of a three-way comparison. -/
def sign : Ordering → Int
  | .lt => -1
  | .eq => 0
  | .gt => 1

end SBT
