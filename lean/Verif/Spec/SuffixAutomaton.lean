import Mathlib.Data.List.Infix

/-! # Specification for `SuffixAutomaton` -/

namespace SuffixAutomaton
namespace Spec

variable {α : Type} [DecidableEq α]

/-- The positions `i ≤ |s|` with `s[i : i + |t|] = t`. -/
def occs (s t : List α) : List Nat := (List.range (s.length + 1)).filter fun i => decide (t <+: s.drop i)

end Spec
end SuffixAutomaton
