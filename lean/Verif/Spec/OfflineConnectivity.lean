import Verif.Model.OfflineConnectivity

/-!
# Specification for offline dynamic connectivity

The graph is the list of its edges.
-/

namespace OfflineConnectivity

variable {Q : Type}

/-- The graph after a call: `del u v` removes one of the edges between `u` and `v`. -/
def edges (E : List (Nat × Nat)) : Op Q → List (Nat × Nat)
  | .add u v => (u, v) :: E
  | .del u v _ => E.eraseP fun e => e = (u, v) ∨ e = (v, u)
  | .query _ => E

/-- Vertices are `0 .. n-1`, only existing edges are deleted, the queries are `ok`. -/
def Valid (n : Nat) (ok : Q → Prop) : List (Nat × Nat) → List (Op Q) → Prop
  | _, [] => True
  | E, op :: ops =>
    (match op with
      | .add u v => u < n ∧ v < n
      | .del u v _ => (u, v) ∈ E ∨ (v, u) ∈ E
      | .query x => ok x) ∧ Valid n ok (edges E op) ops

/-- The queries of a history, each with the graph at its moment. -/
def asked : List (Nat × Nat) → List (Op Q) → List (List (Nat × Nat) × Q)
  | _, [] => []
  | E, .query x :: ops => (E, x) :: asked E ops
  | E, op :: ops => asked (edges E op) ops

instance decValid (n : Nat) (ok : Q → Prop) [DecidablePred ok] : (E : List (Nat × Nat)) → (ops : List (Op Q)) → Decidable (Valid n ok E ops)
  | _, [] => inferInstanceAs (Decidable True)
  | E, .add u v :: ops => have := decValid n ok (edges E (.add u v : Op Q)) ops; inferInstanceAs (Decidable ((u < n ∧ v < n) ∧ _))
  | E, .del u v c :: ops => have := decValid n ok (edges E (.del u v c : Op Q)) ops; inferInstanceAs (Decidable (((u, v) ∈ E ∨ (v, u) ∈ E) ∧ _))
  | E, .query x :: ops => have := decValid n ok (edges E (.query x : Op Q)) ops; inferInstanceAs (Decidable (ok x ∧ _))

end OfflineConnectivity
