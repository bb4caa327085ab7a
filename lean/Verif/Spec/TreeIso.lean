import Verif.Spec.Tree

/-! # Specification: isomorphisms of trees -/

namespace Tree
open Graph

/-- `f` is an isomorphism of the graphs `g` and `h`. -/
structure IsIso (g h : Array (List Nat)) (f : Nat → Nat) : Prop where
  maps : ∀ x, x < g.size → f x < h.size
  inj : ∀ x y, x < g.size → y < g.size → f x = f y → x = y
  surj : ∀ y, y < h.size → ∃ x, x < g.size ∧ f x = y
  edge : ∀ x y, x < g.size → y < g.size → (E g x y ↔ E h (f x) (f y))

/-- The graphs are isomorphic. -/
def Isomorphic (g h : Array (List Nat)) : Prop := ∃ f, IsIso g h f

/-- The graph `g` with root `r` and the graph `h` with root `s` are isomorphic. -/
def RootedIso (g : Array (List Nat)) (r : Nat) (h : Array (List Nat)) (s : Nat) : Prop := ∃ f, IsIso g h f ∧ f r = s

/-- `f` is an isomorphism of the subtree of `u` in the tree `g` rooted at `r` and the subtree of `v` in the tree `h` rooted at `s`. -/
structure IsSubtreeIso (g : Array (List Nat)) (r u : Nat) (h : Array (List Nat)) (s v : Nat) (f : Nat → Nat) : Prop where
  maps : ∀ x, Anc g r u x → Anc h s v (f x)
  inj : ∀ x y, Anc g r u x → Anc g r u y → f x = f y → x = y
  surj : ∀ y, Anc h s v y → ∃ x, Anc g r u x ∧ f x = y
  root : f u = v
  edge : ∀ x y, Anc g r u x → Anc g r u y → (E g x y ↔ E h (f x) (f y))

/-- The two rooted subtrees are isomorphic. -/
def SubtreeIso (g : Array (List Nat)) (r u : Nat) (h : Array (List Nat)) (s v : Nat) : Prop := ∃ f, IsSubtreeIso g r u h s v f

end Tree
