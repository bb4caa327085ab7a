import Verif.Model.RedBlack

/-!
# Sequences kept in red-black trees: specification

`Made t xs` says that the tree `t` has been produced by calls of the public functions and that `xs` is the list which the same calls produce on lists.
-/

namespace RedBlack
open Cxx

variable {T F : Type}

/-- The laws of the template arguments. `P` tells whether products are of interest: without it only the action of `mapping` on single values matters. -/
structure Lawful (O : Ops T F) (K : Kind) (P : Prop) : Prop where
  map_id : ∀ x n, O.mapping O.id x n = x
  map_comp : ∀ f g x n, O.mapping (O.composition f g) x n = O.mapping f (O.mapping g x n) n
  has_prod : P → K.prod = true
  assoc : P → ∀ x y z, O.op (O.op x y) z = O.op x (O.op y z)
  op_e : P → ∀ x, O.op x O.e = x
  e_op : P → ∀ x, O.op O.e x = x
  map_op : P → ∀ f x y (n m : Int), 1 ≤ n → 1 ≤ m → O.mapping f (O.op x y) (n + m) = O.op (O.mapping f x n) (O.mapping f y m)
  comm : P → K.rev = true → ∀ x y, O.op x y = O.op y x

/-- The product of a list. -/
def prodL (O : Ops T F) (xs : List T) : T := xs.foldr O.op O.e

/-- The largest length: sizes are `int`. -/
def maxLen : Nat := 2 ^ 31 - 1

/-- `t` results from calls of the API that turn lists into `xs`. -/
inductive Made (O : Ops T F) (K : Kind) [DecidableEq F] : Tree T F → List T → Prop
  | empty : Made O K .nul []
  | build (a : Array T) (t) : a.size ≤ maxLen → build O K a = .ok t → Made O K t a.toList
  | merge (l r t xs ys) : Made O K l xs → Made O K r ys → xs.length + ys.length ≤ maxLen → merge O K l r = .ok t → Made O K t (xs ++ ys)
  | splitL (t xs) (k : Nat) (p) : Made O K t xs → k ≤ xs.length → split O K t k = .ok p → Made O K p.1 (xs.take k)
  | splitR (t xs) (k : Nat) (p) : Made O K t xs → k ≤ xs.length → split O K t k = .ok p → Made O K p.2 (xs.drop k)
  | splitRange1 (t xs) (l r : Nat) (p) : Made O K t xs → l ≤ r → r ≤ xs.length → splitRange O K t l r = .ok p → Made O K p.1 (xs.take l)
  | splitRange2 (t xs) (l r : Nat) (p) : Made O K t xs → l ≤ r → r ≤ xs.length → splitRange O K t l r = .ok p → Made O K p.2.1 ((xs.take r).drop l)
  | splitRange3 (t xs) (l r : Nat) (p) : Made O K t xs → l ≤ r → r ≤ xs.length → splitRange O K t l r = .ok p → Made O K p.2.2 (xs.drop r)
  | insert (t xs) (k : Nat) (v : T) (u) : Made O K t xs → k ≤ xs.length → xs.length < maxLen → insert O K t k v = .ok u → Made O K u (xs.take k ++ v :: xs.drop k)
  | pushFront (t xs) (v : T) (u) : Made O K t xs → xs.length < maxLen → pushFront O K t v = .ok u → Made O K u (v :: xs)
  | pushBack (t xs) (v : T) (u) : Made O K t xs → xs.length < maxLen → pushBack O K t v = .ok u → Made O K u (xs ++ [v])
  | erase (t xs) (k : Nat) (u) : Made O K t xs → k < xs.length → erase O K t k = .ok u → Made O K u.1 (xs.eraseIdx k)
  | popFront (t x xs) (u) : Made O K t (x :: xs) → popFront O K t = .ok u → Made O K u.1 xs
  | popBack (t x xs) (u) : Made O K t (xs ++ [x]) → popBack O K t = .ok u → Made O K u.1 xs
  | updateValue (t xs) (k : Nat) (g : T → T) (u) : Made O K t xs → k < xs.length → updateValue O K t k g = .ok u → Made O K u (xs.modify k g)
  | get (t xs) (k : Nat) (u) : Made O K t xs → k < xs.length → get O K t k = .ok u → Made O K u.1 xs
  | prod (t xs) (l r : Nat) (u) : Made O K t xs → l ≤ r → r ≤ xs.length → prod O K t l r = .ok u → Made O K u.1 xs
  | apply (t xs) (l r : Nat) (f : F) (u) : K.lazy = true → Made O K t xs → l ≤ r → r ≤ xs.length → apply O K t l r f = .ok u → Made O K u (xs.take l ++ ((xs.take r).drop l).map (fun x => O.mapping f x 1) ++ xs.drop r)
  | applyAll (t xs) (f : F) : K.lazy = true → Made O K t xs → Made O K (applyAll O f t) (xs.map fun x => O.mapping f x 1)
  | reverse (t xs) (l r : Nat) (u) : K.rev = true → Made O K t xs → l ≤ r → r ≤ xs.length → reverse O K t l r = .ok u → Made O K u (xs.take l ++ ((xs.take r).drop l).reverse ++ xs.drop r)
  | reverseAll (t xs) : K.rev = true → Made O K t xs → Made O K (reverseAll t) xs.reverse

end RedBlack

namespace RedBlack

/-- The number of nodes on the longest path from the root. -/
def depth {T F : Type} : Tree T F → Nat
  | .nul => 0
  | .node _ c0 c1 _ _ _ _ _ => max (depth c0) (depth c1) + 1

/-- The class without lazy operations. -/
def noLazy {T : Type} (op : T → T → T) (e : T) : Ops T Unit := ⟨op, e, fun _ x _ => x, fun _ _ => (), ()⟩

/-- The four classes. -/
def plain : Kind := ⟨false, false, false⟩
/-- `red_black_segment_tree`. -/
def segment : Kind := ⟨true, false, false⟩
/-- `red_black_lazy_segment_tree`. -/
def lazySegment : Kind := ⟨true, true, false⟩
/-- `red_black_reversible_lazy_segment_tree`. -/
def reversible : Kind := ⟨true, true, true⟩

end RedBlack
