import Verif.Cxx

/-!
# Cartesian trees

`w i j` says that element `i` is smaller than element `j`. The Cartesian tree of a segment has its first smallest element at the root and the
Cartesian trees of the two parts to either side as subtrees.
-/

namespace CartesianTree

/-- `i` is the first smallest element of the segment `[l, r)`. -/
structure FirstMin (w : Nat → Nat → Bool) (l r i : Nat) : Prop where
  lo : l ≤ i
  hi : i < r
  before : ∀ j, l ≤ j → j < i → w i j = true
  after : ∀ j, i < j → j < r → w j i = false

/-- The children stored in `g`, below the root `m`, form the Cartesian tree of the segment `[l, r)`; `-1` stands for the empty tree. -/
inductive IsCart (w : Nat → Nat → Bool) (g : Array (Int × Int)) : Nat → Int → Nat → Prop
  | nil (l : Nat) : IsCart w g l (-1) l
  | node {l m r : Nat} {a b : Int} (hm : FirstMin w l r m) (hg : g[m]? = some (a, b)) (hl : IsCart w g l a m) (hr : IsCart w g (m + 1) b r) :
      IsCart w g l (m : Int) r

/-- `[l, r)` is the largest segment around `i` in which `i` is the first smallest element. -/
structure MaxRange (w : Nat → Nat → Bool) (n i l r : Nat) : Prop where
  min : FirstMin w l r i
  bound : r ≤ n
  left : l = 0 ∨ w i (l - 1) = false
  right : r = n ∨ w r i = true

end CartesianTree
