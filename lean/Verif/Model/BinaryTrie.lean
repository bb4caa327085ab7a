import Verif.Model.Machine

/-!
# Model of `library/datastructure/binary_trie.hpp`

Every node is owned by exactly one parent, so a pointer to a node is modelled by the tree below it (`nul` is the null pointer; using it as an object is undefined).
`w` is `bit_length`, `D` the number of bits of `U`. The sizes are `int`s; sums that could overflow are checked. `to_string` is not modelled.
-/

namespace BinaryTrie
open Cxx

/-- `Node*` — binary_trie.hpp:14-21. -/
inductive Node where
  | nul
  | node (siz : Int) (c0 c1 : Node)

/-- `bit(val, i)` — binary_trie.hpp:147-149. -/
def bit (val i : Nat) : Bool := (val >>> i) % 2 == 1

/-- `Node::size(node)` — binary_trie.hpp:29. -/
def size : Node → Int
  | .nul => 0
  | .node s _ _ => s

/-- `new Node` — binary_trie.hpp:17, 53. -/
def empty : Node := .node 0 .nul .nul

/-- `get_or_create`: the child to continue with — binary_trie.hpp:22-25. -/
def create : Node → Node
  | .nul => empty
  | .node s a b => .node s a b

/-- `(*cur)[b]` of an existing node. -/
def pick (b : Bool) (c0 c1 : Node) : Node := if b then c1 else c0

/-- The node with child `b` replaced. -/
def put (b : Bool) (s : Int) (c0 c1 c : Node) : Node := if b then .node s c0 c else .node s c c1

/-- The loop of `insert`, which walks from the root to the leaf, as a recursion over the remaining bits; returns the new subtree and the size of the leaf —
binary_trie.hpp:61-67. -/
def ins (val : Nat) (num : Int) : Nat → Node → M (Node × Int)
  | _, .nul => .error .ub
  | 0, .node s c0 c1 => do
    let s ← i32 (s + num)
    return (.node s c0 c1, s)
  | i + 1, .node s c0 c1 => do
    let s ← i32 (s + num)
    let r ← ins val num i (create (pick (bit val i) c0 c1))
    return (put (bit val i) s c0 c1 r.1, r.2)

/-- `insert(val, num)` — binary_trie.hpp:59-68. -/
def insert (w : Nat) (root : Node) (val : Nat) (num : Int) : M (Node × Int) := if num = 0 then return (root, 0) else ins val num w root

/-- `if (cur->is_absent(b)) return 0; …` — binary_trie.hpp:157-160; `rec` is the recursive call. -/
def eraseChild (s : Int) (b : Bool) (c0 c1 : Node) (rec : Node → M (Node × Int)) : M (Node × Int) :=
  match pick b c0 c1 with
  | .nul => return (.node s c0 c1, 0)
  | .node t d0 d1 => do
    let r ← rec (.node t d0 d1)
    let s ← i32 (size (pick (!b) c0 c1) + size r.1)
    return (put b s c0 c1 r.1, r.2)

/-- `erase(cur, k - 1, val, num)` — binary_trie.hpp:150-161. -/
def era (val : Nat) (num : Int) : Nat → Node → M (Node × Int)
  | _, .nul => .error .ub
  | 0, .node s c0 c1 => return (.node (s - min s num) c0 c1, min s num)
  | k + 1, .node s c0 c1 => eraseChild s (bit val k) c0 c1 (era val num k)

/-- `erase(val, num)` — binary_trie.hpp:69-72. -/
def erase (w : Nat) (root : Node) (val : Nat) (num : Int) : M (Node × Int) := if num = 0 then return (root, 0) else era val num w root

/-- `erase_all(val)` — binary_trie.hpp:73-75. -/
def eraseAll (w : Nat) (root : Node) (val : Nat) : M (Node × Int) := erase w root val (2 ^ 31 - 1)

/-- Loop of `prefix_count` — binary_trie.hpp:78-82. -/
def descend (val l : Nat) : Nat → Node → Int
  | 0, cur => size cur
  | i + 1, cur =>
    if i + 1 > l then
      match cur with
      | .nul => 0
      | .node _ c0 c1 => descend val l i (pick (bit val i) c0 c1)
    else size cur

/-- `prefix_count(val, l)` — binary_trie.hpp:76-83. -/
def prefixCount (w : Nat) (root : Node) (val l : Nat) : Int := descend val l w root

/-- `count(val)` — binary_trie.hpp:84. -/
def count (w : Nat) (root : Node) (val : Nat) : Int := prefixCount w root val 0

/-- `contains(val)` — binary_trie.hpp:85. -/
def contains (w : Nat) (root : Node) (val : Nat) : Bool := decide (count w root val > 0)

/-- Loop of `unchecked_xor_kth_element` — binary_trie.hpp:167-174. -/
def kthLoop (mq : Bool) (x : Nat) : Nat → Node → Int → Nat → M Nat
  | 0, _, _, res => return x ^^^ res
  | _ + 1, .nul, _, _ => .error .ub
  | i + 1, .node _ c0 c1, rest, res =>
    let b := mq ^^ bit x i
    let sz := size (pick b c0 c1)
    if sz ≤ rest then kthLoop mq x i (pick (!b) c0 c1) (rest - sz) (res ||| ((!b).toNat <<< i))
    else kthLoop mq x i (pick b c0 c1) rest (res ||| (b.toNat <<< i))

/-- `unchecked_xor_kth_element<mq>(x, k)` — binary_trie.hpp:162-175. -/
def kth (mq : Bool) (w : Nat) (root : Node) (x : Nat) (k : Int) : M Nat := kthLoop mq x w root k 0

/-- `xor_kth_min(x, k)` — binary_trie.hpp:87-90. -/
def xorKthMin (w : Nat) (root : Node) (x : Nat) (k : Int) : M Nat := do
  check (decide (0 ≤ k ∧ k < size root))
  kth false w root x k

/-- `xor_kth_max(x, k)` — binary_trie.hpp:91-94. -/
def xorKthMax (w : Nat) (root : Node) (x : Nat) (k : Int) : M Nat := do
  check (decide (0 ≤ k ∧ k < size root))
  kth true w root x k

/-- Loop of `xor_count_lt` — binary_trie.hpp:100-109. -/
def countLoop (x val : Nat) : Nat → Node → Int → Int
  | 0, _, res => res
  | _ + 1, .nul, res => res
  | i + 1, .node _ c0 c1, res =>
    let bx := bit x i
    let bv := bit (x ^^^ val) i
    countLoop x val i (pick bv c0 c1) (if bx ≠ bv then res + size (pick bx c0 c1) else res)

/-- `xor_count_lt(x, val)` — binary_trie.hpp:97-110. -/
def xorCountLt (w : Nat) (root : Node) (x val : Nat) : Int := countLoop x val w root 0

/-- `xor_count_leq(x, val)` — binary_trie.hpp:111. -/
def xorCountLeq (w : Nat) (root : Node) (x val : Nat) : M Int := i32 (xorCountLt w root x val + count w root val)

/-- `xor_count_gt(x, val)` — binary_trie.hpp:112. -/
def xorCountGt (w : Nat) (root : Node) (x val : Nat) : M Int := do
  let c ← xorCountLeq w root x val
  return size root - c

/-- `xor_count_geq(x, val)` — binary_trie.hpp:113. -/
def xorCountGeq (w : Nat) (root : Node) (x val : Nat) : Int := size root - xorCountLt w root x val

/-- `k < 0 ? default_value : unchecked_xor_kth_element(x, k)` — lines 116, 120. -/
def kthOrLow (w : Nat) (root : Node) (x : Nat) (k : Int) (dflt : Nat) : M Nat := if k < 0 then return dflt else kth false w root x k

/-- `k == size() ? default_value : unchecked_xor_kth_element(x, k)` — lines 124, 128. -/
def kthOrHigh (w : Nat) (root : Node) (x : Nat) (k : Int) (dflt : Nat) : M Nat := if k = size root then return dflt else kth false w root x k

/-- `xor_lower(x, val, default)` — binary_trie.hpp:114-117. -/
def xorLower (w : Nat) (root : Node) (x val dflt : Nat) : M Nat := kthOrLow w root x (size root - xorCountGeq w root x val - 1) dflt

/-- `xor_floor(x, val, default)` — binary_trie.hpp:118-121. -/
def xorFloor (w : Nat) (root : Node) (x val dflt : Nat) : M Nat := do
  let c ← xorCountGt w root x val
  kthOrLow w root x (size root - c - 1) dflt

/-- `xor_higher(x, val, default)` — binary_trie.hpp:122-125. -/
def xorHigher (w : Nat) (root : Node) (x val dflt : Nat) : M Nat := do
  let c ← xorCountLeq w root x val
  kthOrHigh w root x c dflt

/-- `xor_ceil(x, val, default)` — binary_trie.hpp:126-129. -/
def xorCeil (w : Nat) (root : Node) (x val dflt : Nat) : M Nat := kthOrHigh w root x (xorCountLt w root x val) dflt

/-- `min()` — binary_trie.hpp:132. -/
def min' (w : Nat) (root : Node) : M Nat := xorKthMin w root 0 0

/-- `max()` — binary_trie.hpp:133. -/
def max' (D w : Nat) (root : Node) : M Nat := xorKthMin w root (2 ^ D - 1) 0

end BinaryTrie
