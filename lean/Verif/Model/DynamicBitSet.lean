import Verif.Cxx

/-!
# Model of `library/datastructure/util/dynamic_bitset.hpp`

A block is a bit vector of 64 bits. Sizes and positions are natural numbers; sizes are below 2^31, so that `size()` and the counts fit in `int`. A shift by 64 or more is undefined.
-/

namespace DynamicBitSet
open Cxx

/-- `block` — dynamic_bitset.hpp:12-14. -/
abbrev Block := BitVec 64

/-- Members — dynamic_bitset.hpp:31-32. -/
structure BS where
  n : Nat
  blocks : Array Block
  deriving DecidableEq

/-- `b << k`. -/
def shl (b : Block) (k : Nat) : M Block := if k < 64 then return b <<< k else .error .ub

/-- `b >> k`. -/
def shr (b : Block) (k : Nat) : M Block := if k < 64 then return b >>> k else .error .ub

/-- `~block(0)`. -/
def ones : Block := BitVec.allOnes 64

/-- `__builtin_popcountll`. -/
def popcount (b : Block) : Nat := (List.range 64).countP fun i => b.getLsbD i

/-- `__builtin_ctzll`, undefined for 0. -/
def ctz (b : Block) : M Nat := if b = 0 then .error .ub else return b.ctz.toNat

/-- `(n + block_size - 1) >> log_block_size`. -/
def blockNum (n : Nat) : Nat := (n + 63) / 64

/-- `get_lower_bits`, `mask_lower_bits` — dynamic_bitset.hpp:320-322, 329-331. -/
def lower (b : Block) (num : Nat) : M Block := do
  if num = 0 then return 0
  let x ← shl b (64 - num)
  shr x (64 - num)

/-- `mask_upper_bits` — dynamic_bitset.hpp:332-334. -/
def maskUpper (b : Block) (num : Nat) : M Block := do
  if num = 0 then return 0
  let x ← shr b (64 - num)
  shl x (64 - num)

/-- `mask_range_bits` — dynamic_bitset.hpp:335-337. -/
def maskRange (b : Block) (l r : Nat) : M Block := do
  if l < r then
    let x ← shl b (64 - r)
    let x ← shr x (64 - r + l)
    shl x l
  else return 0

/-- `DynamicBitSet(n, fill_value)` — dynamic_bitset.hpp:34. -/
def make (n : Nat) (fill : Bool) : BS := ⟨n, Array.replicate (blockNum n) (if fill then ones else 0)⟩

/-- `blocks.resize(k)`. -/
def resizeBlocks (b : Array Block) (k : Nat) : Array Block := if k ≤ b.size then b.extract 0 k else b ++ Array.replicate (k - b.size) 0

/-- The common form of `range_set`, `range_reset`, `range_flip` — dynamic_bitset.hpp:181-222: `f` combines a block with a mask, `g` changes a whole block. -/
def rangeUpd (f : Block → Block → Block) (g : Block → Block) (s : BS) (l r : Nat) : M BS := do
  check (decide (l ≤ r ∧ r ≤ s.n))
  if l = r then return s
  let lb := l / 64
  let rb := (r - 1) / 64
  let li := l % 64
  let ri := if r % 64 = 0 then 64 else r % 64
  if lb = rb then
    let m ← maskRange ones li ri
    let x ← rd s.blocks lb
    let bl ← wr s.blocks lb (f x m)
    return { s with blocks := bl }
  let m ← maskUpper ones (64 - li)
  let x ← rd s.blocks lb
  let bl ← wr s.blocks lb (f x m)
  let m ← lower ones ri
  let x ← rd bl rb
  let bl ← wr bl rb (f x m)
  let bl ← forUp (lb + 1) rb bl fun i bl => do
    let x ← rd bl i
    wr bl i (g x)
  return { s with blocks := bl }

/-- `range_set` — dynamic_bitset.hpp:181-194. -/
def rangeSet : BS → Nat → Nat → M BS := rangeUpd (fun b m => b ||| m) fun _ => ones

/-- `range_reset` — dynamic_bitset.hpp:195-208. -/
def rangeReset : BS → Nat → Nat → M BS := rangeUpd (fun b m => b &&& ~~~m) fun _ => 0

/-- `range_flip` — dynamic_bitset.hpp:209-222. -/
def rangeFlip : BS → Nat → Nat → M BS := rangeUpd (fun b m => b ^^^ m) fun b => b ^^^ ones

/-- `range_update` — dynamic_bitset.hpp:223-225. -/
def rangeUpdate (s : BS) (l r : Nat) (v : Bool) : M BS := if v then rangeSet s l r else rangeReset s l r

/-- `resize` — dynamic_bitset.hpp:39-48. -/
def resize (s : BS) (m : Nat) (fill : Bool) : M BS :=
  if blockNum m < s.blocks.size then return ⟨m, resizeBlocks s.blocks (blockNum m)⟩
  else if s.n ≤ m then rangeUpdate ⟨m, resizeBlocks s.blocks (blockNum m)⟩ s.n m fill
  else return ⟨m, resizeBlocks s.blocks (blockNum m)⟩

/-- A change `b ← f b (block(1) << i)` of the block of bit `i` — lines 21-23 with 177-179. -/
def bitUpd (f : Block → Block → Block) (s : BS) (i : Nat) : M BS := do
  let b ← rd s.blocks (i / 64)
  let m ← shl 1 (i % 64)
  let bl ← wr s.blocks (i / 64) (f b m)
  return { s with blocks := bl }

/-- `s[i] = val` — dynamic_bitset.hpp:21-22, 27, 177-179. -/
def assign (s : BS) (i : Nat) (v : Bool) : M BS := if v then bitUpd (fun b m => b ||| m) s i else bitUpd (fun b m => b &&& ~~~m) s i

/-- `s[i].flip()` — dynamic_bitset.hpp:23. -/
def flip (s : BS) (i : Nat) : M BS := bitUpd (fun b m => b ^^^ m) s i

/-- `s[i] &= val` — dynamic_bitset.hpp:24. -/
def bitAnd (s : BS) (i : Nat) (v : Bool) : M BS := do
  let b ← rd s.blocks (i / 64)
  let m ← shl (if v then 1 else 0) (i % 64)
  let bl ← wr s.blocks (i / 64) (b &&& m)
  return { s with blocks := bl }

/-- `s[i] |= val` — dynamic_bitset.hpp:25. -/
def bitOr (s : BS) (i : Nat) (v : Bool) : M BS := do
  let b ← rd s.blocks (i / 64)
  let m ← shl (if v then 1 else 0) (i % 64)
  let bl ← wr s.blocks (i / 64) (b ||| m)
  return { s with blocks := bl }

/-- `s[i] ^= val` — dynamic_bitset.hpp:26. -/
def bitXor (s : BS) (i : Nat) (v : Bool) : M BS := do
  let b ← rd s.blocks (i / 64)
  let m ← shl (if v then 1 else 0) (i % 64)
  let bl ← wr s.blocks (i / 64) (b ^^^ m)
  return { s with blocks := bl }

/-- `push_back` — dynamic_bitset.hpp:49-56. -/
def pushBack (s : BS) (v : Bool) : M BS := do
  if s.n % 64 ≠ 0 then
    let s ← assign s s.n v
    return { s with n := s.n + 1 }
  else return ⟨s.n + 1, s.blocks.push (if v then 1 else 0)⟩

/-- `pop_back` — dynamic_bitset.hpp:57-60; for an empty set the size becomes 2^64 - 1. -/
def popBack (s : BS) : M BS := do
  let bl ← (if s.n % 64 = 1 then (if s.blocks.size = 0 then .error .ub else return s.blocks.pop) else return s.blocks : M (Array Block))
  return ⟨(s.n + (2 ^ 64 - 1)) % 2 ^ 64, bl⟩

/-- A loop over `i, i+1, ..., i+k-1` that returns at the first `some`. -/
def firstSome {α : Type} (p : Nat → M (Option α)) : Nat → Nat → M (Option α)
  | 0, _ => return none
  | k + 1, i => do
    match ← p i with
    | some a => return some a
    | none => firstSome p k (i + 1)

/-- `blocks.back()`. -/
def back (b : Array Block) : M Block := if b.size = 0 then .error .ub else rd b (b.size - 1)

/-- `num`: the number of bits in the last block — dynamic_bitset.hpp:68, 77, 89, 254, 264, 276, 306. -/
def lastBits (s : BS) : Nat := s.n - (s.blocks.size - 1) * 64

/-- `operator==` — dynamic_bitset.hpp:62-70. -/
def eq (x y : BS) : M Bool := do
  if x.n ≠ y.n then return false
  if x.n = 0 then return true
  match ← firstSome (fun i => do
      let a ← rd x.blocks i
      let b ← rd y.blocks i
      return if a ≠ b then some () else none) (x.blocks.size - 1) 0 with
  | some _ => return false
  | none =>
    let a ← lower (← back x.blocks) (lastBits x)
    let b ← lower (← back y.blocks) (lastBits x)
    return decide (a = b)

/-- The loop of lines 81-83 and 93-95 for the blocks below `i`; `d` is returned at the end. -/
def ltDown (xs ys : Array Block) (d : Bool) : Nat → M Bool
  | 0 => return d
  | i + 1 => do
    let a ← rd xs i
    let b ← rd ys i
    if a ≠ b then return decide (a.toNat < b.toNat) else ltDown xs ys d i

/-- `operator<` (`d` is false) and `operator<=` (`d` is true) — dynamic_bitset.hpp:74-97. -/
def cmp (d : Bool) (x y : BS) : M Bool := do
  check (decide (x.n = y.n))
  if x.n = 0 then return d
  let a ← lower (← back x.blocks) (lastBits x)
  let b ← lower (← back y.blocks) (lastBits x)
  if a ≠ b then return decide (a.toNat < b.toNat)
  ltDown x.blocks y.blocks d (x.blocks.size - 1)

/-- `operator<` — dynamic_bitset.hpp:74-85. -/
def lt (x y : BS) : M Bool := cmp false x y

/-- `operator<=` — dynamic_bitset.hpp:86-97. -/
def le (x y : BS) : M Bool := cmp true x y

/-- `operator&=`, `operator|=`, `operator^=` — dynamic_bitset.hpp:107-121. -/
def zip (f : Block → Block → Block) (x y : BS) : M BS := do
  check (decide (x.n = y.n))
  let bl ← forUp 0 y.blocks.size x.blocks fun i bl => do
    let a ← rd bl i
    let b ← rd y.blocks i
    wr bl i (f a b)
  return { x with blocks := bl }

/-- `blocks[k] |= v`. -/
def orAt (bl : Array Block) (k : Nat) (v : Block) : M (Array Block) := do
  let a ← rd bl k
  wr bl k (a ||| v)

/-- `operator<<` — dynamic_bitset.hpp:132-148. -/
def shiftLeft (x : BS) (k : Nat) : M BS := do
  if k ≥ x.n then return make x.n false
  let res := make x.n false
  let bs := k / 64
  let t := k % 64
  let bl ← forUp 0 (res.blocks.size - bs) res.blocks fun i bl => do
    if t = 0 then
      let a ← rd x.blocks i
      wr bl (i + bs) a
    else
      let a ← rd x.blocks i
      let bl ← orAt bl (i + bs) (← shl a t)
      if i + bs + 1 ≠ res.blocks.size then
        orAt bl (i + bs + 1) (← shr a (64 - t))
      else return bl
  return { res with blocks := bl }

/-- `operator>>` — dynamic_bitset.hpp:149-166. -/
def shiftRight (x : BS) (k : Nat) : M BS := do
  if k ≥ x.n then return make x.n false
  let res := make x.n false
  let bs := k / 64
  let t := k % 64
  let bl ← forUp 0 (x.blocks.size - bs) res.blocks fun i bl => do
    if t = 0 then
      let a ← rd x.blocks (i + bs)
      wr bl i a
    else
      let a ← rd x.blocks (i + bs)
      let bl ← orAt bl i (← shr a t)
      if i + bs + 1 ≠ x.blocks.size then
        let a ← rd x.blocks (i + bs + 1)
        orAt bl i (← shl a (64 - t))
      else return bl
  rangeReset { res with blocks := bl } (x.n - k) x.n

/-- `operator~` — dynamic_bitset.hpp:168-172. -/
def compl (x : BS) : M BS := do
  let res := make x.n false
  let bl ← forUp 0 x.blocks.size res.blocks fun i bl => do
    let a ← rd x.blocks i
    wr bl i (~~~a)
  return { res with blocks := bl }

/-- `s[i]`, `s[i].test()` — dynamic_bitset.hpp:19-20, 174-179. -/
def test (s : BS) (i : Nat) : M Bool := do
  let b ← rd s.blocks (i / 64)
  let b ← shr b (i % 64)
  return (b &&& 1) ≠ 0

/-- `range_count` — dynamic_bitset.hpp:226-241. -/
def rangeCount (s : BS) (l r : Nat) : M Nat := do
  check (decide (l ≤ r ∧ r ≤ s.n))
  if l = r then return 0
  let lb := l / 64
  let rb := (r - 1) / 64
  let li := l % 64
  let ri := if r % 64 = 0 then 64 else r % 64
  if lb = rb then
    let x ← rd s.blocks lb
    let m ← maskRange ones li ri
    return popcount (x &&& m)
  let x ← rd s.blocks lb
  let m ← maskUpper ones (64 - li)
  let res := popcount (x &&& m)
  let x ← rd s.blocks rb
  let m ← lower ones ri
  let res := res + popcount (x &&& m)
  forUp (lb + 1) rb res fun i res => do
    let x ← rd s.blocks i
    return res + popcount x

/-- `set()`, `reset()` — dynamic_bitset.hpp:243-248. -/
def setAll (s : BS) (v : Bool) : BS := { s with blocks := s.blocks.map fun _ => if v then ones else 0 }

/-- `all` — dynamic_bitset.hpp:249-258. -/
def all (s : BS) : M Bool := do
  if s.n = 0 then return true
  match ← firstSome (fun i => do
      let a ← rd s.blocks i
      return if a ≠ ones then some () else none) (s.blocks.size - 1) 0 with
  | some _ => return false
  | none =>
    let num := lastBits s
    check (decide (num ≠ 0))
    let upper ← shl 1 (64 - num)
    let upper ← shl (upper - 1) num
    return decide ((upper ||| (← back s.blocks)) = ones)

/-- `none` — dynamic_bitset.hpp:259-266. -/
def none (s : BS) : M Bool := do
  if s.n = 0 then return true
  match ← firstSome (fun i => do
      let a ← rd s.blocks i
      return if a ≠ 0 then some () else Option.none) (s.blocks.size - 1) 0 with
  | some _ => return false
  | .none =>
    let a ← lower (← back s.blocks) (lastBits s)
    return decide (a = 0)

/-- `any`, `operator bool` — dynamic_bitset.hpp:105, 267-269. -/
def any (s : BS) : M Bool := do return !(← none s)

/-- `count` — dynamic_bitset.hpp:270-278. -/
def count (s : BS) : M Nat := do
  if s.n = 0 then return 0
  let res ← forUp 0 (s.blocks.size - 1) 0 fun i res => do
    let x ← rd s.blocks i
    return res + popcount x
  let a ← lower (← back s.blocks) (lastBits s)
  return res + popcount a

/-- `if (b != 0) return std::min(n, __builtin_ctzll(b) | (i << log_block_size))`. -/
def hit (n i : Nat) (b : Block) : M (Option Nat) := do
  if b ≠ 0 then
    let c ← ctz b
    return some (min n (c ||| (i <<< 6)))
  else return Option.none

/-- `find_first` — dynamic_bitset.hpp:281-287. -/
def findFirst (s : BS) : M Nat := do
  if s.n = 0 then return s.n
  match ← firstSome (fun i => do hit s.n i (← rd s.blocks i)) s.blocks.size 0 with
  | some r => return r
  | .none => return s.n

/-- `find_next` — dynamic_bitset.hpp:289-298; `++pos` is modulo 2^64. -/
def findNext (s : BS) (pos : Nat) : M Nat := do
  let pos := (pos + 1) % 2 ^ 64
  let i := pos / 64
  if i ≥ s.blocks.size then return s.n
  let upper ← maskUpper (← rd s.blocks i) (64 - pos % 64)
  match ← hit s.n i upper with
  | some r => return r
  | .none =>
    match ← firstSome (fun i => do hit s.n i (← rd s.blocks i)) (s.blocks.size - (i + 1)) (i + 1) with
    | some r => return r
    | .none => return s.n

/-- `has_intersection` after the exchange of line 301 — dynamic_bitset.hpp:302-307. -/
def meets (x y : BS) : M Bool := do
  if x.n = 0 then return false
  match ← firstSome (fun i => do
      let a ← rd x.blocks i
      let b ← rd y.blocks i
      return if a &&& b ≠ 0 then some () else Option.none) (x.blocks.size - 1) 0 with
  | some _ => return true
  | .none =>
    let a ← lower (← back x.blocks) (lastBits x)
    let b ← rd y.blocks (x.blocks.size - 1)
    return decide (a &&& b ≠ 0)

/-- `has_intersection` — dynamic_bitset.hpp:300-308. -/
def hasIntersection (x y : BS) : M Bool := if x.n > y.n then meets y x else meets x y

/-- The calls: those that make a new object, those that change object `x`, those that only answer. -/
inductive Op
  | make (n : Nat) (fill : Bool) | copy (x : Nat)
  | and (x y : Nat) | or (x y : Nat) | xor (x y : Nat) | shiftLeft (x k : Nat) | shiftRight (x k : Nat) | compl (x : Nat)
  | andEq (x y : Nat) | orEq (x y : Nat) | xorEq (x y : Nat) | shiftLeftEq (x k : Nat) | shiftRightEq (x k : Nat)
  | resize (x m : Nat) (fill : Bool) | pushBack (x : Nat) (v : Bool) | popBack (x : Nat)
  | assign (x i : Nat) (v : Bool) | flip (x i : Nat) | bitAnd (x i : Nat) (v : Bool) | bitOr (x i : Nat) (v : Bool) | bitXor (x i : Nat) (v : Bool)
  | rangeSet (x l r : Nat) | rangeReset (x l r : Nat) | rangeFlip (x l r : Nat) | rangeUpdate (x l r : Nat) (v : Bool)
  | set (x : Nat) | reset (x : Nat)
  | size (x : Nat) | test (x i : Nat) | rangeCount (x l r : Nat) | all (x : Nat) | none (x : Nat) | any (x : Nat) | count (x : Nat)
  | findFirst (x : Nat) | findNext (x pos : Nat) | hasIntersection (x y : Nat) | isDisjoint (x y : Nat)
  | eq (x y : Nat) | ne (x y : Nat) | lt (x y : Nat) | le (x y : Nat) | gt (x y : Nat) | ge (x y : Nat)

/-- What a call returns. -/
inductive Out
  | unit | bool (b : Bool) | int (k : Nat)
  deriving DecidableEq

/-- A call that makes a new object. -/
def mk (os : Array BS) (m : M BS) : M (Array BS × Out) := do
  let s ← m
  return (os.push s, .unit)

/-- A call that changes object `x`. -/
def upd (os : Array BS) (x : Nat) (f : BS → M BS) : M (Array BS × Out) := do
  let s ← rd os x
  let s ← f s
  let os ← wr os x s
  return (os, .unit)

/-- A call that answers. -/
def ask (os : Array BS) (x : Nat) (f : BS → M Out) : M (Array BS × Out) := do
  let s ← rd os x
  let a ← f s
  return (os, a)

/-- One call on a family of objects. -/
def step (os : Array BS) : Op → M (Array BS × Out)
  | .make n fill => mk os (return make n fill)
  | .copy x => mk os (rd os x)
  | .and x y => mk os do zip (fun a b => a &&& b) (← rd os x) (← rd os y)
  | .or x y => mk os do zip (fun a b => a ||| b) (← rd os x) (← rd os y)
  | .xor x y => mk os do zip (fun a b => a ^^^ b) (← rd os x) (← rd os y)
  | .shiftLeft x k => mk os do shiftLeft (← rd os x) k
  | .shiftRight x k => mk os do shiftRight (← rd os x) k
  | .compl x => mk os do compl (← rd os x)
  | .andEq x y => upd os x fun s => do zip (fun a b => a &&& b) s (← rd os y)
  | .orEq x y => upd os x fun s => do zip (fun a b => a ||| b) s (← rd os y)
  | .xorEq x y => upd os x fun s => do zip (fun a b => a ^^^ b) s (← rd os y)
  | .shiftLeftEq x k => upd os x fun s => shiftLeft s k
  | .shiftRightEq x k => upd os x fun s => shiftRight s k
  | .resize x m fill => upd os x fun s => resize s m fill
  | .pushBack x v => upd os x fun s => pushBack s v
  | .popBack x => upd os x popBack
  | .assign x i v => upd os x fun s => assign s i v
  | .flip x i => upd os x fun s => flip s i
  | .bitAnd x i v => upd os x fun s => bitAnd s i v
  | .bitOr x i v => upd os x fun s => bitOr s i v
  | .bitXor x i v => upd os x fun s => bitXor s i v
  | .rangeSet x l r => upd os x fun s => rangeSet s l r
  | .rangeReset x l r => upd os x fun s => rangeReset s l r
  | .rangeFlip x l r => upd os x fun s => rangeFlip s l r
  | .rangeUpdate x l r v => upd os x fun s => rangeUpdate s l r v
  | .set x => upd os x fun s => return setAll s true
  | .reset x => upd os x fun s => return setAll s false
  | .size x => ask os x fun s => return .int s.n
  | .test x i => ask os x fun s => do return .bool (← test s i)
  | .rangeCount x l r => ask os x fun s => do return .int (← rangeCount s l r)
  | .all x => ask os x fun s => do return .bool (← all s)
  | .none x => ask os x fun s => do return .bool (← none s)
  | .any x => ask os x fun s => do return .bool (← any s)
  | .count x => ask os x fun s => do return .int (← count s)
  | .findFirst x => ask os x fun s => do return .int (← findFirst s)
  | .findNext x pos => ask os x fun s => do return .int (← findNext s pos)
  | .hasIntersection x y => ask os x fun s => do return .bool (← hasIntersection s (← rd os y))
  | .isDisjoint x y => ask os x fun s => do return .bool (!(← hasIntersection s (← rd os y)))
  | .eq x y => ask os x fun s => do return .bool (← eq s (← rd os y))
  | .ne x y => ask os x fun s => do return .bool (!(← eq s (← rd os y)))
  | .lt x y => ask os x fun s => do return .bool (← lt s (← rd os y))
  | .le x y => ask os x fun s => do return .bool (← le s (← rd os y))
  | .gt x y => ask os x fun s => do return .bool (!(← le s (← rd os y)))
  | .ge x y => ask os x fun s => do return .bool (!(← lt s (← rd os y)))

end DynamicBitSet
