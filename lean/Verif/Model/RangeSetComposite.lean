import Verif.Model.FenwickTreeSet
import Verif.Model.ModArith

/-!
# Model of `library/range_query/range_set_range_composite.hpp`

`op`, `e` are the template parameters. `atcoder::segtree` is modelled by its documented contract: an array, `set` writes one entry, `prod(l, r)` is the product of
the entries `l, …, r - 1`, and both assert that their arguments are in range. `int` is unbounded.
-/

namespace RangeSetComposite
open Cxx

variable {α : Type} (op : α → α → α) (e : α)

/-- The data members — lines 50-53. -/
structure State (α : Type) where
  n : Nat
  seg : Array α
  vs : Array α
  pos : FenwickTreeSet.State

/-- `v[i]` for an `int i`. -/
def rdI (a : Array α) (i : Int) : M α := if i < 0 then .error .ub else rd a i.toNat

/-- `v[i] = x` for an `int i`. -/
def wrI (a : Array α) (i : Int) (x : α) : M (Array α) := if i < 0 then .error .ub else wr a i.toNat x

/-- `atcoder::segtree::set(p, x)`. -/
def segSet (seg : Array α) (p : Int) (x : α) : M (Array α) := do
  check (decide (0 ≤ p ∧ p < seg.size))
  wr seg p.toNat x

/-- `atcoder::segtree::prod(l, r)`. -/
def segProd (seg : Array α) (l r : Int) : M α := do
  check (decide (0 ≤ l ∧ l ≤ r ∧ r ≤ seg.size))
  return ((seg.toList.drop l.toNat).take (r - l).toNat).foldl op e

/-- `_pow(i, n)` — lines 55-62, for `n >= 0`: the loop of `powi`. -/
def pow (vs : Array α) (i n : Int) : M α := do
  let v ← rdI vs i
  Powi.powi (fun x y => .ok (op x y)) e v n.toNat

/-- `RangeSetRangeComposite(n, val)` — lines 12-16; the set `_pos` is default-constructed. -/
def ofVal (n : Nat) (val : α) : M (State α) := do
  let r ← FenwickTreeSet.insert (FenwickTreeSet.init 0) 0
  let vs ← wr (Array.replicate n e) 0 val
  let v ← pow op e vs 0 n
  let seg ← segSet (Array.replicate n e) 0 v
  let r ← FenwickTreeSet.insert r.1 n
  return ⟨n, seg, vs, r.1⟩

/-- `RangeSetRangeComposite(a)` — line 17. -/
def ofVector (a : List α) : M (State α) := do
  let pos ← FenwickTreeSet.full (a.length + 1)
  return ⟨a.length, a.toArray, a.toArray, pos⟩

/-- `max_lt(v)` of the set. -/
def maxLt (s : FenwickTreeSet.State) (v : Int) : M Int := FenwickTreeSet.maxLeq s (v - 1)

/-- `min_gt(v)` of the set. -/
def minGt (s : FenwickTreeSet.State) (v : Int) : M Int := FenwickTreeSet.minGeq s (v + 1)

/-- Cut at `l` — lines 22-27. -/
def cutL (s : State α) (l : Int) : M (State α) := do
  let ml ← FenwickTreeSet.minGeq s.pos l
  if ml ≠ l then do
    let pl ← maxLt s.pos ml
    let q ← FenwickTreeSet.insert s.pos l
    let v ← rdI s.vs pl
    let vs ← wrI s.vs l v
    let w ← pow op e vs pl (l - pl)
    let seg ← segSet s.seg pl w
    return ⟨s.n, seg, vs, q.1⟩
  else return s

/-- Cut at `r` — lines 28-33. -/
def cutR (s : State α) (r : Int) : M (State α) := do
  let mr ← FenwickTreeSet.minGeq s.pos r
  if mr ≠ r then do
    let pr ← maxLt s.pos mr
    let q ← FenwickTreeSet.insert s.pos r
    let v ← rdI s.vs pr
    let vs ← wrI s.vs r v
    let w ← pow op e vs r (mr - r)
    let seg ← segSet s.seg r w
    return ⟨s.n, seg, vs, q.1⟩
  else return s

/-- One round of `for (int i = l; (i = _pos.min_gt(i)) != r;) _pos.erase(i), _seg.set(i, e());` — line 36; the state is `i`, `_pos` and `_seg`. -/
def clearStep (r : Int) (q : Int × FenwickTreeSet.State × Array α) : M (Option (Int × FenwickTreeSet.State × Array α)) := do
  let i ← minGt q.2.1 q.1
  if i ≠ r then do
    let p ← FenwickTreeSet.erase q.2.1 i
    let seg ← segSet q.2.2 i e
    return some (i, p.1, seg)
  else return none

/-- `set(l, r, f)` — lines 19-37. -/
def set (s : State α) (l r : Int) (f : α) : M (State α) := do
  check (decide (0 ≤ l ∧ l ≤ r ∧ r ≤ s.n))
  if l = r then return s
  else do
    let s ← cutL op e s l
    let s ← cutR op e s r
    let vs ← wrI s.vs l f
    let w ← pow op e vs l (r - l)
    let seg ← segSet s.seg l w
    let q ← loop (clearStep e r) s.n (l, s.pos, seg)
    return ⟨s.n, q.2.2, vs, q.2.1⟩

/-- `prod(l, r)` — lines 38-48. -/
def prod (s : State α) (l r : Int) : M α := do
  check (decide (0 ≤ l ∧ l ≤ r ∧ r ≤ s.n))
  if l = r then return e
  else do
    let ml ← FenwickTreeSet.minGeq s.pos l
    if ml ≥ r then do
      let p ← maxLt s.pos ml
      pow op e s.vs p (r - l)
    else do
      let mr ← FenwickTreeSet.maxLeq s.pos r
      let fl ← (if ml = l then return e else do
        let p ← maxLt s.pos ml
        pow op e s.vs p (ml - l) : M α)
      let fm ← segProd op e s.seg ml mr
      let fr ← (if mr = r then return e else pow op e s.vs mr (r - mr) : M α)
      return op (op fl fm) fr

/-- A call of the public interface. -/
inductive Op (α : Type)
  | set (l r : Int) (f : α)
  | prod (l r : Int)

/-- An answer. -/
inductive Out (α : Type)
  | unit
  | val (v : α)
deriving DecidableEq

/-- The effect of a call. -/
def step (s : State α) : Op α → M (State α × Out α)
  | .set l r f => do
    let s ← set op e s l r f
    return (s, .unit)
  | .prod l r => do
    let v ← prod op e s l r
    return (s, .val v)

end RangeSetComposite
