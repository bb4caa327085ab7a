import Verif.Model.LazySegmentTree

/-!
# Model of `library/datastructure/segment_tree/segment_tree_beats.hpp` and `library/range_query/range_chmin_chmax_add_range_sum.hpp`

`SegmentTreeBeats` is `LazySegmentTree` with `enable_beats = true` (segment_tree_beats.hpp:8).  `mapping` and `composition` may have
undefined behaviour (`std::clamp` with its bounds in the wrong order), so they are monadic here.

Simplifications: the integers of type `T` are exact (no overflow) and `inf` is a parameter; `max_right` and `min_left` of
the structure with `enable_beats = true` are not modelled.
-/

namespace Beats
open Cxx
export LazySegmentTree (State)

/-- The template parameters — lazy_segment_tree.hpp:9; `fail` is the member read at line 123. -/
structure Params (T F : Type) where
  op : T → T → T
  e : T
  mapping : F → T → M T
  composition : F → F → M F
  id : F
  fail : T → Bool

variable {T F : Type} (p : Params T F)

/-- `void update(int k)` — lazy_segment_tree.hpp:140-142. -/
def update (s : State T F) (k : Nat) : M (State T F) := do
  let data ← SegmentTree.update p.op s.data k
  return { s with data := data }

/-- `void push(int k)` — lazy_segment_tree.hpp:126-129, where `app` stands for `all_apply`. -/
def pushWith (app : State T F → Nat → F → M (State T F)) (s : State T F) (k : Nat) : M (State T F) := do
  let z ← rd s.lazy k
  let s ← app s (2 * k) z
  let z ← rd s.lazy k
  let s ← app s (2 * k + 1) z
  let lazy ← wr s.lazy k p.id
  return { s with lazy := lazy }

/-- `void all_apply(int k, const operator_type& f)` with `enable_beats` — lazy_segment_tree.hpp:119-125.  The first argument
bounds the depth of the recursion through `push`. -/
def allApply : Nat → State T F → Nat → F → M (State T F)
  | 0, _, _, _ => .error .diverge
  | fuel + 1, s, k, f => do
    let d ← rd s.data k
    let d ← p.mapping f d
    let data ← wr s.data k d
    let s := { s with data := data }
    if k < s.m then
      let z ← rd s.lazy k
      let z ← p.composition f z
      let lazy ← wr s.lazy k z
      let s := { s with lazy := lazy }
      let d ← rd s.data k
      if p.fail d then
        let s ← pushWith p (allApply fuel) s k
        update p s k
      else return s
    else return s

/-- `void push(int k)` — lazy_segment_tree.hpp:126-129. -/
def push (s : State T F) (k : Nat) : M (State T F) := pushWith p (allApply p (s.lg + 1)) s k

/-- `for (int i = lg; i >= lo; --i) push(x >> i);` — lazy_segment_tree.hpp:137, 138. -/
def pushChain (s : State T F) (x lo : Nat) : M (State T F) :=
  forDown (s.lg + 1) lo s fun i s => push p s (x >>> i)

/-- `void push_to(int l, int r)` — lazy_segment_tree.hpp:134-139. -/
def pushTo2 (s : State T F) (l r : Nat) : M (State T F) := do
  let l := l + s.m
  let r := r + s.m
  let li ← Bits.ctz l
  let ri ← Bits.ctz r
  let s ← pushChain p s l (li + 1)
  pushChain p s r (ri + 1)

/-- `for (int i = lo; i <= lg; ++i) update(x >> i);` — lazy_segment_tree.hpp:150, 151. -/
def updChain (s : State T F) (x lo : Nat) : M (State T F) :=
  forUp lo (s.lg + 1) s fun i s => update p s (x >>> i)

/-- `void update_from(int l, int r)` — lazy_segment_tree.hpp:147-152. -/
def updateFrom2 (s : State T F) (l r : Nat) : M (State T F) := do
  let l := l + s.m
  let r := r + s.m
  let li ← Bits.ctz l
  let ri ← Bits.ctz r
  let s ← updChain p s l (li + 1)
  updChain p s r (ri + 1)

/-- `LazySegmentTree(const std::vector<value_type>&)` — lazy_segment_tree.hpp:16-19. -/
def ofVector (a : Array T) : M (State T F) := do
  let m ← SegmentTree.ceilPow2 a.size
  let lg ← Bits.ctz m
  let data ← forUp 0 a.size (Array.replicate (2 * m) p.e) fun i data => do wr data (m + i) (← rd a i)
  forDown m 1 ⟨a.size, m, lg, data, Array.replicate m p.id⟩ fun k s => update p s k

/-- `if (l2 & 1) all_apply(l2++, f);` — lazy_segment_tree.hpp:25. -/
def applyL (f : F) (s : State T F) (l : Nat) : M (Nat × State T F) :=
  if l % 2 = 1 then do let s ← allApply p (s.lg + 1) s l f; return (l + 1, s) else return (l, s)

/-- `if (r2 & 1) all_apply(--r2, f);` — lazy_segment_tree.hpp:26. -/
def applyR (f : F) (s : State T F) (r : Nat) : M (Nat × State T F) :=
  if r % 2 = 1 then do let s ← allApply p (s.lg + 1) s (r - 1) f; return (r - 1, s) else return (r, s)

/-- One evaluation of the loop of `apply` — lazy_segment_tree.hpp:24-27. -/
def applyStep (f : F) (q : Nat × Nat × State T F) : M (Option (Nat × Nat × State T F)) :=
  let (l, r, s) := q
  if l < r then do
    let (l, s) ← applyL p f s l
    let (r, s) ← applyR p f s r
    return some (l / 2, r / 2, s)
  else return none

/-- `void apply(int l, int r, const operator_type& f)` — lazy_segment_tree.hpp:21-29. -/
def apply (s : State T F) (l r : Nat) (f : F) : M (State T F) := do
  check (decide (l ≤ r ∧ r ≤ s.n))
  let s ← pushTo2 p s l r
  let (_, _, s) ← loop (applyStep p f) (r + s.m) (l + s.m, r + s.m, s)
  updateFrom2 p s l r

/-- `value_type operator()(int l, int r)` (= `prod`) — lazy_segment_tree.hpp:34-43. -/
def prod (s : State T F) (l r : Nat) : M (State T F × T) := do
  check (decide (l ≤ r ∧ r ≤ s.n))
  let s ← pushTo2 p s l r
  let (_, _, a, b) ← loop (SegmentTree.prodStep p.op s.data) (r + s.m) (l + s.m, r + s.m, p.e, p.e)
  return (s, p.op a b)

end Beats

namespace RangeChMinMaxAdd
open Cxx
open Beats (State)

/-- `struct DataType` — range_chmin_chmax_add_range_sum.hpp:13-31. -/
structure Data where
  fail : Bool
  lo : Int
  lo2 : Int
  hi : Int
  hi2 : Int
  sum : Int
  siz : Int
  numLo : Int
  numHi : Int

/-- `struct F` — range_chmin_chmax_add_range_sum.hpp:87-94. -/
structure Fn where
  lb : Int
  ub : Int
  add : Int

variable (inf : Int)

/-- `DataType()` and `e()` — range_chmin_chmax_add_range_sum.hpp:18, 121-123. -/
def e : Data := ⟨false, inf, inf, -inf, -inf, 0, 0, 0, 0⟩

/-- `DataType(T x, int num)` — range_chmin_chmax_add_range_sum.hpp:19. -/
def mk (x num : Int) : Data := ⟨false, x, inf, x, -inf, x * num, num, num, num⟩

/-- `F::chmin_query` — range_chmin_chmax_add_range_sum.hpp:90. -/
def chminQuery (x : Int) : Fn := ⟨-inf, x, 0⟩

/-- `F::chmax_query` — range_chmin_chmax_add_range_sum.hpp:91. -/
def chmaxQuery (x : Int) : Fn := ⟨x, inf, 0⟩

/-- `F::update_query` — range_chmin_chmax_add_range_sum.hpp:92. -/
def updateQuery (x : Int) : Fn := ⟨x, x, 0⟩

/-- `F::add_query` — range_chmin_chmax_add_range_sum.hpp:93. -/
def addQuery (x : Int) : Fn := ⟨-inf, inf, x⟩

/-- `id()` — range_chmin_chmax_add_range_sum.hpp:155-157, 89. -/
def idF : Fn := ⟨-inf, inf, 0⟩

/-- `second_lo` — range_chmin_chmax_add_range_sum.hpp:96-101. -/
def secondLo (lo11 lo12 lo21 lo22 : Int) : Int :=
  if lo11 = lo21 then min lo12 lo22
  else if lo12 ≤ lo21 then lo12
  else if lo22 ≤ lo11 then lo22
  else max lo11 lo21

/-- `second_hi` — range_chmin_chmax_add_range_sum.hpp:102-107. -/
def secondHi (hi11 hi12 hi21 hi22 : Int) : Int :=
  if hi11 = hi21 then max hi12 hi22
  else if hi12 ≥ hi21 then hi12
  else if hi22 ≥ hi11 then hi22
  else min hi11 hi21

/-- `op` — range_chmin_chmax_add_range_sum.hpp:109-120. -/
def op (x y : Data) : Data :=
  let lo := min x.lo y.lo
  let hi := max x.hi y.hi
  { fail := false, lo := lo, hi := hi,
    lo2 := secondLo x.lo x.lo2 y.lo y.lo2,
    hi2 := secondHi x.hi x.hi2 y.hi y.hi2,
    sum := x.sum + y.sum, siz := x.siz + y.siz,
    numLo := (if lo = x.lo then 1 else 0) * x.numLo + (if lo = y.lo then 1 else 0) * y.numLo,
    numHi := (if hi = x.hi then 1 else 0) * x.numHi + (if hi = y.hi then 1 else 0) * y.numHi }

/-- `std::clamp(v, lo, hi)`: undefined if `hi < lo`. -/
def clamp (v lo hi : Int) : M Int := if hi < lo then .error .ub else .ok (if v < lo then lo else if hi < v then hi else v)

/-- `mapping` — range_chmin_chmax_add_range_sum.hpp:125-147. -/
def mapping (f : Fn) (x : Data) : M Data :=
  if x.siz = 0 then return e inf
  else if x.lo = x.hi ∨ f.lb = f.ub ∨ f.lb ≥ x.hi ∨ f.ub ≤ x.lo then do
    let c ← clamp x.lo f.lb f.ub
    return mk inf (c + f.add) x.siz
  else if x.lo2 = x.hi then
    let lo := max x.lo f.lb + f.add
    let hi := min x.hi f.ub + f.add
    return { x with lo := lo, hi2 := lo, hi := hi, lo2 := hi, sum := lo * x.numLo + hi * x.numHi }
  else if f.lb < x.lo2 ∧ f.ub > x.hi2 then
    let nlo := max x.lo f.lb
    let nhi := min x.hi f.ub
    return { x with
      sum := x.sum + ((nlo - x.lo) * x.numLo + (nhi - x.hi) * x.numHi + f.add * x.siz),
      lo := nlo + f.add, hi := nhi + f.add, lo2 := x.lo2 + f.add, hi2 := x.hi2 + f.add }
  else return { x with fail := true }

/-- `composition` — range_chmin_chmax_add_range_sum.hpp:148-154. -/
def composition (f g : Fn) : M Fn := do
  let lb ← clamp (g.lb + g.add) f.lb f.ub
  let ub ← clamp (g.ub + g.add) f.lb f.ub
  return ⟨lb - g.add, ub - g.add, f.add + g.add⟩

/-- The instantiation of `SegmentTreeBeats` — range_chmin_chmax_add_range_sum.hpp:159. -/
def prm : Beats.Params Data Fn := ⟨op, e inf, mapping inf, composition, idF inf, Data.fail⟩

/-- `RangeChMinMaxAddRangeSum(const std::vector<T>&)` — range_chmin_chmax_add_range_sum.hpp:34-41. -/
def ofVector (init : Array Int) : M (State Data Fn) := do
  let a ← forUp 0 init.size (Array.replicate init.size (e inf)) fun i a => do wr a i (mk inf (← rd init i) 1)
  Beats.ofVector (prm inf) a

/-- `RangeChMinMaxAddRangeSum(int n)` — range_chmin_chmax_add_range_sum.hpp:33. -/
def init (n : Nat) : M (State Data Fn) := ofVector inf (Array.replicate n 0)

/-- The calls of the public interface that are modelled. -/
inductive Op where
  | chmin (l r : Nat) (x : Int)
  | chmax (l r : Nat) (x : Int)
  | update (l r : Nat) (x : Int)
  | add (l r : Nat) (x : Int)
  | max (l r : Nat)
  | min (l r : Nat)
  | sum (l r : Nat)
  | prod (l r : Nat)

/-- Results of the calls. -/
inductive Out where
  | unit
  | val (x : Int)
  | data (d : Data)

/-- One call — range_chmin_chmax_add_range_sum.hpp:43-66 and the accessors 21-27. -/
def step (s : State Data Fn) : Op → M (State Data Fn × Out)
  | .chmin l r x => do let s ← Beats.apply (prm inf) s l r (chminQuery inf x); return (s, .unit)
  | .chmax l r x => do let s ← Beats.apply (prm inf) s l r (chmaxQuery inf x); return (s, .unit)
  | .update l r x => do let s ← Beats.apply (prm inf) s l r (updateQuery x); return (s, .unit)
  | .add l r x => do let s ← Beats.apply (prm inf) s l r (addQuery inf x); return (s, .unit)
  | .max l r => do let (s, d) ← Beats.prod (prm inf) s l r; return (s, .val d.hi)
  | .min l r => do let (s, d) ← Beats.prod (prm inf) s l r; return (s, .val d.lo)
  | .sum l r => do let (s, d) ← Beats.prod (prm inf) s l r; return (s, .val d.sum)
  | .prod l r => do let (s, d) ← Beats.prod (prm inf) s l r; return (s, .data d)

end RangeChMinMaxAdd
