import Verif.Model.SegmentTree

/-!
# Model of `library/datastructure/segment_tree/lazy_segment_tree.hpp`

`op`, `e`, `mapping`, `composition`, `id` are the template parameters; `enable_beats = false` (line 123 is not modelled).
-/

namespace Bits
open Cxx

/-- `__builtin_ctz(x)`: number of trailing zeros, undefined for 0. -/
def ctz (x : Nat) : M Nat := if x = 0 then .error .ub else .ok (Nat.log2 (lowbit x))

end Bits

namespace LazySegmentTree
open Cxx

/-- Members — lazy_segment_tree.hpp:109-111. -/
structure State (T F : Type) where
  n : Nat
  m : Nat
  lg : Nat
  data : Array T
  lazy : Array F

/-- The template parameters — lazy_segment_tree.hpp:9. -/
structure Params (T F : Type) where
  op : T → T → T
  e : T
  mapping : F → T → T
  composition : F → F → F
  id : F

variable {T F : Type} (p : Params T F)

/-- `void all_apply(int k, const operator_type& f)` — lazy_segment_tree.hpp:119-125. -/
def allApply (s : State T F) (k : Nat) (f : F) : M (State T F) := do
  let d ← rd s.data k
  let data ← wr s.data k (p.mapping f d)
  if k < s.m then
    let z ← rd s.lazy k
    let lazy ← wr s.lazy k (p.composition f z)
    return { s with data := data, lazy := lazy }
  else return { s with data := data }

/-- `void push(int k)` — lazy_segment_tree.hpp:126-129. -/
def push (s : State T F) (k : Nat) : M (State T F) := do
  let z ← rd s.lazy k
  let s ← allApply p s (2 * k) z
  let z ← rd s.lazy k
  let s ← allApply p s (2 * k + 1) z
  let lazy ← wr s.lazy k p.id
  return { s with lazy := lazy }

/-- `for (int i = lg; i >= lo; --i) push(x >> i);` — lazy_segment_tree.hpp:64, 89, 132, 137, 138. -/
def pushChain (s : State T F) (x lo : Nat) : M (State T F) :=
  forDown (s.lg + 1) lo s fun i s => push p s (x >>> i)

/-- `void push_to(int l, int r)` — lazy_segment_tree.hpp:134-139. -/
def pushTo2 (s : State T F) (l r : Nat) : M (State T F) := do
  let l := l + s.m
  let r := r + s.m
  let li ← Bits.ctz l
  let ri ← Bits.ctz r
  let s ← pushChain p s l (li + 1)
  pushChain p s r (ri + 1)

/-- `void update(int k)` — lazy_segment_tree.hpp:140-142. -/
def update (s : State T F) (k : Nat) : M (State T F) := do
  let data ← SegmentTree.update p.op s.data k
  return { s with data := data }

/-- `for (int i = lo; i <= lg; ++i) update(x >> i);` — lazy_segment_tree.hpp:145, 150, 151. -/
def updChain (s : State T F) (x lo : Nat) : M (State T F) :=
  forUp lo (s.lg + 1) s fun i s => update p s (x >>> i)

/-- `void update_from(int l, int r)` — lazy_segment_tree.hpp:147-152. -/
def updateFrom2 (s : State T F) (l r : Nat) : M (State T F) := do
  let l := l + s.m
  let r := r + s.m
  let li ← Bits.ctz l
  let ri ← Bits.ctz r
  let s ← updChain p s l (li + 1)
  updChain p s r (ri + 1)

/-- `LazySegmentTree(const std::vector<value_type>&)` — lazy_segment_tree.hpp:16-19. -/
def ofVector (a : Array T) : M (State T F) := do
  let m ← SegmentTree.ceilPow2 a.size
  let lg ← Bits.ctz m
  let data ← forUp 0 a.size (Array.replicate (2 * m) p.e) fun i data => do wr data (m + i) (← rd a i)
  let data ← forDown m 1 data fun k data => SegmentTree.update p.op data k
  return ⟨a.size, m, lg, data, Array.replicate m p.id⟩

/-- `if (l2 & 1) all_apply(l2++, f);` — lazy_segment_tree.hpp:25. -/
def applyL (f : F) (s : State T F) (l : Nat) : M (Nat × State T F) :=
  if l % 2 = 1 then do let s ← allApply p s l f; return (l + 1, s) else return (l, s)

/-- `if (r2 & 1) all_apply(--r2, f);` — lazy_segment_tree.hpp:26. -/
def applyR (f : F) (s : State T F) (r : Nat) : M (Nat × State T F) :=
  if r % 2 = 1 then do let s ← allApply p s (r - 1) f; return (r - 1, s) else return (r, s)

/-- One evaluation of the loop of `apply` — lazy_segment_tree.hpp:24-27. -/
def applyStep (f : F) (q : Nat × Nat × State T F) : M (Option (Nat × Nat × State T F)) :=
  let (l, r, s) := q
  if l < r then do
    let (l, s) ← applyL p f s l
    let (r, s) ← applyR p f s r
    return some (l / 2, r / 2, s)
  else return none

/-- `void apply(int l, int r, const operator_type& f)` — lazy_segment_tree.hpp:21-29. -/
def apply (s : State T F) (l r : Nat) (f : F) : M (State T F) := do
  check (decide (l ≤ r ∧ r ≤ s.n))
  let s ← pushTo2 p s l r
  let (_, _, s) ← loop (applyStep p f) (r + s.m) (l + s.m, r + s.m, s)
  updateFrom2 p s l r

/-- `value_type operator()(int l, int r)` (= `prod`) — lazy_segment_tree.hpp:34-43. -/
def prod (s : State T F) (l r : Nat) : M (State T F × T) := do
  check (decide (l ≤ r ∧ r ≤ s.n))
  let s ← pushTo2 p s l r
  let (_, _, a, b) ← loop (SegmentTree.prodStep p.op s.data) (r + s.m) (l + s.m, r + s.m, p.e, p.e)
  return (s, p.op a b)

/-- `value_type get(int p)`, i.e. `operator[](int)` then a read — lazy_segment_tree.hpp:50-55. -/
def get (s : State T F) (i : Nat) : M (State T F × T) := do
  check (decide (i < s.n))
  let s ← pushChain p s (i + s.m) 1
  let v ← rd s.data (i + s.m)
  return (s, v)

/-- `operator[](int)` followed by a modifying operator of `UpdateProxyObject` — lazy_segment_tree.hpp:50-54, 130-133, 143-146,
update_proxy_object.hpp:12-24. -/
def modify (s : State T F) (i : Nat) (h : T → T) : M (State T F) := do
  check (decide (i < s.n))
  let s ← pushChain p s (i + s.m) 1
  let v ← rd s.data (i + s.m)
  let data ← wr s.data (i + s.m) (h v)
  updChain p { s with data := data } (i + s.m) 1

/-- `void apply(int p, const operator_type& f)` — lazy_segment_tree.hpp:30-32. -/
def applyPoint (s : State T F) (i : Nat) (f : F) : M (State T F) := do
  let (s, v) ← get p s i
  modify p s i fun _ => p.mapping f v

/-- `value_type all_prod() const` — lazy_segment_tree.hpp:48. -/
def allProd (s : State T F) : M T := rd s.data 1

/-- Descent of `max_right` — lazy_segment_tree.hpp:69-73. -/
def descendR (g : T → Bool) (q : Nat × T × State T F) : M (Option (Nat × T × State T F)) :=
  let (l, sum, s) := q
  if l < s.m then do
    let s ← push p s l
    let d ← rd s.data (2 * l)
    if g (p.op sum d) then return some (2 * l + 1, p.op sum d, s) else return some (2 * l, sum, s)
  else return none

/-- One round of the loop of `max_right` — lazy_segment_tree.hpp:66-77. The `Bool` is "the loop has been left". -/
def maxStep (g : T → Bool) (q : Bool × Nat × T × State T F) : M (Option (Bool × Nat × T × State T F)) :=
  let (stop, l, sum, s) := q
  if stop then return none else do
    let l ← SegmentTree.climbEven l
    let d ← rd s.data l
    if g (p.op sum d) then
      let l := l + 1
      if Bits.lowbit l ≠ l then return some (false, l, p.op sum d, s) else return some (true, s.n, p.op sum d, s)
    else
      let (l, sum, s) ← loop (descendR p g) s.m (l, sum, s)
      return some (true, l - s.m, sum, s)

/-- `int max_right(int l, Pred g)` — lazy_segment_tree.hpp:59-79. -/
def maxRight (s : State T F) (l : Nat) (g : T → Bool) : M (State T F × Nat) := do
  check (decide (l ≤ s.n))
  check (g p.e)
  if l = s.n then return (s, s.n)
  let s ← pushChain p s (l + s.m) 1
  let (_, r, _, s) ← loop (maxStep p g) (2 * s.m) (false, l + s.m, p.e, s)
  return (s, r)

/-- Descent of `min_left` — lazy_segment_tree.hpp:95-99. -/
def descendL (g : T → Bool) (q : Nat × T × State T F) : M (Option (Nat × T × State T F)) :=
  let (r, sum, s) := q
  if r < s.m then do
    let s ← push p s r
    let d ← rd s.data (2 * r + 1)
    if g (p.op d sum) then return some (2 * r + 1 - 1, p.op d sum, s) else return some (2 * r + 1, sum, s)
  else return none

/-- One round of the loop of `min_left` — lazy_segment_tree.hpp:91-103. -/
def minStep (g : T → Bool) (q : Bool × Nat × T × State T F) : M (Option (Bool × Nat × T × State T F)) :=
  let (stop, r, sum, s) := q
  if stop then return none else do
    let r ← SegmentTree.climbOdd (r - 1)
    let d ← rd s.data r
    if g (p.op d sum) then
      if Bits.lowbit r ≠ r then return some (false, r, p.op d sum, s) else return some (true, 0, p.op d sum, s)
    else
      let (r, sum, s) ← loop (descendL p g) s.m (r, sum, s)
      return some (true, r + 1 - s.m, sum, s)

/-- `int min_left(int r, Pred g)` — lazy_segment_tree.hpp:84-105. -/
def minLeft (s : State T F) (r : Nat) (g : T → Bool) : M (State T F × Nat) := do
  check (decide (r ≤ s.n))
  check (g p.e)
  if r = 0 then return (s, 0)
  let s ← pushChain p s (r + s.m) 1
  let (_, l, _, s) ← loop (minStep p g) (2 * s.m) (false, r + s.m, p.e, s)
  return (s, l)

/-- The calls a user can make. -/
inductive Op (T F : Type) where
  | modify (i : Nat) (h : T → T) | applyPoint (i : Nat) (f : F) | apply (l r : Nat) (f : F) | get (i : Nat)
  | prod (l r : Nat) | prefixProd (r : Nat) | suffixProd (l : Nat) | allProd
  | maxRight (l : Nat) (g : T → Bool) | minLeft (r : Nat) (g : T → Bool)

/-- One call — `prefix_prod`, `suffix_prod`: lazy_segment_tree.hpp:46-47. -/
def step (s : State T F) : Op T F → M (State T F × SegmentTree.Out T)
  | .modify i h => do let s ← modify p s i h; return (s, .unit)
  | .applyPoint i f => do let s ← applyPoint p s i f; return (s, .unit)
  | .apply l r f => do let s ← apply p s l r f; return (s, .unit)
  | .get i => do let (s, v) ← get p s i; return (s, .val v)
  | .prod l r => do let (s, v) ← prod p s l r; return (s, .val v)
  | .prefixProd r => do let (s, v) ← prod p s 0 r; return (s, .val v)
  | .suffixProd l => do let (s, v) ← prod p s l s.m; return (s, .val v)
  | .allProd => do let v ← allProd s; return (s, .val v)
  | .maxRight l g => do let (s, r) ← maxRight p s l g; return (s, .idx r)
  | .minLeft r g => do let (s, l) ← minLeft p s r g; return (s, .idx l)

end LazySegmentTree
