import Verif.Model.Bits

/-!
# Models of `library/datastructure/fenwick_tree/{fenwick_tree,fenwick_tree_prefix,fenwick_tree_2d}.hpp`
-/

namespace Fenwick
open Cxx Bits

variable {T : Type} (add : T → T → T)

/-- One evaluation of the loop head/body `i <= n; i += (i & -i)) data[i - off] += v` — fenwick_tree.hpp:20 (`off = 1`),
fenwick_tree_prefix.hpp:18 (`off = 0`). -/
def addStep (off n : Nat) (v : T) (s : Nat × Array T) : M (Option (Nat × Array T)) :=
  if s.1 ≤ n then do
    let d ← rd s.2 (s.1 - off)
    let data ← wr s.2 (s.1 - off) (add d v)
    return some (s.1 + lowbit s.1, data)
  else return none

/-- The update loop starting at the (1-indexed) node `i`. The iteration bound `n` is an artefact of the model. -/
def addLoop (off n : Nat) (v : T) (i : Nat) (data : Array T) : M (Array T) := do
  let (_, data) ← loop (addStep add off n v) n (i, data)
  return data

/-- One evaluation of the loop head/body `for (; r; r -= r & -r) s += data[r - off];` — fenwick_tree.hpp:52 (`off = 1`),
fenwick_tree_prefix.hpp:22 (`off = 0`). -/
def sumStep (off : Nat) (data : Array T) (s : Nat × T) : M (Option (Nat × T)) :=
  if s.1 = 0 then return none else do
    let d ← rd data (s.1 - off)
    return some (s.1 - lowbit s.1, add s.2 d)

/-- The prefix query loop. -/
def sumLoop (off : Nat) (data : Array T) (zero : T) (r : Nat) : M T := do
  let (_, s) ← loop (sumStep add off data) r (r, zero)
  return s

/-- One iteration of the build loop `p = i + (i & -i); if (p <= n) data[p - off] += data[i - off];` —
fenwick_tree.hpp:68-69. -/
def buildStep (off n i : Nat) (data : Array T) : M (Array T) :=
  let p := i + lowbit i
  if p ≤ n then do
    let dp ← rd data (p - off)
    let di ← rd data (i - off)
    wr data (p - off) (add dp di)
  else return data

end Fenwick

namespace FenwickTree
open Cxx

variable {T : Type} [Add T] [Sub T] [Neg T] [Zero T]

/-- `FenwickTree(int n)` — fenwick_tree.hpp:65. The object is `data`; `n` is its size. -/
def init (n : Nat) : Array T := Array.replicate n 0

/-- `FenwickTree(std::vector<T>&& a)` — fenwick_tree.hpp:66-71. -/
def ofVector (a : Array T) : M (Array T) := forUp 1 (a.size + 1) a (Fenwick.buildStep (· + ·) 1 a.size)

/-- `void add(index_t i, T v)` — fenwick_tree.hpp:19-21. -/
def add (data : Array T) (i : Nat) (v : T) : M (Array T) := Fenwick.addLoop (· + ·) 1 data.size v (i + 1) data

/-- `T sum(int r) const` — fenwick_tree.hpp:50-54. -/
def prefixSum (data : Array T) (r : Nat) : M T := Fenwick.sumLoop (· + ·) 1 data 0 r

/-- `T sum(index_t l, index_t r) const` — fenwick_tree.hpp:22-24. -/
def sum (data : Array T) (l r : Nat) : M T := do
  let a ← prefixSum data r
  let b ← prefixSum data l
  return a - b

/-- The calls a user can make: `add`, `sum`/`operator()`, and through `operator[]` a read, `+=`, `-=`, and the
read-modify-write operators `*=`, `/=`, `%=`, `=` (all of the form `modify i h`, fenwick_tree.hpp:34-37). -/
inductive Op (T : Type) where
  | add (i : Nat) (v : T) | sub (i : Nat) (v : T) | modify (i : Nat) (h : T → T) | get (i : Nat) | sum (l r : Nat)

/-- One call; `none` is returned by `void` calls. fenwick_tree.hpp:29-41. -/
def step (data : Array T) : Op T → M (Array T × Option T)
  | .add i v => do let d ← add data i v; return (d, none)
  | .sub i v => do let d ← add data i (-v); return (d, none)
  | .modify i h => do
    let cur ← sum data i (i + 1)
    let d ← add data i (h cur - cur)
    return (d, none)
  | .get i => do let v ← sum data i (i + 1); return (data, some v)
  | .sum l r => do let v ← sum data l r; return (data, some v)

end FenwickTree

namespace FenwickTreePrefix
open Cxx

variable {T : Type} (op : T → T → T) (e : T)

/-- `FenwickTreePrefix(int n)` — fenwick_tree_prefix.hpp:10. The object is `_dat` (`_n = _dat.size() - 1`). -/
def init (n : Nat) : Array T := Array.replicate (n + 1) e

/-- Loop body of the vector constructor — fenwick_tree_prefix.hpp:12-15. -/
def ctorStep (a : Array T) (i : Nat) (dat : Array T) : M (Array T) := do
  let d ← rd dat i
  let v ← rd a (i - 1)
  let dat ← wr dat i (op d v)
  Fenwick.buildStep op 0 a.size i dat

/-- `FenwickTreePrefix(const std::vector<T>&)` — fenwick_tree_prefix.hpp:11-16: `i` runs *downwards* from `_n` to 1. -/
def ofVector (a : Array T) : M (Array T) :=
  forDown (a.size + 1) 1 (init e a.size) (ctorStep op a)

/-- `void apply(int i, const T& val)` — fenwick_tree_prefix.hpp:17-19. -/
def apply (dat : Array T) (i : Nat) (v : T) : M (Array T) := Fenwick.addLoop op 0 (dat.size - 1) v (i + 1) dat

/-- `T prefix_query(int r) const` — fenwick_tree_prefix.hpp:20-24. -/
def prefixQuery (dat : Array T) (r : Nat) : M T := Fenwick.sumLoop op 0 dat e r

/-- The calls a user can make. -/
inductive Op (T : Type) where
  | apply (i : Nat) (v : T) | query (r : Nat)

/-- One call. -/
def step (dat : Array T) : Op T → M (Array T × Option T)
  | .apply i v => do let d ← apply op dat i v; return (d, none)
  | .query r => do let v ← prefixQuery op e dat r; return (dat, some v)

end FenwickTreePrefix

namespace FenwickTree2D
open Cxx Bits

variable {T : Type} [Add T] [Sub T] [Neg T] [Zero T]

/-- Members `n`, `m`, `data` — fenwick_tree_2d.hpp:41-42 (`n` is `data.size()`). -/
structure State (T : Type) where
  m : Nat
  data : Array (Array T)

/-- `FenwickTree2D(int n, int m)` — fenwick_tree_2d.hpp:12. -/
def init (n m : Nat) : State T := ⟨m, Array.replicate n (Array.replicate m 0)⟩

/-- One iteration of the outer loop of `add` — fenwick_tree_2d.hpp:14-16. The inner loop touches only row `x - 1`, which is
read before and stored back after it. -/
def addRow (n m : Nat) (j : Nat) (v : T) (s : Nat × Array (Array T)) : M (Option (Nat × Array (Array T))) :=
  if s.1 ≤ n then do
    let row ← rd s.2 (s.1 - 1)
    let row ← Fenwick.addLoop (· + ·) 1 m v (j + 1) row
    let data ← wr s.2 (s.1 - 1) row
    return some (s.1 + lowbit s.1, data)
  else return none

/-- `void add(int i, int j, T v)` — fenwick_tree_2d.hpp:13-17. -/
def add (s : State T) (i j : Nat) (v : T) : M (State T) := do
  let n := s.data.size
  let (_, data) ← loop (addRow n s.m j v) n (i + 1, s.data)
  return ⟨s.m, data⟩

/-- One iteration of the outer loop of the prefix sum — fenwick_tree_2d.hpp:46-48; the inner loop continues accumulating
into `s`. -/
def sumRow (data : Array (Array T)) (yr : Nat) (s : Nat × T) : M (Option (Nat × T)) :=
  if s.1 = 0 then return none else do
    let row ← rd data (s.1 - 1)
    let acc ← Fenwick.sumLoop (· + ·) 1 row s.2 yr
    return some (s.1 - lowbit s.1, acc)

/-- `T sum(int xr, int yr) const` — fenwick_tree_2d.hpp:44-50. -/
def prefixSum (s : State T) (xr yr : Nat) : M T := do
  let (_, r) ← loop (sumRow s.data yr) xr (xr, 0)
  return r

/-- `T sum(int xl, int xr, int yl, int yr) const` — fenwick_tree_2d.hpp:18-20. -/
def sum (s : State T) (xl xr yl yr : Nat) : M T := do
  let a ← prefixSum s xr yr
  let b ← prefixSum s xl yr
  let c ← prefixSum s xr yl
  let d ← prefixSum s xl yl
  return a - b - c + d

/-- The calls a user can make (`operator[]` as for `FenwickTree`, fenwick_tree_2d.hpp:21-37). -/
inductive Op (T : Type) where
  | add (i j : Nat) (v : T) | sub (i j : Nat) (v : T) | modify (i j : Nat) (h : T → T) | get (i j : Nat)
  | sum (xl xr yl yr : Nat)

/-- One call. -/
def step (s : State T) : Op T → M (State T × Option T)
  | .add i j v => do let d ← add s i j v; return (d, none)
  | .sub i j v => do let d ← add s i j (-v); return (d, none)
  | .modify i j h => do
    let cur ← sum s i (i + 1) j (j + 1)
    let d ← add s i j (h cur - cur)
    return (d, none)
  | .get i j => do let v ← sum s i (i + 1) j (j + 1); return (s, some v)
  | .sum xl xr yl yr => do let v ← sum s xl xr yl yr; return (s, some v)

end FenwickTree2D
