import Verif.Cxx

/-!
# Model of `library/datastructure/segment_tree/segment_tree_2d.hpp`

`op`, `e` are the template parameters. Sizes are such that `2 * n`, `2 * m` (for the constructor from sizes `4 * n`, `4 * m`) fit an `int`.
-/

namespace SegmentTree2D
open Cxx

variable {T : Type} (op : T → T → T) (e : T)

/-- `t[i][j]`. -/
def rd2 (t : Array (Array T)) (i j : Nat) : M T := do
  let r ← rd t i
  rd r j

/-- `t[i][j] = x`. -/
def wr2 (t : Array (Array T)) (i j : Nat) (x : T) : M (Array (Array T)) := do
  let r ← rd t i
  let r ← wr r j x
  wr t i r

/-- Members `n`, `m`, `dat` — segment_tree_2d.hpp:61-62. -/
structure State (T : Type) where
  n : Nat
  m : Nat
  dat : Array (Array T)

/-- `dat[i][j] = op(dat[i][2 * j + 0], dat[i][2 * j + 1])` — segment_tree_2d.hpp:17, 51. -/
def pullCol (dat : Array (Array T)) (i j : Nat) : M (Array (Array T)) := do
  wr2 dat i j (op (← rd2 dat i (2 * j + 0)) (← rd2 dat i (2 * j + 1)))

/-- `dat[i][j] = op(dat[2 * i + 0][j], dat[2 * i + 1][j])` — segment_tree_2d.hpp:20, 55. -/
def pullRow (dat : Array (Array T)) (i j : Nat) : M (Array (Array T)) := do
  wr2 dat i j (op (← rd2 dat (2 * i + 0) j) (← rd2 dat (2 * i + 1) j))

/-- `SegmentTree2D(const std::vector<std::vector<T>>&)` — segment_tree_2d.hpp:12-22. -/
def ofTable (a : Array (Array T)) : M (State T) := do
  let n := a.size
  let m ← (if n = 0 then return 0 else return (← rd a 0).size : M Nat)
  let dat := Array.replicate (2 * n) (Array.replicate (2 * m) e)
  let dat ← forUp 0 n dat fun i dat => forUp 0 m dat fun j dat => do wr2 dat (n + i) (m + j) (← rd2 a i j)
  let dat ← forUp 1 (2 * n) dat fun i dat => forDown m 1 dat fun j dat => pullCol op dat i j
  let dat ← forDown n 1 dat fun i dat => forUp 1 (2 * m) dat fun j dat => pullRow op dat i j
  return ⟨n, m, dat⟩

/-- `SegmentTree2D(int n, int m)` — segment_tree_2d.hpp:11. -/
def init (n m : Nat) : M (State T) := ofTable op e (Array.replicate (2 * n) (Array.replicate (2 * m) e))

/-- `if (tl & 1) res_l = op(res_l, seg[tl++]);` — segment_tree_2d.hpp:29, 36 (there `inner_query(dat[tu++])`). -/
def takeL (get : Nat → M T) (l : Nat) (a : T) : M (Nat × T) :=
  if l % 2 = 1 then do let d ← get l; return (l + 1, op a d) else return (l, a)

/-- `if (tr & 1) res_r = op(seg[--tr], res_r);` — segment_tree_2d.hpp:30, 37 (there `inner_query(dat[--td])`). -/
def takeR (get : Nat → M T) (r : Nat) (b : T) : M (Nat × T) :=
  if r % 2 = 1 then do let d ← get (r - 1); return (r - 1, op d b) else return (r, b)

/-- One evaluation of the loops of `operator()` — segment_tree_2d.hpp:28-31, 35-38. State: `(tl, tr, res_l, res_r)`. -/
def walkStep (get : Nat → M T) (s : Nat × Nat × T × T) : M (Option (Nat × Nat × T × T)) :=
  let (l, r, a, b) := s
  if l < r then do
    let (l, a) ← takeL op get l a
    let (r, b) ← takeR op get r b
    return some (l / 2, r / 2, a, b)
  else return none

/-- `inner_query` with `get = seg[·]` — segment_tree_2d.hpp:26-33; the outer loop with `get = inner_query(dat[·])` — segment_tree_2d.hpp:34-39. -/
def walk (get : Nat → M T) (l r : Nat) : M T := do
  let (_, _, a, b) ← loop (walkStep op get) r (l, r, e, e)
  return op a b

/-- `T operator()(int u, int d, int l, int r) const` — segment_tree_2d.hpp:24-40. -/
def prod (s : State T) (u d l r : Int) : M T := do
  check (decide (0 ≤ u ∧ u ≤ d ∧ d ≤ s.n ∧ 0 ≤ l ∧ l ≤ r ∧ r ≤ s.m))
  walk op e (fun i => do
    let seg ← rd s.dat i
    walk op e (fun j => rd seg j) (l.toNat + s.m) (r.toNat + s.m)) (u.toNat + s.n) (d.toNat + s.n)

/-- `T get(int i, int j) const` — segment_tree_2d.hpp:42-45. -/
def get (s : State T) (i j : Int) : M T := do
  check (decide (0 ≤ i ∧ i < s.n ∧ 0 ≤ j ∧ j < s.m))
  rd2 s.dat (s.n + i.toNat) (s.m + j.toNat)

/-- One evaluation of the loop of `set` over the columns of the row of the leaf — segment_tree_2d.hpp:50-52. -/
def colStep (row : Nat) (s : Nat × Array (Array T)) : M (Option (Nat × Array (Array T))) :=
  if s.1 = 0 then return none else do
    let dat ← pullCol op s.2 row s.1
    return some (s.1 / 2, dat)

/-- One evaluation of the inner loop of `set` over the other rows — segment_tree_2d.hpp:54-56. -/
def cellStep (ti : Nat) (s : Nat × Array (Array T)) : M (Option (Nat × Array (Array T))) :=
  if s.1 = 0 then return none else do
    let dat ← pullRow op s.2 ti s.1
    return some (s.1 / 2, dat)

/-- One evaluation of the outer loop of `set` over the other rows — segment_tree_2d.hpp:53-57. -/
def rowStep (col : Nat) (s : Nat × Array (Array T)) : M (Option (Nat × Array (Array T))) :=
  if s.1 = 0 then return none else do
    let (_, dat) ← loop (cellStep op s.1) col (col, s.2)
    return some (s.1 / 2, dat)

/-- `void set(int i, int j, const T&)` — segment_tree_2d.hpp:47-58. -/
def set (s : State T) (i j : Int) (val : T) : M (State T) := do
  check (decide (0 ≤ i ∧ i < s.n ∧ 0 ≤ j ∧ j < s.m))
  let x := s.n + i.toNat
  let y := s.m + j.toNat
  let dat ← wr2 s.dat x y val
  let (_, dat) ← loop (colStep op x) y (y / 2, dat)
  let (_, dat) ← loop (rowStep op y) x (x / 2, dat)
  return ⟨s.n, s.m, dat⟩

/-- Calls. -/
inductive Op (T : Type)
  | set (i j : Int) (val : T)
  | get (i j : Int)
  | prod (u d l r : Int)

/-- Results of calls. -/
inductive Out (T : Type)
  | unit
  | val (x : T)
deriving DecidableEq

/-- One call. -/
def step (s : State T) : Op T → M (State T × Out T)
  | .set i j v => do return (← set op s i j v, .unit)
  | .get i j => do return (s, .val (← get s i j))
  | .prod u d l r => do return (s, .val (← prod op e s u d l r))

end SegmentTree2D
