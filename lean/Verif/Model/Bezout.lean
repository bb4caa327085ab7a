import Verif.Model.ExtGcd
import Verif.Model.ConvexHullTrick

/-!
# Model of `library/number/bezout_equation.hpp`

Every `long long` and `__int128_t` operation is range checked; division by zero is undefined behaviour. `ext_gcd` is the model of `library/number/ext_gcd.hpp`.
-/

namespace Bezout
open Cxx

/-- `SolutionType` — lines 8-10. -/
inductive Ty
  | none | arbitrary | linear
deriving DecidableEq

/-- Lines 14, 15. -/
def neginf : Int := -2 ^ 62
def posinf : Int := 2 ^ 62 - 1

/-- The members — lines 17-28. -/
structure Sol where
  t : Ty
  x0 : Int
  cx : Int
  y0 : Int
  cy : Int
  kxmin : Int
  kxmax : Int
  kymin : Int
  kymax : Int
deriving DecidableEq

/-- The private constructor — line 30. -/
def mkSol (t : Ty) (x0 cx y0 cy : Int) : Sol := ⟨t, x0, cx, y0, cy, neginf, posinf, neginf, posinf⟩

/-- `get_x`, `get_y`, `get_pair` — lines 32-40. -/
def getX (s : Sol) (k : Int) : M Int := do
  let p ← i64 (k * s.cx)
  i64 (s.x0 + p)
def getY (s : Sol) (k : Int) : M Int := do
  let p ← i64 (k * s.cy)
  i64 (s.y0 + p)
def getPair (s : Sol) (k : Int) : M (Int × Int) := do
  let x ← getX s k
  let y ← getY s k
  return (x, y)

/-- `get_k_range` — lines 42-50. -/
def kRange (s : Sol) : Option (Int × Int) :=
  let kmin := max s.kxmin s.kymin
  let kmax := min s.kxmax s.kymax
  if kmin ≤ kmax then some (kmin, kmax) else none

/-- `fld` — lines 52, 53; `(x ^ y) < 0` tests for opposite signs. -/
def fld (x y : Int) : M Int :=
  if y = 0 then .error .ub
  else do
    let q ← i64 (x.tdiv y)
    let r := x.tmod y
    i64 (q - if (decide (x < 0) ≠ decide (y < 0)) ∧ r ≠ 0 then 1 else 0)

/-- `cld` — lines 54, 55; `(x ^ y) > 0` tests for equal signs and different numbers. -/
def cld (x y : Int) : M Int :=
  if y = 0 then .error .ub
  else do
    let q ← i64 (x.tdiv y)
    let r := x.tmod y
    i64 (q + if (decide (x < 0) = decide (y < 0)) ∧ x ≠ y ∧ r ≠ 0 then 1 else 0)

/-- `has_solution` — lines 67-75. -/
def hasSolution (s : Sol) : Bool :=
  match s.t with
  | .none => false
  | .arbitrary => true
  | .linear => (kRange s).isSome

/-- `count` with `T = long long` — lines 76-91. -/
def count (s : Sol) : M (Option Int) :=
  match s.t with
  | .none => return some 0
  | .arbitrary => do
    let dx ← i64 (s.kxmax - s.kxmin)
    let wx ← i64 (dx + 1)
    let dy ← i64 (s.kymax - s.kymin)
    let wy ← i64 (dy + 1)
    let p ← i64 (wx * wy)
    return some p
  | .linear =>
    match kRange s with
    | some (kl, kr) =>
      if kl = neginf ∨ kr = posinf then return none
      else do
        let d ← i64 (kr - kl)
        let w ← i64 (d + 1)
        return some w
    | none => return some 0

/-- The body of `set_min_x` and `set_min_y` (the same text up to the names) — lines 97-106, 131-140: the new bounds, and whether the type stays. -/
def restrictMin (x0 c lo hi v : Int) : M (Bool × Int × Int) :=
  if c = 0 then return (decide (¬ x0 < v), lo, hi)
  else if c > 0 then do
    let d ← i64 (v - x0)
    let q ← cld d c
    let lo := max lo q
    return (decide (¬ lo > hi), lo, hi)
  else do
    let d ← i64 (v - x0)
    let q ← fld d c
    let hi := min hi q
    return (decide (¬ lo > hi), lo, hi)

/-- The body of `set_max_x` and `set_max_y` — lines 113-122, 146-155. -/
def restrictMax (x0 c lo hi v : Int) : M (Bool × Int × Int) :=
  if c = 0 then return (decide (¬ x0 > v), lo, hi)
  else if c > 0 then do
    let d ← i64 (v - x0)
    let q ← fld d c
    let hi := min hi q
    return (decide (¬ lo > hi), lo, hi)
  else do
    let d ← i64 (v - x0)
    let q ← cld d c
    let lo := max lo q
    return (decide (¬ lo > hi), lo, hi)

/-- `set_min_x` — lines 94-108. -/
def setMinX (s : Sol) (v : Int) : M (Sol × Bool) :=
  if s.t = .none then return (s, false)
  else do
    let r ← restrictMin s.x0 s.cx s.kxmin s.kxmax v
    let s := { s with t := if r.1 then s.t else .none, kxmin := r.2.1, kxmax := r.2.2 }
    return (s, decide (s.t ≠ .none))

/-- `set_max_x` — lines 110-124. -/
def setMaxX (s : Sol) (v : Int) : M (Sol × Bool) :=
  if s.t = .none then return (s, false)
  else do
    let r ← restrictMax s.x0 s.cx s.kxmin s.kxmax v
    let s := { s with t := if r.1 then s.t else .none, kxmin := r.2.1, kxmax := r.2.2 }
    return (s, decide (s.t ≠ .none))

/-- `set_min_y` — lines 128-142. -/
def setMinY (s : Sol) (v : Int) : M (Sol × Bool) :=
  if s.t = .none then return (s, false)
  else do
    let r ← restrictMin s.y0 s.cy s.kymin s.kymax v
    let s := { s with t := if r.1 then s.t else .none, kymin := r.2.1, kymax := r.2.2 }
    return (s, decide (s.t ≠ .none))

/-- `set_max_y` — lines 143-157. -/
def setMaxY (s : Sol) (v : Int) : M (Sol × Bool) :=
  if s.t = .none then return (s, false)
  else do
    let r ← restrictMax s.y0 s.cy s.kymin s.kymax v
    let s := { s with t := if r.1 then s.t else .none, kymin := r.2.1, kymax := r.2.2 }
    return (s, decide (s.t ≠ .none))

/-- `set_x_range` — lines 125-127. -/
def setXRange (s : Sol) (l r : Int) : M (Sol × Bool) := do
  let p ← setMinX s l
  if p.2 then setMaxX p.1 r else return p

/-- `set_y_range` — lines 158-160. -/
def setYRange (s : Sol) (l r : Int) : M (Sol × Bool) := do
  let p ← setMinY s l
  if p.2 then setMaxY p.1 r else return p

/-- The choice for a constant coordinate — lines 170, 183, 196, 209. -/
def anyK (kl kr : Int) : Int := if kl ≠ neginf then kl else if kr ≠ posinf then kr else 0

/-- `xmin_solution` — lines 162-174. -/
def xminSolution (s : Sol) : M (Int × Int) := do
  check (hasSolution s)
  if s.t = .arbitrary then return (s.kxmin, s.kymin)
  else
    match kRange s with
    | none => .error .ub
    | some (kl, kr) =>
      if s.cx = 0 then getPair s (anyK kl kr)
      else getPair s (if s.cx ≥ 0 then kl else kr)

/-- `xmax_solution` — lines 175-187. -/
def xmaxSolution (s : Sol) : M (Int × Int) := do
  check (hasSolution s)
  if s.t = .arbitrary then return (s.kxmax, s.kymax)
  else
    match kRange s with
    | none => .error .ub
    | some (kl, kr) =>
      if s.cx = 0 then getPair s (anyK kl kr)
      else getPair s (if s.cx ≤ 0 then kl else kr)

/-- `ymin_solution` — lines 188-200. -/
def yminSolution (s : Sol) : M (Int × Int) := do
  check (hasSolution s)
  if s.t = .arbitrary then return (s.kxmin, s.kymin)
  else
    match kRange s with
    | none => .error .ub
    | some (kl, kr) =>
      if s.cy = 0 then getPair s (anyK kl kr)
      else getPair s (if s.cy ≥ 0 then kl else kr)

/-- `ymax_solution` — lines 201-213. -/
def ymaxSolution (s : Sol) : M (Int × Int) := do
  check (hasSolution s)
  if s.t = .arbitrary then return (s.kxmax, s.kymax)
  else
    match kRange s with
    | none => .error .ub
    | some (kl, kr) =>
      if s.cy = 0 then getPair s (anyK kl kr)
      else getPair s (if s.cy ≤ 0 then kl else kr)

/-- Conversion of an `__int128_t` to `long long` (wraps, as in C++20 and in every compiler before). -/
def toI64 (x : Int) : Int := (x + 2 ^ 63) % 2 ^ 64 - 2 ^ 63

/-- The constructor of `BezoutEquation` and `solve` — lines 221-244. -/
def solve (a b z : Int) : M Sol := do
  let e ← ExtGcd.extGcd a b
  let x := e.1
  let y := e.2.1
  let g := e.2.2
  if g = 0 then
    if z ≠ 0 then return mkSol .none 0 0 0 0
    else return mkSol .arbitrary 0 1 0 1
  else if z.tmod g ≠ 0 then return mkSol .none 0 0 0 0
  else do
    let cx ← i64 (b.tdiv g)
    let na ← i64 (-a)
    let cy ← i64 (na.tdiv g)
    let z ← i64 (z.tdiv g)
    let x0 ← ConvexHullTrick.i128 (x * z)
    let y0 ← ConvexHullTrick.i128 (y * z)
    let nx ← ConvexHullTrick.i128 (-x0)
    if cx = 0 then .error .ub
    else do
      let k0 ← ConvexHullTrick.i128 (nx.tdiv cx)
      let kx ← ConvexHullTrick.i128 (k0 * cx)
      let x1 ← ConvexHullTrick.i128 (x0 + kx)
      let ky ← ConvexHullTrick.i128 (k0 * cy)
      let y1 ← ConvexHullTrick.i128 (y0 + ky)
      return mkSol .linear (toI64 x1) cx (toI64 y1) cy

/-- One call of a member function that restricts the solutions. -/
inductive Op
  | minX (v : Int) | maxX (v : Int) | minY (v : Int) | maxY (v : Int) | xRange (l r : Int) | yRange (l r : Int)

/-- One call. -/
def step (s : Sol) : Op → M (Sol × Bool)
  | .minX v => setMinX s v
  | .maxX v => setMaxX s v
  | .minY v => setMinY s v
  | .maxY v => setMaxY s v
  | .xRange l r => setXRange s l r
  | .yRange l r => setYRange s l r

/-- `BezoutEquation(a, b).solve(z)` followed by the calls. -/
def run (a b z : Int) (ops : List Op) : M Sol := do
  let s ← solve a b z
  ops.foldlM (fun s o => do return (← step s o).1) s

end Bezout
