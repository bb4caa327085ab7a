import Verif.Model.ModTables
import Verif.Model.Machine

/-!
# Model of `library/math/util.hpp`

`F` is the field of the modular integers; the static table of `factorial` is passed in and returned.
-/

namespace RandomWalk
open Cxx ModTables
variable {F : Type} [Field F] [DecidableEq F]

/-- `if (x < 0) x = -x` — util.hpp:9, 21. -/
def mag (x : Int) : M Int := if x < 0 then i32 (-x) else .ok x

/-- `random_walk_1d(n, x)` — util.hpp:7-13. `m & 1` is the remainder of two's complement. -/
def walk1 (t : Factorial.Tab F) (n x : Int) : M (Factorial.Tab F × F) := do
  let x ← mag x
  let t ← Factorial.ensure t n.toNat
  let m ← i32 (n + x)
  if m % 2 ≠ 0 then return (t, 0) else Factorial.binom t n (m.tdiv 2)

/-- `random_walk_2d(n, x, y)` — util.hpp:14-17. The factors are evaluated from the left; C++ leaves the order open, but it only affects the table. -/
def walk2 (t : Factorial.Tab F) (n x y : Int) : M (Factorial.Tab F × F) := do
  let u ← i32 (x + y)
  let a ← walk1 t n u
  let v ← i32 (x - y)
  let b ← walk1 a.1 n v
  return (b.1, a.2 * b.2)

/-- `random_walk_1d(n, x, binom_n)` — util.hpp:19-24. -/
def walk1With (n x : Int) (binom : Int → M F) : M F := do
  let x ← mag x
  let m ← i32 (n + x)
  if m % 2 ≠ 0 then return 0 else binom (m.tdiv 2)

/-- `random_walk_2d(n, x, y, binom_n)` — util.hpp:25-28. -/
def walk2With (n x y : Int) (binom : Int → M F) : M F := do
  let u ← i32 (x + y)
  let a ← walk1With n u binom
  let v ← i32 (x - y)
  let b ← walk1With n v binom
  return a * b

/-- The calls. -/
inductive Op
  | walk1 (n x : Int)
  | walk2 (n x y : Int)

/-- One call — util.hpp:8, 15. -/
def step (t : Factorial.Tab F) : Op → M (Factorial.Tab F × F)
  | .walk1 n x => walk1 t n x
  | .walk2 n x y => walk2 t n x y

end RandomWalk
