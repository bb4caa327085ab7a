import Verif.Cxx
import Mathlib.Algebra.Field.Defs

/-!
# Models of `library/math/{factorial,inv_mods,pow_mods}.hpp`

`F` is the field of the modular integers. The division of ACL's modint asserts that the divisor is invertible.
-/

namespace ModTables
open Cxx

/-- `U(1) / x` and `x.inv()`. -/
def minv {F : Type} [Field F] [DecidableEq F] (x : F) : M F := if x = 0 then .error .assertion else return x⁻¹

end ModTables

namespace Factorial
open Cxx ModTables
variable {F : Type} [Field F] [DecidableEq F]

/-- The static tables — factorial.hpp:60-61. -/
structure Tab (F : Type) where
  fac : Array F
  inv : Array F

/-- The initial tables — factorial.hpp:63-66. -/
def init : Tab F := ⟨#[1], #[1]⟩

/-- `_fac[i] = _fac[i - 1] * i` — factorial.hpp:18. -/
def facStep (i : Nat) (a : Array F) : M (Array F) := do
  let x ← rd a (i - 1)
  wr a i (x * (i : F))

/-- `_fac_inv[i - 1] = _fac_inv[i] * i` — factorial.hpp:20, for `i = j + 1`. -/
def invStep (j : Nat) (a : Array F) : M (Array F) := do
  let x ← rd a (j + 1)
  wr a j (x * ((j + 1 : Nat) : F))

/-- `ensure(n)` — factorial.hpp:13-21. -/
def ensure (t : Tab F) (n : Nat) : M (Tab F) := do
  let sz := t.fac.size
  if n + 1 ≤ sz then return t
  else do
    let new := max (n + 1) (sz * 2)
    let fac ← forUp sz new (t.fac ++ Array.replicate (new - sz) 0) facStep
    let x ← rd fac (new - 1)
    let ix ← minv x
    let inv ← wr (t.inv ++ Array.replicate (new - sz) 0) (new - 1) ix
    let inv ← forDown (new - 1) sz inv invStep
    return ⟨fac, inv⟩

/-- `fac(i)` — factorial.hpp:23-26. -/
def fac (t : Tab F) (i : Nat) : M (Tab F × F) := do
  let t ← ensure t i
  let x ← rd t.fac i
  return (t, x)

/-- `fac_inv(i)` — factorial.hpp:30-33. -/
def facInv (t : Tab F) (i : Nat) : M (Tab F × F) := do
  let t ← ensure t i
  let x ← rd t.inv i
  return (t, x)

/-- `binom(n, r)` — factorial.hpp:34-38. -/
def binom (t : Tab F) (n r : Int) : M (Tab F × F) :=
  if n < 0 ∨ r < 0 ∨ n < r then return (t, 0)
  else do
    let t ← ensure t n.toNat
    let x ← rd t.fac n.toNat
    let y ← rd t.inv r.toNat
    let z ← rd t.inv (n - r).toNat
    return (t, x * y * z)

/-- The loop of `polynom` — factorial.hpp:45-49; `none` is the early return of 0. The `int` sum is taken to be exact. -/
def polyLoop (t : Tab F) (n : Int) : List Int → Int → F → M (Option (Int × F))
  | [], sumd, res => return some (sumd, res)
  | d :: ds, sumd, res =>
    if d < 0 ∨ d > n then return none
    else do
      let y ← rd t.inv d.toNat
      polyLoop t n ds (sumd + d) (res * y)

/-- The end of `polynom` — factorial.hpp:50-52. -/
def polyEnd (t : Tab F) (n : Int) : Option (Int × F) → M (Tab F × F)
  | none => return (t, 0)
  | some (sumd, res) =>
    if sumd > n then return (t, 0)
    else do
      let y ← rd t.inv (n - sumd).toNat
      return (t, res * y)

/-- `polynom(n, ds...)` — factorial.hpp:40-53. -/
def polynom (t : Tab F) (n : Int) (ds : List Int) : M (Tab F × F) :=
  if n < 0 then return (t, 0)
  else do
    let t ← ensure t n.toNat
    let x ← rd t.fac n.toNat
    let r ← polyLoop t n ds 0 x
    polyEnd t n r

/-- `perm(n, r)` — factorial.hpp:54-58. -/
def perm (t : Tab F) (n r : Int) : M (Tab F × F) :=
  if n < 0 ∨ r < 0 ∨ n < r then return (t, 0)
  else do
    let t ← ensure t n.toNat
    let x ← rd t.fac n.toNat
    let z ← rd t.inv (n - r).toNat
    return (t, x * z)

/-- A call of a member function. -/
inductive Op where
  | fac (i : Nat)
  | facInv (i : Nat)
  | binom (n r : Int)
  | polynom (n : Int) (ds : List Int)
  | perm (n r : Int)

/-- One call. -/
def step (t : Tab F) : Op → M (Tab F × F)
  | .fac i => fac t i
  | .facInv i => facInv t i
  | .binom n r => binom t n r
  | .polynom n ds => polynom t n ds
  | .perm n r => perm t n r

end Factorial

namespace InvMods
open Cxx ModTables
variable {F : Type} [Field F] [DecidableEq F]

/-- `invs[i] = mint(mod - mod / i) * invs[mod % i]` — inv_mods.hpp:21. -/
def invStep (mod : Nat) (i : Nat) (a : Array F) : M (Array F) := do
  let x ← rd a (mod % i)
  wr a i (((mod - mod / i : Nat) : F) * x)

/-- The filling of the table — inv_mods.hpp:19-22. -/
def grow (mod : Nat) (a : Array F) (n : Nat) : M (Array F) :=
  if a.size < n + 1 then forUp a.size (n + 1) (a ++ Array.replicate (n + 1 - a.size) 0) (invStep mod)
  else return a

/-- `ensure(n)` — inv_mods.hpp:16-23. -/
def ensure (mod : Nat) (a : Array F) (n : Nat) : M (Array F) :=
  if a.size < 2 then grow mod #[0, 1] n else grow mod a n

/-- `operator[](i)` — inv_mods.hpp:12-15; the static table is empty at first. -/
def get (mod : Nat) (a : Array F) (i : Nat) : M (Array F × F) := do
  let a ← ensure mod a i
  let x ← rd a i
  return (a, x)

/-- `p *= e; assert(e != 0);` — inv_mods.hpp:36-39. -/
def prodStep (p : F) (e : F) : M F := do
  check (decide (e ≠ 0))
  return p * e

/-- `rp[i] = rp[i + 1] * vs[i]` — inv_mods.hpp:44-46. -/
def suffixStep (vs : Array F) (i : Nat) (rp : Array F) : M (Array F) := do
  let x ← rd rp (i + 1)
  let v ← rd vs i
  wr rp i (x * v)

/-- `res[i] = ip * rp[i + 1]; ip *= vs[i];` — inv_mods.hpp:48-51; state `(ip, res)`. -/
def outStep (vs rp : Array F) (i : Nat) (st : F × Array F) : M (F × Array F) := do
  let x ← rd rp (i + 1)
  let res ← wr st.2 i (st.1 * x)
  let v ← rd vs i
  return (st.1 * v, res)

/-- `get_invs(vs)` — inv_mods.hpp:31-53. -/
def getInvs (vs : Array F) : M (Array F) := do
  let p ← forEach vs.toList 1 prodStep
  let ip ← minv p
  let rp ← wr (Array.replicate (vs.size + 1) 0) vs.size 1
  let rp ← forDown vs.size 0 rp (suffixStep vs)
  let st ← forUp 0 vs.size (ip, Array.replicate vs.size 0) (outStep vs rp)
  return st.2

end InvMods

namespace PowMods
open Cxx
variable {F : Type} [Field F]

/-- `pows[i] = base * pows[i - 1]` — pow_mods.hpp:19 and 39. -/
def powStep (base : F) (i : Nat) (a : Array F) : M (Array F) := do
  let x ← rd a (i - 1)
  wr a i (base * x)

/-- `ensure(n)` — pow_mods.hpp:15-20 and 35-40. -/
def ensure (base : F) (a : Array F) (n : Nat) : M (Array F) :=
  if a.size > n then return a
  else forUp a.size (n + 1) (a ++ Array.replicate (n + 1 - a.size) 0) (powStep base)

/-- `operator[](i)` — pow_mods.hpp:11-14 and 31-34; the table is `{ 1 }` at first. -/
def get (base : F) (a : Array F) (i : Nat) : M (Array F × F) := do
  let a ← ensure base a i
  let x ← rd a i
  return (a, x)

end PowMods
