import Verif.Cxx
import Verif.Model.Transform

/-!
# Model of `library/graph/chromatic_number.hpp`

Masks are natural numbers; all of them stay below `2 ^ n` with `n ≤ 30`. Results of `int` and `long long` arithmetic are checked against the
type's range by `n32` and `n64`.
-/

namespace Chromatic
open Cxx SubsetConvolution

/-- A non-negative `int` value. -/
def n32 (x : Nat) : M Nat := if x < 2 ^ 31 then return x else .error .ub

/-- A non-negative `long long` value. -/
def n64 (x : Nat) : M Nat := if x < 2 ^ 63 then return x else .error .ub

/-- `1 << k` on `int`. -/
def bit (k : Nat) : M Nat := if k < 31 then return 2 ^ k else .error .ub

/-- `__builtin_ctz(s)`, undefined for 0. -/
def ctz (s : Nat) : M Nat := match (List.range 32).find? fun i => s.testBit i with
  | some v => .ok v
  | none => .error .ub

/-- The initial value of `f[s]` — chromatic_number.hpp:14. -/
def signOf (mod n s : Nat) : Nat := if (n - popcount s) % 2 = 1 then mod - 1 else 1

/-- The initialisation of `f` — chromatic_number.hpp:13-15. -/
def initStep (mod n s : Nat) (f : Array Nat) : M (Array Nat) := wr f s (signOf mod n s)

/-- The body of the inner loop — chromatic_number.hpp:18-21; state `(f, sum)`. -/
def roundStep (mod : Nat) (I : Array Nat) (s : Nat) (st : Array Nat × Nat) : M (Array Nat × Nat) := do
  let x ← rd st.1 s
  let y ← rd I s
  let p ← n64 (x * y)
  let f ← wr st.1 s (p % mod)
  let sum ← n64 (st.2 + p % mod)
  return (f, sum)

/-- The outer loop — chromatic_number.hpp:16-24; the first argument is the number of rounds left. -/
def rounds (mod n full : Nat) (I : Array Nat) : Nat → Nat → Array Nat → M Nat
  | 0, _, _ => return n
  | r + 1, k, f => do
    let st ← forUp 0 full (f, 0) (roundStep mod I)
    if st.2 % mod ≠ 0 then return k
    else rounds mod n full I r (k + 1) st.1

/-- `detail::chromatic_number<mod>(n, I)` — chromatic_number.hpp:10-25. -/
def detail (mod n : Nat) (I : Array Nat) : M Nat := do
  let full ← bit n
  let f ← forUp 0 full (Array.replicate full 0) (initStep mod n)
  rounds mod n full I (n - 1) 1 f

/-- `g[u] |= 1 << v; g[v] |= 1 << u;` — chromatic_number.hpp:34-37. -/
def edgeStep (g : Array Nat) (e : Nat × Nat) : M (Array Nat) := do
  let bv ← bit e.2
  let x ← rd g e.1
  let g ← wr g e.1 (x ||| bv)
  let bu ← bit e.1
  let y ← rd g e.2
  wr g e.2 (y ||| bu)

/-- The body of the loop over masks — chromatic_number.hpp:41-44; `t & ~g[v]` clears the bits of `g[v]` in `t`. -/
def indStep (g : Array Nat) (s : Nat) (I : Array Nat) : M (Array Nat) := do
  let v ← ctz s
  let b ← bit v
  let t := s ^^^ b
  let gv ← rd g v
  let x ← rd I t
  let y ← rd I (t ^^^ (t &&& gv))
  let z ← n32 (x + y)
  wr I s z

/-- `chromatic_number(n, edges)` — chromatic_number.hpp:29-47. -/
def chromaticNumber (n : Nat) (edges : List (Nat × Nat)) : M Nat :=
  if n = 0 then return 0
  else do
    let g ← forEach edges (Array.replicate n 0) edgeStep
    let full ← bit n
    let I ← wr (Array.replicate full 0) 0 1
    let I ← forUp 1 full I (indStep g)
    let a ← detail 998244353 n I
    let b ← detail 1000000007 n I
    return min a b

end Chromatic
