import Verif.Cxx
import Mathlib.Algebra.Field.Basic

/-!
# Model of `library/polynomial/berlekamp_massey.hpp`

The element type is any field with decidable equality. Dividing by zero is a failed assertion (as in the modular integer types used with it). `reserve` has no effect
in the model.
-/

namespace BerlekampMassey
open Cxx

variable {F : Type} [Field F] [DecidableEq F]

/-- The local variables `B`, `C`, `b`, `L`, `x` — berlekamp_massey.hpp:16-20. -/
structure St (F : Type) where
  B : Array F
  C : Array F
  b : F
  L : Nat
  x : Nat

/-- `F d = s[N]; for (i = 1; i <= L; ++i) d += C[i] * s[N - i];` — berlekamp_massey.hpp:21-22. The difference of unsigned numbers wraps around when it is negative. -/
def discr (s : Array F) (C : Array F) (L N : Nat) : M F := do
  let d ← rd s N
  forUp 1 (L + 1) d fun i d => do
    let c ← rd C i
    if i ≤ N then do
      let y ← rd s (N - i)
      return d + c * y
    else .error .ub

/-- `C.resize(n)`. -/
def resize (C : Array F) (n : Nat) : Array F := if n ≤ C.size then C.extract 0 n else C ++ Array.replicate (n - C.size) 0

/-- `if (C.size() < B.size() + x) C.resize(B.size() + x);` — berlekamp_massey.hpp:27. -/
def grow (C : Array F) (n : Nat) : Array F := if C.size < n then resize C n else C

/-- `for (i = 0; i < B.size(); ++i) C[x + i] -= c * B[i];` — berlekamp_massey.hpp:29, 33. -/
def subtract (c : F) (x : Nat) (B C : Array F) : M (Array F) := forUp 0 B.size C fun i C => do
  let y ← rd B i
  let z ← rd C (x + i)
  wr C (x + i) (z - c * y)

/-- `d / b` — berlekamp_massey.hpp:26. -/
def quot (d b : F) : M F := do
  check (decide (b ≠ 0))
  return d / b

/-- The body of the main loop — berlekamp_massey.hpp:20-37. -/
def step (s : Array F) (N : Nat) (t : St F) : M (St F) := do
  let d ← discr s t.C t.L N
  if d = 0 then return { t with x := t.x + 1 }
  else do
    let c ← quot d t.b
    let C := grow t.C (t.B.size + t.x)
    let C' ← subtract c t.x t.B C
    if 2 * t.L > N then return { t with C := C', x := t.x + 1 }
    else return { B := C, C := C', b := d, L := N + 1 - t.L, x := 1 }

/-- `for (N = 1; N <= L; ++N) C[N] = -C[N];` — berlekamp_massey.hpp:39. -/
def negate (L : Nat) (C : Array F) : M (Array F) := forUp 1 (L + 1) C fun N C => do
  let y ← rd C N
  wr C N (-y)

/-- `find_linear_recuurence(s)` — berlekamp_massey.hpp:15-41. -/
def find (s : Array F) : M (Array F) := do
  let t ← forUp 0 s.size ({ B := #[1], C := #[1], b := 1, L := 0, x := 1 } : St F) (step s)
  negate t.L (resize t.C (t.L + 1))

end BerlekampMassey
