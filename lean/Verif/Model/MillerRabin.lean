import Verif.Model.ModArith

/-!
# Model of `library/number/deterministic_miller_rabin.hpp`

`is_prime` for an unsigned 64-bit argument (signed arguments are non-negative by the assertion in line 66 and converted). The Montgomery
arithmetic is the model of `montogomery.hpp`, including its wrap-around.
-/

namespace MillerRabin
open Cxx

/-- The bases chosen by `is_prime` — lines 15-33, 71-77. -/
def bases (n : Nat) : List Nat :=
  if n < 341531 then [9345883071009581737]
  else if n < 1050535501 then [336781006125, 9639812373923155]
  else if n < 350269456337 then [4230279247111683200, 14694767155120705706, 16641139526367750375]
  else if n < 55245642489451 then [2, 141889084524735, 1199124725622454117, 11096072698276303650]
  else if n < 7999252175582851 then [2, 4130806001517, 149795463772692060, 186635894390467037, 3967304179347715805]
  else if n < 585226005592931977 then [2, 123635709730000, 9233062284813009, 43835965440333360, 761179012939631437, 1263739024124850375]
  else [2, 325, 9375, 28178, 450775, 9780504, 1795265022]

/-- One division by 2 in `__builtin_ctzll`; the state is `(count, n)`. -/
def ctzStep (q : Nat × Nat) : M (Option (Nat × Nat)) :=
  if q.2 % 2 = 0 then return some (q.1 + 1, q.2 / 2) else return none

/-- `s = __builtin_ctzll(n - 1), d = (n - 1) >> s` — lines 41-42: the number of trailing zeros is counted by halving; undefined for 0. -/
def split (n : Nat) : M (Nat × Nat) := if n = 0 then .error .ub else loop ctzStep 64 (0, n)

/-- The loop over `r`, with `k = s - 1 - r` and result `false` for `return false` — lines 53-57. -/
def chain (st : Montgomery.State) (mo : Nat) : Nat → Nat → Bool
  | 0, y => decide (y = mo)
  | k + 1, y => if y = mo then true else chain st mo k (Montgomery.mul 64 st y y)

/-- The test for one base — lines 49-57. -/
def base (st : Montgomery.State) (one mo s d n b : Nat) : M Bool :=
  if b % n = 0 then return true else do
    let y ← Montgomery.pow 64 st (Montgomery.toMont 64 st (b % n)) d
    if y = one then return true else return chain st mo (s - 1) y

/-- Loop body; nothing happens after `return false` — line 48. -/
def baseStep (st : Montgomery.State) (one mo s d n : Nat) (ok : Bool) (b : Nat) : M Bool :=
  if ok then base st one mo s d n b else return false

/-- `miller_rabin<BASE, SIZE>(n)` — lines 36-60. -/
def test (bs : List Nat) (n : Nat) : M Bool :=
  if n = 2 ∨ n = 3 ∨ n = 5 ∨ n = 7 then return true
  else if n ≤ 1 ∨ n % 2 = 0 ∨ n % 3 = 0 ∨ n % 5 = 0 ∨ n % 7 = 0 then return false
  else if n < 121 then return true
  else do
    let q ← split (n - 1)
    let st ← Montgomery.make 64 n
    forEach bs true (baseStep st (Montgomery.toMont 64 st 1) (Montgomery.toMont 64 st (n - 1)) q.1 q.2 n)

/-- `is_prime(n)` — lines 64-78. -/
def isPrime (n : Nat) : M Bool := test (bases n) n

end MillerRabin
