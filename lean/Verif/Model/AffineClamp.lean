import Verif.Cxx

/-!
# Model of `library/algebra/monoid/affine.hpp` and `library/algebra/monoid/affine_clamp.hpp`

The type `T` is a signed integer type of `w ≤ 64` bits (at least as wide as `int`).  Signed overflow is undefined behaviour, and so is
`std::clamp` with `lo > hi`.  The conversion of the result of `std::clamp` to `T` keeps the value, as it lies between `l` and `r`.
-/

namespace AffineClamp
open Cxx

/-- The result of an arithmetic operation in a signed type of `w` bits. -/
def ar (w : Nat) (x : Int) : M Int := if -2 ^ (w - 1) ≤ x ∧ x < 2 ^ (w - 1) then .ok x else .error .ub

/-- `struct AffineClamp` — affine.hpp:10, affine_clamp.hpp:16. -/
structure Fn where
  a : Int
  b : Int
  l : Int
  r : Int
deriving DecidableEq

/-- `id()` — affine_clamp.hpp:13-14, 17, 20. -/
def idFn (w : Nat) : Fn := ⟨1, 0, -2 ^ (w - 1), 2 ^ (w - 1) - 1⟩

/-- `affine<U>(x)`, where `U` has `w` bits — affine.hpp:19. -/
def affine (w : Nat) (f : Fn) (x : Int) : M Int := do
  let p ← ar w (f.a * x)
  ar w (p + f.b)

/-- `std::clamp`. -/
def clamp (v lo hi : Int) : M Int :=
  if hi < lo then .error .ub else .ok (if v < lo then lo else if hi < v then hi else v)

/-- `affine_clamp(x)`, `operator()` — affine_clamp.hpp:29-30. -/
def apply (f : Fn) (x : Int) : M Int := do
  let v ← affine 128 f x
  clamp v f.l f.r

/-- `compose(f, g)` — affine.hpp:14-16, affine_clamp.hpp:21-25. -/
def compose (w : Nat) (f g : Fn) : M Fn := do
  let a ← ar w (f.a * g.a)
  let b ← affine w f g.b
  let l ← apply f g.l
  let r ← apply f g.r
  return if r < l then ⟨a, b, r, l⟩ else ⟨a, b, l, r⟩

end AffineClamp
