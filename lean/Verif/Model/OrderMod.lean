import Verif.Cxx

/-!
# Model of `library/number/order_Z_mZ.hpp` and `library/number/primitive_root.hpp`

`fast_factorize::factorize` (verified elsewhere) is a parameter `fac`; the values of the random number generator are a list, and the result is
`none` if the list is used up. The template argument `T` is `long long`, so `U` is `unsigned long long`; all values are natural numbers, as every product formed
divides `_mod`'s totient and cannot overflow. `atcoder::dynamic_modint` is not part of the repository and is modelled by its contract: `pow` is the power modulo
the modulus, and `set_mod` takes an `int` and asserts that it is positive. Saving and restoring the static modulus is left out.
-/

namespace OrderMod
open Cxx

/-- An element of `_fac_lambda`: the prime, the exponent, the prime power — order_Z_mZ.hpp:132. -/
structure PP where
  p : Nat
  q : Nat
  pq : Nat

/-- The object — order_Z_mZ.hpp:127-132. -/
structure Obj where
  mod : Nat
  phi : Nat
  lambda : Nat
  isPrime : Bool
  facLambda : Array PP

/-- `for (int i = 0; i < e; ++i) x *= p;` -/
def mulPow (p : Nat) : Nat → Nat → Nat
  | 0, x => x
  | e + 1, x => mulPow p e (x * p)

/-- The body of the loop of `_carmichael` — order_Z_mZ.hpp:137-140. -/
def carmStep (lambda : Nat) (x : Nat × Nat) : Nat :=
  Nat.lcm lambda (mulPow x.1 (x.2 - (1 + if x.1 = 2 ∧ x.2 ≥ 3 then 1 else 0)) (x.1 - 1))

/-- `_carmichael` — order_Z_mZ.hpp:134-143. -/
def carmichael (l : List (Nat × Nat)) : Nat := l.foldl carmStep 1

/-- The body of the loop of `_totient` — order_Z_mZ.hpp:147-148. -/
def totStep (t : Nat) (x : Nat × Nat) : Nat := mulPow x.1 (x.2 - 1) (t * (x.1 - 1))

/-- `_totient` — order_Z_mZ.hpp:144-151. -/
def totient (l : List (Nat × Nat)) : Nat := l.foldl totStep 1

/-- The constructor — order_Z_mZ.hpp:51-61. -/
def new (fac : Nat → List (Nat × Nat)) (m : Nat) : Obj :=
  let lambda := carmichael (fac m)
  ⟨m, totient (fac m), lambda, decide ((fac m).length = 1), ((fac lambda).map fun x => ⟨x.1, x.2, mulPow x.1 x.2 1⟩).toArray⟩

/-- `mint::pow` of `atcoder::dynamic_modint`, by contract. -/
def aclPow (m a x : Nat) : M Nat := return a ^ x % m

/-- The body of the loop of `mint64::pow` — order_Z_mZ.hpp:33-36; the state is `(b, p, res)`. -/
def powStep (m : Nat) (s : Nat × Nat × Nat) : M (Option (Nat × Nat × Nat)) :=
  if s.1 = 0 then return none
  else return some (s.1 / 2, s.2.1 * s.2.1 % m, if s.1 % 2 = 1 then s.2.2 * s.2.1 % m else s.2.2)

/-- `mint64(a).pow(b)` — order_Z_mZ.hpp:18, 22-25, 30-38, 43; `a` is an `unsigned long long`, so `safe_mod` computes the residue of its value. -/
def pow64 (m a b : Nat) : M Nat := do
  let s ← loop (powStep m) b (b, a % m, 1 % m)
  return s.2.2

/-- `for (int i = m; i < r; ++i) lp *= std::get<0>(_fac_lambda[i]);` — order_Z_mZ.hpp:168-169, 177-178. -/
def prodP (o : Obj) (l r : Nat) : M Nat := forUp l r 1 fun i x => do
  let f ← rd o.facLambda i
  return x * f.p

/-- `for (int i = m; i < r; ++i) lp *= std::get<2>(_fac_lambda[i]);` — order_Z_mZ.hpp:228-229, 237-238. -/
def prodPQ (o : Obj) (l r : Nat) : M Nat := forUp l r 1 fun i x => do
  let f ← rd o.facLambda i
  return x * f.pq

/-- The `dfs` of `_is_primitive_root_impl` — order_Z_mZ.hpp:165-187, with a bound on the depth of the recursion. -/
def rootDfs (o : Obj) (pow : Nat → Nat → M Nat) : Nat → Nat → Nat → Nat → M Bool
  | 0, _, _, _ => .error .diverge
  | k + 1, l, r, val => do
    let m := (l + r) / 2
    let lp ← prodP o m r
    let lval ← pow val lp
    let a ← (if m - l = 1 then pure (decide (lval ≠ 1)) else rootDfs o pow k l m lval : M Bool)
    if a then do
      let rp ← prodP o l m
      let rval ← pow val rp
      if r - m = 1 then pure (decide (rval ≠ 1)) else rootDfs o pow k m r rval
    else return false

/-- `_is_primitive_root_impl(a)` — order_Z_mZ.hpp:153-189. -/
def isRootImpl (o : Obj) (pow : Nat → Nat → M Nat) (a : Nat) : M Bool :=
  if o.lambda ≠ o.phi then return false
  else if o.mod = 2 then return decide (a % 2 = 1)
  else do
    let x := o.facLambda.foldl (fun x f => x / f.p) o.lambda
    let b ← pow a x
    if o.facLambda.size = 1 then return decide (b ≠ 1)
    else rootDfs o pow (o.facLambda.size + 1) 0 o.facLambda.size b

/-- `is_primitive_root(a)` — order_Z_mZ.hpp:63-79. The converted argument of `set_mod` is positive only for moduli below `2 ^ 31`. -/
def isPrimitiveRoot (o : Obj) (a : Nat) : M Bool :=
  if o.mod < 2 ^ 32 then do
    check (decide (o.mod < 2 ^ 31))
    isRootImpl o (aclPow o.mod) a
  else isRootImpl o (pow64 o.mod) a

/-- The loops of `_primitive_root_impl` — order_Z_mZ.hpp:196-202. -/
def search (o : Obj) : List Nat → M (Option Nat)
  | [] => return none
  | x :: xs =>
    let a := x % (o.mod - 2) + 2
    if o.isPrime = false ∧ Nat.gcd a o.mod ≠ 1 then search o xs
    else do
      let b ← isPrimitiveRoot o a
      if b then return some a else search o xs

/-- `primitive_root()` — order_Z_mZ.hpp:81-88, 191-203, and primitive_root.hpp:8-10. -/
def primitiveRoot (o : Obj) (rng : List Nat) : M (Option Nat) := do
  check (decide (o.lambda = o.phi))
  if o.mod = 2 then return some 1 else search o rng

/-- The body of the loop of `update` — order_Z_mZ.hpp:214-217; the state is `(val, res)`. -/
def updStep (pow : Nat → Nat → M Nat) (p : Nat) (s : Nat × Nat) : M (Option (Nat × Nat)) :=
  if s.1 = 1 then return none
  else do
    let v ← pow s.1 p
    return some (v, s.2 * p)

/-- `update(p, val)` — order_Z_mZ.hpp:213-218; the result is the new value of `res`. -/
def update (o : Obj) (pow : Nat → Nat → M Nat) (p val res : Nat) : M Nat := do
  let s ← loop (updStep pow p) o.lambda (val, res)
  return s.2

/-- `update(std::get<0>(_fac_lambda[i]), val)` — order_Z_mZ.hpp:232, 241. -/
def updateAt (o : Obj) (pow : Nat → Nat → M Nat) (i val res : Nat) : M Nat := do
  let f ← rd o.facLambda i
  update o pow f.p val res

/-- The `dfs` of `_order_impl` — order_Z_mZ.hpp:225-245, with a bound on the depth of the recursion; the result is the new value of `res`. -/
def orderDfs (o : Obj) (pow : Nat → Nat → M Nat) : Nat → Nat → Nat → Nat → Nat → M Nat
  | 0, _, _, _, _ => .error .diverge
  | k + 1, l, r, val, res => do
    let m := (l + r) / 2
    let lp ← prodPQ o m r
    let lval ← pow val lp
    let res ← (if m - l = 1 then updateAt o pow l lval res else orderDfs o pow k l m lval res : M Nat)
    let rp ← prodPQ o l m
    let rval ← pow val rp
    if r - m = 1 then updateAt o pow m rval res else orderDfs o pow k m r rval res

/-- `_order_impl(a)` — order_Z_mZ.hpp:205-249. -/
def orderImpl (o : Obj) (pow : Nat → Nat → M Nat) (a : Nat) : M Nat :=
  if o.mod = 2 then return if a % 2 = 1 then 1 else 0
  else if o.facLambda.size = 1 then updateAt o pow 0 (a % o.mod) 1
  else orderDfs o pow (o.facLambda.size + 1) 0 o.facLambda.size (a % o.mod) 1

/-- `operator()(a)` — order_Z_mZ.hpp:90-106. -/
def order (o : Obj) (a : Nat) : M Nat :=
  if o.mod < 2 ^ 31 then orderImpl o (aclPow o.mod) a else orderImpl o (pow64 o.mod) a

/-- `carmichael_prime_factors()` — order_Z_mZ.hpp:120-124. -/
def primeFactors (o : Obj) : List Nat := o.facLambda.toList.map PP.p

end OrderMod
