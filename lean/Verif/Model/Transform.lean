import Verif.Cxx
import Mathlib.Algebra.Ring.Defs
import Mathlib.Data.Nat.Cast.Defs

/-!
# Models of `library/transform/{kronecker_power,subset,supset,walsh_hadamard,divisor,multiple}.hpp`,
`library/convolution/{convolution,and,or,xor,gcd,lcm,subset}_convolution.hpp` and the operations of `library/polynomial/fps_naive.hpp` they use
-/

namespace Kronecker
open Cxx
variable {α : Type}

/-- `for (i = 0; i < D; ++i) work[i] = x[offset + i * block];` — kronecker_power.hpp:39. In the template version (line 25-26) the unit transform gets
references to the same (distinct) cells; reading them all first and writing them all afterwards has the same effect. -/
def gather (x : Array α) (offset block D : Nat) : M (Array α) :=
  forUp 0 D #[] fun i w => do
    let v ← rd x (offset + i * block)
    return w.push v

/-- `for (i = 0; i < D; ++i) x[offset + i * block] = work[i];` — kronecker_power.hpp:41. -/
def scatter (x w : Array α) (offset block D : Nat) : M (Array α) :=
  forUp 0 D x fun i x => do
    let v ← rd w i
    wr x (offset + i * block) v

/-- Loop over `offset` — kronecker_power.hpp:24-27, 38-42. -/
def offsetStep (D : Nat) (unit : Array α → M (Array α)) (block offset : Nat) (x : Array α) : M (Array α) := do
  let w ← gather x offset block D
  let w ← unit w
  scatter x w offset block D

/-- Loop over `l` — kronecker_power.hpp:23, 37; state `(l, x)`. -/
def rowStep (D : Nat) (unit : Array α → M (Array α)) (n block : Nat) (s : Nat × Array α) : M (Option (Nat × Array α)) :=
  if s.1 < n then do
    let x ← forUp s.1 (s.1 + block) s.2 (offsetStep D unit block)
    return some (s.1 + D * block, x)
  else return none

/-- Loop over `block` — kronecker_power.hpp:22, 36; state `(block, x)`. -/
def blockStep (D : Nat) (unit : Array α → M (Array α)) (n : Nat) (s : Nat × Array α) : M (Option (Nat × Array α)) :=
  if s.1 < n then do
    let t ← loop (rowStep D unit n s.1) n (0, s.2)
    return some (s.1 * D, t.2)
  else return none

/-- `kronecker_power_transform` — kronecker_power.hpp:19-30 and 32-45. -/
def transform (D : Nat) (unit : Array α → M (Array α)) (x : Array α) : M (Array α) := do
  let s ← loop (blockStep D unit x.size) x.size (1, x)
  return s.2

section
variable [Add α] [Mul α] [Zero α]

/-- `y[i] = add(y[i], mul(A[i][j], x[j]))` — kronecker_power.hpp:53-55. -/
def matCell (A : Array (Array α)) (x : Array α) (i : Nat) (j : Nat) (y : Array α) : M (Array α) := do
  let r ← rd A i
  let a ← rd r j
  let v ← rd x j
  let u ← rd y i
  wr y i (u + a * v)

/-- The unit transform given by a matrix — kronecker_power.hpp:51-57. -/
def matUnit (D : Nat) (A : Array (Array α)) (x : Array α) : M (Array α) :=
  forUp 0 D (Array.replicate D 0) fun i y => forUp 0 D y (matCell A x i)

/-- `kronecker_power_transform(x, A)` — kronecker_power.hpp:47-59. -/
def matTransform (A : Array (Array α)) (x : Array α) : M (Array α) := do
  let r ← rd A 0
  check (decide (A.size = r.size))
  transform A.size (matUnit A.size A) x

end

/-- `x1 = add(x1, x0)` — subset.hpp:9-12 (with `sub`: 14-17). -/
def unit1 (op : α → α → M α) (w : Array α) : M (Array α) := do
  let x0 ← rd w 0
  let x1 ← rd w 1
  let y ← op x1 x0
  wr w 1 y

/-- `x0 = add(x0, x1)` — supset.hpp:9-12 (with `sub`: 14-17). -/
def unit0 (op : α → α → M α) (w : Array α) : M (Array α) := do
  let x0 ← rd w 0
  let x1 ← rd w 1
  let y ← op x0 x1
  wr w 0 y

/-- Unit of the Walsh–Hadamard transform — walsh_hadamard.hpp:9-13. -/
def unitWH (add sub : α → α → M α) (w : Array α) : M (Array α) := do
  let y0 ← rd w 0
  let y1 ← rd w 1
  let a ← add y0 y1
  let w ← wr w 0 a
  let b ← sub y0 y1
  wr w 1 b

/-- A total binary operation. -/
def ok2 (f : α → α → α) (x y : α) : M α := .ok (f x y)

/-- `subset_transform::zeta` — subset.hpp:22-25. -/
def subsetZeta (add : α → α → M α) (a : Array α) : M (Array α) := transform 2 (unit1 add) a

/-- `subset_transform::mobius` — subset.hpp:26-29. -/
def subsetMobius (sub : α → α → M α) (a : Array α) : M (Array α) := transform 2 (unit1 sub) a

/-- `supset_transform::zeta` — supset.hpp:22-25. -/
def supsetZeta (add : α → α → M α) (a : Array α) : M (Array α) := transform 2 (unit0 add) a

/-- `supset_transform::mobius` — supset.hpp:26-29. -/
def supsetMobius (sub : α → α → M α) (a : Array α) : M (Array α) := transform 2 (unit0 sub) a

/-- `walsh_hadamard` — walsh_hadamard.hpp:18-21. -/
def walshHadamard (add sub : α → α → M α) (a : Array α) : M (Array α) := transform 2 (unitWH add sub) a

/-- `for (auto& val : a) val = div(val, n);` — walsh_hadamard.hpp:26, 33. -/
def mapAll (f : α → M α) (a : Array α) : M (Array α) :=
  forUp 0 a.size a fun i a => do
    let v ← rd a i
    let v ← f v
    wr a i v

/-- `walsh_hadamard_inv` for integral types — walsh_hadamard.hpp:22-27; mathematical integers. -/
def walshHadamardInvInt (a : Array Int) : M (Array Int) := do
  let a ← walshHadamard (ok2 (· + ·)) (ok2 (· - ·)) a
  mapAll (fun v => if (a.size : Int) = 0 then .error .ub else .ok (v.tdiv a.size)) a

/-- `walsh_hadamard_inv` for other types — walsh_hadamard.hpp:28-34; `invOf` is `inv` applied to the image of the length. -/
def walshHadamardInv [Ring α] (inv : α → α) (a : Array α) : M (Array α) := do
  let a ← walshHadamard (ok2 (· + ·)) (ok2 (· - ·)) a
  mapAll (fun v => .ok (v * inv (a.size : α))) a

/-- `for (i = 0; i < n; ++i) a[i] = mul(a[i], b[i]);` — convolution.hpp:16. -/
def pointwise (mul : α → α → M α) (a b : Array α) : M (Array α) :=
  forUp 0 a.size a fun i a => do
    let x ← rd a i
    let y ← rd b i
    let z ← mul x y
    wr a i z

/-- `transform_convolution(a, b)` — convolution.hpp:11-19. -/
def transformConvolution (tr inv : Array α → M (Array α)) (mul : α → α → M α) (a b : Array α) : M (Array α) := do
  check (decide (a.size = b.size))
  let a ← tr a
  let b ← tr b
  let a ← pointwise mul a b
  inv a

section
variable [Ring α]

/-- `or_convolution` — or_convolution.hpp:14-21. -/
def orConvolution (a b : Array α) : M (Array α) :=
  transformConvolution (subsetZeta (ok2 (· + ·))) (subsetMobius (ok2 (· - ·))) (ok2 (· * ·)) a b

/-- `and_convolution` — and_convolution.hpp:14-21. -/
def andConvolution (a b : Array α) : M (Array α) :=
  transformConvolution (supsetZeta (ok2 (· + ·))) (supsetMobius (ok2 (· - ·))) (ok2 (· * ·)) a b

/-- `xor_convolution` for types that are not integral — xor_convolution.hpp:33-40. -/
def xorConvolution (inv : α → α) (a b : Array α) : M (Array α) :=
  transformConvolution (walshHadamard (ok2 (· + ·)) (ok2 (· - ·))) (walshHadamardInv inv) (ok2 (· * ·)) a b

end

/-- `xor_convolution` for integral types — xor_convolution.hpp:16-23; mathematical integers. -/
def xorConvolutionInt (a b : Array Int) : M (Array Int) :=
  transformConvolution (walshHadamard (ok2 (· + ·)) (ok2 (· - ·))) walshHadamardInvInt (ok2 (· * ·)) a b

end Kronecker

namespace DivisorTransform
open Cxx
variable {α : Type}

/-- `f[pq] = add(f[pq], f[q]); is_prime[pq] = false;` — divisor.hpp:14-17; state `(q, pq, f, is_prime)`. -/
def cumStep (add : α → α → α) (n p : Nat) (s : Nat × Nat × Array α × Array Bool) : M (Option (Nat × Nat × Array α × Array Bool)) :=
  if s.2.1 < n then do
    let x ← rd s.2.2.1 s.2.1
    let y ← rd s.2.2.1 s.1
    let f ← wr s.2.2.1 s.2.1 (add x y)
    let b ← wr s.2.2.2 s.2.1 false
    return some (s.1 + 1, s.2.1 + p, f, b)
  else return none

/-- `cum(p)` — divisor.hpp:13-18. -/
def cum (add : α → α → α) (n p : Nat) (s : Array α × Array Bool) : M (Array α × Array Bool) := do
  let t ← loop (cumStep add n p) n (1, p, s.1, s.2)
  return (t.2.2.1, t.2.2.2)

/-- `f[pq] = sub(f[pq], f[q]); is_prime[pq] = false;` for `q = qmax, …, 1` — divisor.hpp:28-31 (`pq = q * p`). -/
def diffStep (sub : α → α → α) (p : Nat) (q : Nat) (s : Array α × Array Bool) : M (Array α × Array Bool) := do
  let x ← rd s.1 (q * p)
  let y ← rd s.1 q
  let f ← wr s.1 (q * p) (sub x y)
  let b ← wr s.2 (q * p) false
  return (f, b)

/-- `diff(p)` — divisor.hpp:26-32. -/
def diff (sub : α → α → α) (n p : Nat) (s : Array α × Array Bool) : M (Array α × Array Bool) :=
  forDown ((n - 1) / p + 1) 1 s (diffStep sub p)

/-- `for (int p = 2; p < n; ++p) if (is_prime[p]) cum(p);` — divisor.hpp:19, 33, multiple.hpp:20, 33. -/
def primeStep (body : Nat → Array α × Array Bool → M (Array α × Array Bool)) (p : Nat) (s : Array α × Array Bool) : M (Array α × Array Bool) := do
  let b ← rd s.2 p
  if b then body p s else return s

/-- The loop over the primes, with the sieve initialised to `true`. -/
def run (body : Nat → Array α × Array Bool → M (Array α × Array Bool)) (f : Array α) : M (Array α) := do
  let s ← forUp 2 f.size (f, Array.replicate f.size true) (primeStep body)
  return s.1

/-- `divisor_transform::zeta` — divisor.hpp:10-20. -/
def zeta (add : α → α → α) (f : Array α) : M (Array α) := run (cum add f.size) f

/-- `divisor_transform::mobius` — divisor.hpp:23-34. -/
def mobius (sub : α → α → α) (f : Array α) : M (Array α) := run (diff sub f.size) f

end DivisorTransform

namespace MultipleTransform
open Cxx DivisorTransform
variable {α : Type}

/-- `f[q] = add(f[q], f[pq]); is_prime[pq] = false;` for `q = qmax, …, 1` — multiple.hpp:15-18 (`pq = q * p`). -/
def cumStep (add : α → α → α) (p : Nat) (q : Nat) (s : Array α × Array Bool) : M (Array α × Array Bool) := do
  let x ← rd s.1 q
  let y ← rd s.1 (q * p)
  let f ← wr s.1 q (add x y)
  let b ← wr s.2 (q * p) false
  return (f, b)

/-- `cum(p)` — multiple.hpp:13-19. -/
def cum (add : α → α → α) (n p : Nat) (s : Array α × Array Bool) : M (Array α × Array Bool) :=
  forDown ((n - 1) / p + 1) 1 s (cumStep add p)

/-- `f[q] = sub(f[q], f[pq]); is_prime[pq] = false;` — multiple.hpp:28-31; state `(q, pq, f, is_prime)`. -/
def diffStep (sub : α → α → α) (n p : Nat) (s : Nat × Nat × Array α × Array Bool) : M (Option (Nat × Nat × Array α × Array Bool)) :=
  if s.2.1 < n then do
    let x ← rd s.2.2.1 s.1
    let y ← rd s.2.2.1 s.2.1
    let f ← wr s.2.2.1 s.1 (sub x y)
    let b ← wr s.2.2.2 s.2.1 false
    return some (s.1 + 1, s.2.1 + p, f, b)
  else return none

/-- `diff(p)` — multiple.hpp:27-32. -/
def diff (sub : α → α → α) (n p : Nat) (s : Array α × Array Bool) : M (Array α × Array Bool) := do
  let t ← loop (diffStep sub n p) n (1, p, s.1, s.2)
  return (t.2.2.1, t.2.2.2)

/-- `multiple_transform::zeta` — multiple.hpp:10-21. -/
def zeta (add : α → α → α) (f : Array α) : M (Array α) := run (cum add f.size) f

/-- `multiple_transform::mobius` — multiple.hpp:24-34. -/
def mobius (sub : α → α → α) (f : Array α) : M (Array α) := run (diff sub f.size) f

/-- `gcd_convolution` — gcd_convolution.hpp:14-21. -/
def gcdConvolution [Ring α] (a b : Array α) : M (Array α) :=
  Kronecker.transformConvolution (zeta (· + ·)) (mobius (· - ·)) (Kronecker.ok2 (· * ·)) a b

/-- `lcm_convolution` — lcm_convolution.hpp:14-21. -/
def lcmConvolution [Ring α] (a b : Array α) : M (Array α) :=
  Kronecker.transformConvolution (DivisorTransform.zeta (· + ·)) (DivisorTransform.mobius (· - ·)) (Kronecker.ok2 (· * ·)) a b

end MultipleTransform

namespace FPSNaive
open Cxx
variable {T : Type} [Ring T]

/-- `ensure_deg(d)` with `d = m - 1` — fps_naive.hpp:265-267. -/
def ensure (f : Array T) (m : Nat) : Array T := if f.size < m then f ++ Array.replicate (m - f.size) 0 else f

/-- `operator+=` / `operator-=` — fps_naive.hpp:69-78. -/
def zipInto (op : T → T → T) (f g : Array T) : M (Array T) :=
  forUp 0 g.size (ensure f g.size) fun i f => do
    let x ← rd f i
    let y ← rd g i
    wr f i (op x y)

/-- `operator+` — fps_naive.hpp:96. -/
def add (f g : Array T) : M (Array T) := zipInto (· + ·) f g

/-- `operator-` — fps_naive.hpp:98. -/
def sub (f g : Array T) : M (Array T) := zipInto (· - ·) f g

/-- `h[i + j] += f[i] * g[j]` — fps_naive.hpp:154. -/
def mulCell (f g : Array T) (i j : Nat) (h : Array T) : M (Array T) := do
  let x ← rd f i
  let y ← rd g j
  let z ← rd h (i + j)
  wr h (i + j) (z + x * y)

/-- `f.mul(g, n)` for `n >= 0` — fps_naive.hpp:147-158. (`n - i` may be negative; the inner loop is then empty, as with truncated subtraction.) -/
def mulN (f g : Array T) (n : Nat) : M (Array T) :=
  if f.size = 0 ∨ g.size = 0 then return #[]
  else forUp 0 f.size (Array.replicate (min n (f.size + g.size - 1)) 0) fun i h => forUp 0 (min g.size (n - i)) h (mulCell f g i)

end FPSNaive

namespace SubsetConvolution
open Cxx

/-- `__builtin_popcount(x)` for `x >= 0` (all set bits of `x` have positions below `x`). -/
def popcount (x : Nat) : Nat := ((List.range x).filter fun i => x.testBit i).length

variable {T : Type} [Ring T]

/-- `fs[i][popcount(i)] = a[i]` — subset_convolution.hpp:19 (`operator[]` grows the polynomial if needed, fps_naive.hpp:34-36). -/
def rankStep (a : Array T) (i : Nat) (fs : Array (Array T)) : M (Array (Array T)) := do
  let x ← rd a i
  let f ← rd fs i
  let f ← wr (FPSNaive.ensure f (popcount i + 1)) (popcount i) x
  wr fs i f

/-- `ranked(a)` — subset_convolution.hpp:15-21. `(-n & n) == n` says that `n` is zero or a power of two; `__builtin_ctz(0)` is undefined. -/
def ranked (a : Array T) : M (Array (Array T)) := do
  check (decide (a.size = 0 ∨ 2 ^ Nat.log2 a.size = a.size))
  if a.size = 0 then .error .ub
  else forUp 0 a.size (Array.replicate a.size (Array.replicate (Nat.log2 a.size + 1) 0)) (rankStep a)

/-- `a[i] = polys[i][popcount(i)]` — subset_convolution.hpp:27; the const `operator[]` gives zero beyond the degree (fps_naive.hpp:31-33). -/
def derankStep (p : Array (Array T)) (i : Nat) (a : Array T) : M (Array T) := do
  let f ← rd p i
  return a.push (at' 0 f (popcount i))

/-- `deranked(polys)` — subset_convolution.hpp:23-29. -/
def deranked (p : Array (Array T)) : M (Array T) := do
  check (decide (p.size = 0 ∨ 2 ^ Nat.log2 p.size = p.size))
  forUp 0 p.size #[] (derankStep p)

/-- `ranked_zeta` — subset_convolution.hpp:33-37. -/
def rankedZeta (a : Array T) : M (Array (Array T)) := do
  let r ← ranked a
  Kronecker.subsetZeta FPSNaive.add r

/-- `deranked_mobius` — subset_convolution.hpp:39-42. -/
def derankedMobius (r : Array (Array T)) : M (Array T) := do
  let r ← Kronecker.subsetMobius FPSNaive.sub r
  deranked r

/-- `ra[i] = ra[i].mul(rb[i], ra[i].size())` — subset_convolution.hpp:49. -/
def mulStep (rb : Array (Array T)) (i : Nat) (ra : Array (Array T)) : M (Array (Array T)) := do
  let f ← rd ra i
  let g ← rd rb i
  let h ← FPSNaive.mulN f g f.size
  wr ra i h

/-- `subset_convolution(a, b)` — subset_convolution.hpp:46-51. -/
def subsetConvolution (a b : Array T) : M (Array T) := do
  let ra ← rankedZeta a
  let rb ← rankedZeta b
  let ra ← forUp 0 a.size ra (mulStep rb)
  derankedMobius ra

end SubsetConvolution
