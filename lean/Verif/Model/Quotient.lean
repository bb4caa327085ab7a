import Verif.Model.Machine

/-!
# Models of `library/number/enumerate_quotient.hpp` and `library/number/kth_root_round.hpp`

The value type is `long long` with non-negative arguments. `(T)sqrtl(n)` is `Nat.sqrt n` and `static_cast<T>(static_cast<double>(n) / l)` is `n / l`;
`Verif/Proof/Rounding.lean` proves both from rounding to nearest with a 64-bit (53-bit) significand.
-/

namespace Quotient
open Cxx

/-- `quotient_num(n)` — enumerate_quotient.hpp:16-19. -/
def quotientNum (n : Nat) : M Int := do
  let h : Int := Nat.sqrt n
  let p ← i64 (h * (h + 1))
  let d ← i64 (2 * h)
  i64 (d - if p > n then 1 else 0)

/-- `h == n / h` as `0` or `1`; the operand `h` is converted to `T` — enumerate_quotient.hpp:30. -/
def isSame (h n : Nat) : Int := if h = n / h then 1 else 0

/-- `foreach_quotients(n, f)` with the state captured by `f` — enumerate_quotient.hpp:27-37. Both branches of line 32 compute `n / l`. -/
def foreachQuotients {σ : Type} (n : Nat) (f : σ → Nat → M σ) (c : σ) : M σ :=
  if n = 0 then return c
  else do
    let h ← i32 (Nat.sqrt n)
    let d ← i32 (2 * h)
    let m := d - isSame h.toNat n
    let c ← forUp 1 (h.toNat + 1) c (fun l c => f c l)
    forDown (h.toNat - (m % 2).toNat + 1) 1 c (fun l c => f c (n / l))

/-- `*it++ = v` into the vector; state `(it, q)` — enumerate_quotient.hpp:47. -/
def store (s : Nat × Array Nat) (v : Nat) : M (Nat × Array Nat) := do
  let q ← wr s.2 s.1 v
  return (s.1 + 1, q)

/-- `enumerate_quotients(n)` — enumerate_quotient.hpp:44-49. -/
def enumerateQuotients (n : Nat) : M (Array Nat) := do
  let m ← quotientNum n
  let s ← foreachQuotients n store (0, Array.replicate m.toNat 0)
  return s.2

/-- `i ? qs[i - 1] + 1 : 1` — enumerate_quotient.hpp:64. -/
def lower (qs : Array Nat) (i : Nat) : M Nat :=
  if i ≠ 0 then do
    let x ← rd qs (i - 1)
    return x + 1
  else return 1

/-- Body of the loop of `quotient_ranges` — enumerate_quotient.hpp:63-66. -/
def rangeStep (qs : Array Nat) (i : Nat) (res : Array (Nat × Nat × Nat)) : M (Array (Nat × Nat × Nat)) := do
  let l ← lower qs i
  let r ← rd qs i
  let q ← rd qs (qs.size - i - 1)
  wr res i (l, r, q)

/-- `quotient_ranges(n)` — enumerate_quotient.hpp:58-68. -/
def quotientRanges (n : Nat) : M (Array (Nat × Nat × Nat)) := do
  let qs ← enumerateQuotients n
  forUp 0 qs.size (Array.replicate qs.size (0, 0, 0)) (rangeStep qs)

/-- `std::numeric_limits<T>::max()`. -/
def maxT : Nat := 2 ^ 63 - 1

/-- Body of the loop over the values — enumerate_quotient.hpp:87-90; state `(r, qs)`. -/
def multiStep (vs : Array Nat) (l i : Nat) (s : Nat × Array Nat) : M (Nat × Array Nat) := do
  let v ← rd vs i
  let qs ← wr s.2 i (v / l)
  return (min s.1 (if v / l = 0 then maxT else v / (v / l)), qs)

/-- Body of the outer loop — enumerate_quotient.hpp:83-92; state `(l, res)`. -/
def multiBody (vs : Array Nat) (mx : Nat) (s : Nat × Array (Nat × Nat × Array Nat)) : M (Option (Nat × Array (Nat × Nat × Array Nat))) :=
  if s.1 ≤ mx then do
    let t ← forUp 0 vs.size (maxT, Array.replicate vs.size 0) (multiStep vs s.1)
    let l ← i64 (t.1 + 1)
    return some (l.toNat, s.2.push (s.1, t.1, t.2))
  else return none

/-- `multiple_quotients_ranges(vs)` for vectors — enumerate_quotient.hpp:76-94. -/
def multipleRanges (vs : Array Nat) : M (Array (Nat × Nat × Array Nat)) :=
  if vs.size = 0 then .error .ub
  else do
    let mx := vs.toList.foldl max 0
    let s ← loop (multiBody vs mx) mx (1, #[])
    return s.2

end Quotient

namespace KthRoot
open Cxx

/-- `while (::powl(res + 1, k) <= x) ++res;` — kth_root_round.hpp:14; the comparison is exact. -/
def climb (x k : Nat) (res : Nat) : M (Option Nat) := if (res + 1) ^ k ≤ x then return some (res + 1) else return none

/-- `floor_kth_root(x, k)` — kth_root_round.hpp:9-16; `guess x k` is the value of line 13. -/
def floorRoot (guess : Nat → Nat → Nat) (x k : Nat) : M Nat :=
  if k = 1 ∨ x = 0 ∨ x = 1 then return x
  else if k = 2 then return Nat.sqrt x
  else if k ≥ 64 then return 1
  else loop (climb x k) x (guess x k)

/-- `ceil_kth_root(x, k)` — kth_root_round.hpp:18-22. -/
def ceilRoot (guess : Nat → Nat → Nat) (x k : Nat) : M Nat := do
  let r ← floorRoot guess x k
  return r + if r ^ k < x then 1 else 0

end KthRoot
