import Verif.Cxx

/-!
# Model of `library/datastructure/bit_vector.hpp`

`cum_s` and `bits` hold `std::uint8_t`: what is stored is reduced modulo 256. The size is a non-negative `int`; the counts, which are at most the size, are natural numbers.
-/

namespace BitVector
open Cxx

/-- `BitVector` — bit_vector.hpp:74-76. -/
structure BV where
  n : Nat
  nl : Nat
  ns : Nat
  cumL : Array Nat
  cumS : Array Nat
  bits : Array Nat

/-- `BitVector(n)` — bit_vector.hpp:11. -/
def BV.empty (n : Nat) : BV :=
  ⟨n, n / 256 + 1, n / 8 + 1, Array.replicate (n / 256 + 1) 0, Array.replicate (n / 8 + 1) 0, Array.replicate (n / 8 + 1) 0⟩

/-- `popcount8(x)` on `uint8_t` — bit_vector.hpp:78-82. -/
def popcount8 (x : Nat) : Nat :=
  let x := ((x &&& 0b01010101) + ((x >>> 1) &&& 0b01010101)) % 256
  let x := ((x &&& 0b00110011) + ((x >>> 2) &&& 0b00110011)) % 256
  ((x &&& 0b00001111) + (x >>> 4)) % 256

/-- `bits[k] |= b << (i & MASK_S)` — bit_vector.hpp:32, 42. -/
def setBit (bits : Array Nat) (k i : Nat) (b : Bool) : M (Array Nat) := do
  let x ← rd bits k
  wr bits k ((x ||| (b.toNat <<< (i % 8))) % 256)

/-- Body of the inner loop — bit_vector.hpp:31-33; state `(count, bits)`. -/
def bitStep (gen : Nat → M Bool) (k i : Nat) (s : Nat × Array Nat) : M (Nat × Array Nat) := do
  let b ← gen i
  let bits ← setBit s.2 k i b
  return (s.1 + b.toNat, bits)

/-- Lines 35-40, after the inner loop has left `i = 8 * index_s`. -/
def store (v : BV) (k count : Nat) : M BV :=
  if k % 32 ≠ 0 then do
    let c ← wr v.cumS k (count % 256)
    return { v with cumS := c }
  else do
    let il := (8 * k) / 256
    let x ← rd v.cumL (il - 1)
    let c ← wr v.cumL il (x + count)
    return { v with cumL := c }

/-- Body of the loop over the small blocks — bit_vector.hpp:29-40; `i` is `8 * (index_s - 1)` at its start. -/
def blockStep (gen : Nat → M Bool) (k : Nat) (v : BV) : M BV := do
  let count ← rd v.cumS (k - 1)
  let s ← forUp (8 * (k - 1)) (8 * k) (count, v.bits) (bitStep gen (k - 1))
  store { v with bits := s.2 } k s.1

/-- Line 42. -/
def lastStep (gen : Nat → M Bool) (k i : Nat) (bits : Array Nat) : M (Array Nat) := do
  let b ← gen i
  setBit bits k i b

/-- `build(gen)` — bit_vector.hpp:26-43; the last loop starts with `i = 8 * (ns - 1)`. -/
def build (gen : Nat → M Bool) (v : BV) : M BV := do
  let v ← forUp 1 v.ns v (blockStep gen)
  let bits ← forUp (8 * (v.ns - 1)) v.n v.bits (lastStep gen (v.ns - 1))
  return { v with bits := bits }

/-- `BitVector(n, gen)` — bit_vector.hpp:14-16. -/
def make (n : Nat) (gen : Nat → M Bool) : M BV := build gen (BV.empty n)

/-- `operator[](i)`, `access(i)` — bit_vector.hpp:44-50. -/
def get (v : BV) (i : Nat) : M Bool := do
  let x ← rd v.bits (i / 8)
  return (x >>> (i % 8)) % 2 == 1

/-- `rank(val, i)` — bit_vector.hpp:52-55. -/
def rank (v : BV) (val : Bool) (i : Nat) : M Int := do
  let x ← rd v.cumL (i / 256)
  let y ← rd v.cumS (i / 8)
  let z ← rd v.bits (i / 8)
  let res := x + y + popcount8 (z &&& (2 ^ (i % 8) - 1))
  return if val then (res : Int) else (i : Int) - res

/-- `rank(val, l, r)` — bit_vector.hpp:57-59. -/
def rankRange (v : BV) (val : Bool) (l r : Nat) : M Int := do
  let x ← rank v val r
  let y ← rank v val l
  return x - y

/-- Body of the loop of `select` — bit_vector.hpp:63-66; state `(l, r)`; a negative index is undefined. -/
def selectStep (v : BV) (val : Bool) (num : Int) (s : Int × Int) : M (Option (Int × Int)) :=
  if s.2 - s.1 > 1 then do
    let m := (s.1 + s.2) / 2
    let c ← if m < 0 then .error .ub else rank v val m.toNat
    return some (if c ≥ num then (s.1, m) else (m, s.2))
  else return none

/-- `select(val, num, default_value)` — bit_vector.hpp:61-68. -/
def select (v : BV) (val : Bool) (num : Int) (dflt : Int) : M Int := do
  let s ← loop (selectStep v val num) (v.n + 2) (-1, (v.n : Int) + 1)
  return if s.2 = v.n + 1 then dflt else s.2

end BitVector
