import Verif.Model.Mo
import Verif.Model.ModTables

/-!
# Model of `library/math/binomial_coefficient_sum.hpp`

`F` is the field of the modular integers; the static table of `factorial` is passed in and returned. `int` differences are exact.
-/

namespace BinomSum
open Cxx ModTables
variable {F : Type} [Field F] [DecidableEq F]

/-- What the callbacks change: the sum, the table of factorials and the table of powers. -/
structure S (F : Type) where
  sum : F
  fac : Factorial.Tab F
  pw : Array F

/-- "Add Left" — binomial_coefficient_sum.hpp:62-66. -/
def addL (r : F) (n m : Nat) (s : S F) : M (S F) := do
  let p ← PowMods.get r s.pw (n + 1)
  let c ← Factorial.binom s.fac m ((n + 1 : Nat) : Int)
  return ⟨s.sum - p.2 * c.2, c.1, p.1⟩

/-- "Del Left" — binomial_coefficient_sum.hpp:67-71. -/
def delL (r : F) (n m : Nat) (s : S F) : M (S F) := do
  let p ← PowMods.get r s.pw (n + 1)
  let c ← Factorial.binom s.fac m ((n + 1 : Nat) : Int)
  return ⟨s.sum + p.2 * c.2, c.1, p.1⟩

/-- "Add Right" — binomial_coefficient_sum.hpp:72-76. -/
def addR (r : F) (n m : Nat) (s : S F) : M (S F) := do
  let p ← PowMods.get r s.pw (n + 1)
  let c ← Factorial.binom s.fac m n
  return ⟨(r + 1) * s.sum - p.2 * c.2, c.1, p.1⟩

/-- "Del Right" — binomial_coefficient_sum.hpp:77-81. -/
def delR (r inv : F) (n m : Nat) (s : S F) : M (S F) := do
  let p ← PowMods.get r s.pw (n + 1)
  let c ← Factorial.binom s.fac m n
  return ⟨(p.2 * c.2 + s.sum) * inv, c.1, p.1⟩

/-- The callbacks — binomial_coefficient_sum.hpp:58-82. -/
def callbacks (r inv : F) : Mo.Callbacks (S F) F := ⟨fun s => return s.sum, addL r, delL r, addR r, delR r inv⟩

/-- `n % 2 == 1 ? -1 : +1` — binomial_coefficient_sum.hpp:28. -/
def altSign (n : Int) : F := if n % 2 = 1 then -1 else 1

/-- One query with `r = -1` — binomial_coefficient_sum.hpp:20-29; state: the table and the results. -/
def altStep (qs : Array (Int × Int)) (i : Nat) (st : Factorial.Tab F × Array F) : M (Factorial.Tab F × Array F) := do
  let q ← rd qs i
  let n := min q.1 q.2
  if n < 0 then do
    let res ← wr st.2 i 0
    return (st.1, res)
  else if q.2 = 0 then do
    let res ← wr st.2 i 1
    return (st.1, res)
  else do
    let c ← Factorial.binom st.1 (q.2 - 1) n
    let res ← wr st.2 i (altSign n * c.2)
    return (c.1, res)

/-- The state of the loop that collects the queries. -/
structure Coll (F : Type) where
  res : Array F
  qid : Array Nat
  ranges : Array (Nat × Nat)
  maxM : Int

/-- The loop that collects the queries — binomial_coefficient_sum.hpp:38-51. -/
def collStep (qs : Array (Int × Int)) (i : Nat) (st : Coll F) : M (Coll F) := do
  let q ← rd qs i
  let n := min q.1 q.2
  if n < 0 then do
    let res ← wr st.res i 0
    return { st with res := res }
  else if q.2 = 0 then do
    let res ← wr st.res i 1
    return { st with res := res }
  else return ⟨st.res, st.qid.push i, st.ranges.push (n.toNat, q.2.toNat), max st.maxM q.2⟩

/-- `res[qid[i]] = res_mo[i]` — binomial_coefficient_sum.hpp:83. -/
def backStep (qid : Array Nat) (resMo : Array F) (i : Nat) (res : Array F) : M (Array F) := do
  let k ← rd qid i
  let x ← rd resMo i
  wr res k x

/-- The part with `r != -1` — binomial_coefficient_sum.hpp:34-84. -/
def general (srt : (Nat → Nat → Bool) → List Nat → List Nat) (b : Nat) (t : Factorial.Tab F) (qs : Array (Int × Int)) (r : F) : M (Factorial.Tab F × Array F) := do
  let c ← forUp 0 qs.size (Coll.mk (Array.replicate qs.size 0) #[] #[] 1) (collStep qs)
  let pw ← PowMods.ensure r #[1] (c.maxM + 1).toNat
  let t ← Factorial.ensure t (c.maxM + 1).toNat
  let inv ← minv (r + 1)
  let o ← Mo.solve srt b c.ranges (callbacks r inv) 0 ⟨1, t, pw⟩
  let res ← forUp 0 c.qid.size c.res (backStep c.qid o.2)
  return (o.1.fac, res)

/-- `binom_sum_prefix(qs, r)` — binomial_coefficient_sum.hpp:12-85. -/
def prefixSum (srt : (Nat → Nat → Bool) → List Nat → List Nat) (b : Nat) (t : Factorial.Tab F) (qs : Array (Int × Int)) (r : F) : M (Factorial.Tab F × Array F) :=
  if r = -1 then forUp 0 qs.size (t, Array.replicate qs.size 0) (altStep qs)
  else general srt b t qs r

/-- `binom_sum(qs, r)` — binomial_coefficient_sum.hpp:88-102; the loops over the queries are written as maps. The two calls may use different
bucket sizes. -/
def binomSum (srt : (Nat → Nat → Bool) → List Nat → List Nat) (b b' : Nat) (t : Factorial.Tab F) (qs : Array (Int × Int × Int)) (r : F) : M (Factorial.Tab F × Array F) := do
  let suml ← prefixSum srt b t (qs.map fun q => (q.1 - 1, q.2.2)) r
  let sumr ← prefixSum srt b' suml.1 (qs.map fun q => (q.2.1, q.2.2)) r
  return (sumr.1, Array.zipWith (fun x y => y - x) suml.2 sumr.2)

end BinomSum
