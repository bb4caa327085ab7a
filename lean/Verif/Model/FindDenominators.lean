import Verif.Cxx

/-!
# Model of `library/number/find_denominators.hpp`

For a signed type `T` with the values from `-hi - 1` to `hi`, at least as wide as `int`: results of `+`, `-` and `/` outside of that range are undefined behaviour.
-/

namespace FindDenominators
open Cxx

/-- The value of an arithmetic expression. -/
def ar (hi v : Int) : M Int := if -hi - 1 ≤ v ∧ v ≤ hi then return v else .error .ub

/-- `a / b`. -/
def dv (hi a b : Int) : M Int := if b = 0 then .error .ub else ar hi (a.tdiv b)

/-- The last two lines of each function. -/
def fin (l r : Int) : Option (Int × Int) := if l ≤ r then some (l, r) else none

/-- `fld_denominators_positive` — find_denominators.hpp:18-31. -/
def fldPositive (hi n q maxVal : Int) : M (Option (Int × Int)) := do
  if q ≥ 0 then
    if n < 0 then return none
    let l ← dv hi (← ar hi ((← ar hi (n + 1)) + q)) (← ar hi (q + 1))
    let r ← (if q = 0 then return maxVal else return min maxVal (← dv hi n q) : M Int)
    return fin l r
  else
    if n ≥ 0 then return none
    let l ← dv hi (← ar hi ((← ar hi (n + q)) + 1)) q
    let r ← (if q = -1 then return maxVal else return min maxVal (← dv hi (← ar hi (n + 1)) (← ar hi (q + 1))) : M Int)
    return fin l r

/-- `fld_denominators_negative` — find_denominators.hpp:40-53. -/
def fldNegative (hi n q minVal : Int) : M (Option (Int × Int)) := do
  if q ≥ 0 then
    if n > 0 then return none
    let l ← (if q = 0 then return minVal else return max minVal (← dv hi n q) : M Int)
    let r ← dv hi (← ar hi ((← ar hi (n - 1)) - q)) (← ar hi (q + 1))
    return fin l r
  else
    if n ≤ 0 then return none
    let l ← (if q = -1 then return minVal else return max minVal (← dv hi (← ar hi (n - 1)) (← ar hi (q + 1))) : M Int)
    let r ← dv hi (← ar hi ((← ar hi (n - q)) - 1)) q
    return fin l r

/-- `cld_denominators_positive` — find_denominators.hpp:62-73. -/
def cldPositive (hi n q maxVal : Int) : M (Option (Int × Int)) := do
  if q > 0 then
    if n ≤ 0 then return none
    let l ← dv hi (← ar hi ((← ar hi (n + q)) - 1)) q
    let r ← (if q = 1 then return maxVal else return min maxVal (← dv hi (← ar hi (n - 1)) (← ar hi (q - 1))) : M Int)
    return fin l r
  else
    if n > 0 then return none
    let l ← dv hi (← ar hi ((← ar hi (n - 1)) + q)) (← ar hi (q - 1))
    let r ← (if q = 0 then return maxVal else return min maxVal (← dv hi n q) : M Int)
    return fin l r

/-- `cld_denominators_negative` — find_denominators.hpp:82-93. -/
def cldNegative (hi n q minVal : Int) : M (Option (Int × Int)) := do
  if q > 0 then
    if n ≥ 0 then return none
    let l ← (if q = 1 then return minVal else return max minVal (← dv hi (← ar hi (n + 1)) (← ar hi (q - 1))) : M Int)
    let r ← dv hi (← ar hi ((← ar hi (n - q)) + 1)) q
    return fin l r
  else
    if n < 0 then return none
    let l ← (if q = 0 then return minVal else return max minVal (← dv hi n q) : M Int)
    let r ← dv hi (← ar hi ((← ar hi (n + 1)) - q)) (← ar hi (q - 1))
    return fin l r

end FindDenominators
