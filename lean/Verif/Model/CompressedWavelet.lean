import Verif.Model.WaveletMatrix
import Verif.Model.Util
import Mathlib.Algebra.Order.Ring.Int

/-!
# Model of `library/datastructure/compressed_wavelet_matrix.hpp`

`T` is an integer type with maximum `mx`. The base class is `WaveletMatrix<int, w>`; its values are non-negative except for the default value -1, represented by `2^32 - 1`.
-/

namespace CompressedWavelet
open Cxx WaveletMatrix

/-- The object: the compressor and the base class — compressed_wavelet_matrix.hpp:14, 84-85. -/
structure CW where
  comp : Array Int
  wm : WM

/-- `comp[generator(i)]` for the elements of the vector — compressed_wavelet_matrix.hpp:20. -/
def codes (ys : Array Int) (a : List Int) : M (Array Nat) :=
  forEach a #[] fun cs v => do
    let c ← Compressor.comp ys v (-1)
    let c ← idx c
    return cs.push c

/-- `CompressedWaveletMatrix(a)` — compressed_wavelet_matrix.hpp:19-24. -/
def make (w : Nat) (a : List Int) : M CW := do
  let ys ← Compressor.build a
  let cs ← codes ys a
  let wm ← WaveletMatrix.make w cs.size (fun i => at' 0 cs i)
  return ⟨ys, wm⟩

/-- `-1` as the default value of the base class. -/
def absent : Nat := 2 ^ 32 - 1

/-- `x == -1 ? default_value : comp.decomp(x)` — lines 43, 48, 68, 77. -/
def restore (s : CW) (x : Nat) (dflt : Int) : M Int := if x = absent then return dflt else Compressor.decomp s.comp x

/-- `operator[]`, `access` — compressed_wavelet_matrix.hpp:27-33. -/
def get (w : Nat) (s : CW) (i : Nat) : M Int := do
  let x ← WaveletMatrix.get s.wm w i
  Compressor.decomp s.comp x

/-- `rank(val, i)` — compressed_wavelet_matrix.hpp:35-39. -/
def rank (w : Nat) (s : CW) (val : Int) (i : Nat) : M Int := do
  let x ← Compressor.comp s.comp val (-1)
  if x = -1 then return 0 else rankVal 32 w s.wm x.toNat i

/-- `range_kth_smallest` — compressed_wavelet_matrix.hpp:41-44. -/
def kthSmallest (w : Nat) (s : CW) (l r : Nat) (k dflt : Int) : M Int := do
  let x ← kth 32 w s.wm l r k 0 absent
  restore s x dflt

/-- `range_kth_largest` — compressed_wavelet_matrix.hpp:46-49. -/
def kthLargest (w : Nat) (s : CW) (l r : Nat) (k dflt : Int) : M Int := do
  let x ← WaveletMatrix.kthLargest 32 w s.wm l r k 0 absent
  restore s x dflt

/-- `range_min` — compressed_wavelet_matrix.hpp:51-53. -/
def rangeMin (w : Nat) (s : CW) (l r : Nat) : M Int := do
  let x ← xorMin 32 w s.wm l r 0
  Compressor.decomp s.comp x

/-- `range_max` — compressed_wavelet_matrix.hpp:55-57. -/
def rangeMax (w : Nat) (s : CW) (l r : Nat) : M Int := do
  let x ← xorMax 32 w s.wm l r 0
  Compressor.decomp s.comp x

/-- `range_freq(l, r, upper)` — compressed_wavelet_matrix.hpp:59-61. -/
def rangeFreq (w : Nat) (s : CW) (l r : Nat) (upper : Int) : M Int := freq 32 w s.wm l r 0 (Compressor.minGeqIndex s.comp upper).toNat

/-- `range_freq(l, r, lower, upper)` — compressed_wavelet_matrix.hpp:63-66. -/
def rangeFreq2 (w : Nat) (s : CW) (l r : Nat) (lower upper : Int) : M Int :=
  if lower ≥ upper then return 0
  else do
    let x ← rangeFreq w s l r upper
    let y ← rangeFreq w s l r lower
    return x - y

/-- `range_min_geq` — compressed_wavelet_matrix.hpp:68-71. -/
def rangeMinGeq (w : Nat) (s : CW) (l r : Nat) (lower dflt : Int) : M Int := do
  let x ← minGeq 32 w s.wm l r 0 (Compressor.minGeqIndex s.comp lower).toNat absent
  restore s x dflt

/-- `range_min_gt` — compressed_wavelet_matrix.hpp:73-75. -/
def rangeMinGt (mx : Int) (w : Nat) (s : CW) (l r : Nat) (lower dflt : Int) : M Int :=
  if lower = mx then return dflt else rangeMinGeq w s l r (lower + 1) dflt

/-- `range_max_lt` — compressed_wavelet_matrix.hpp:77-80. -/
def rangeMaxLt (w : Nat) (s : CW) (l r : Nat) (upper dflt : Int) : M Int := do
  let x ← maxLt 32 w s.wm l r 0 (Compressor.minGeqIndex s.comp upper).toNat absent
  restore s x dflt

/-- `range_max_leq` — compressed_wavelet_matrix.hpp:82-85. -/
def rangeMaxLeq (mx : Int) (w : Nat) (s : CW) (l r : Nat) (upper dflt : Int) : M Int :=
  if r ≥ l then return dflt
  else if upper = mx then rangeMax w s l r
  else rangeMaxLt w s l r (upper + 1) dflt

end CompressedWavelet
