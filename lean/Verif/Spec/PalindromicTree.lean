import Mathlib.Data.List.Infix

/-! # Specification for `PalindromicTree` -/

namespace PalindromicTree
namespace Spec

variable {α : Type}

/-- Palindromes. -/
def Pal (v : List α) : Prop := v.reverse = v

/-- `v` is the longest suffix of `t` that is a palindrome. -/
def LongestPalSuffix (t v : List α) : Prop := v <:+ t ∧ Pal v ∧ ∀ u, u <:+ t → Pal u → u.length ≤ v.length

/-- `v` is the longest suffix of `t` that is a palindrome and not `t` itself. -/
def LongestProper (t v : List α) : Prop := v <:+ t ∧ v ≠ t ∧ Pal v ∧ ∀ u, u <:+ t → u ≠ t → Pal u → u.length ≤ v.length

/-- `p` is the first position at which `v` occurs in `s`. -/
def FirstOcc (s v : List α) (p : Nat) : Prop := v <+: s.drop p ∧ ∀ q, v <+: s.drop q → p ≤ q

/-- Number of occurrences of a non-empty `v` in `s`: the number of positions where one ends. -/
def occ [DecidableEq α] (s v : List α) : Nat := (List.range s.length).countP fun p => decide (v <:+ s.take (p + 1))

end Spec
end PalindromicTree
