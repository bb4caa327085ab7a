import Verif.Proof.RMQpm1b

/-!
# Properties of `RMQpm1` and `RMQpm1WithIndex`

`RMQpm1<mn>` is `Kind.plain mn` and `RMQpm1WithIndex<mn>` is `Kind.indexed mn`, both with `LOG = 4`.
-/

namespace RMQpm1
open Cxx

/-- The values are ints other than the two extreme ones. -/
def Moderate (x : Array Int) : Prop := ∀ v ∈ x.toList, -2 ^ 31 < v ∧ v < 2 ^ 31 - 1

/-- Neighbours differ by exactly one. -/
def Zigzag (x : Array Int) : Prop := ∀ i v w, x[i]? = some v → x[i + 1]? = some w → w = v + 1 ∨ w = v - 1

/-- Position `k` holds a smallest (`mn`) or greatest element of `x[l..r)`. -/
def IsExtremum (mn : Bool) (x : Array Int) (l r k : Nat) (v : Int) : Prop :=
  l ≤ k ∧ k < r ∧ x[k]? = some v ∧ ∀ j w, l ≤ j → j < r → x[j]? = some w → if mn then v ≤ w else w ≤ v

theorem In_of {x : Array Int} (h : Moderate x) : ∀ i, i < x.size → In (at' 0 x i) := by
  intro i hi
  have := h (at' 0 x i) (by rw [show at' 0 x i = x[i] by unfold at'; rw [Array.getElem?_eq_getElem hi]; rfl]; simp)
  exact this

theorem get_at {x : Array Int} {i : Nat} (h : i < x.size) : x[i]? = some (at' 0 x i) := by
  unfold at'; rw [Array.getElem?_eq_getElem h]; rfl

theorem pm1_iff (x : Array Int) : Pm1 x ↔ Zigzag x := by
  constructor
  · intro h i v w hv hw
    obtain ⟨h1, e⟩ := Array.getElem?_eq_some_iff.1 hw
    have := h (i + 1) h1
    rw [get_at (by omega)] at hv hw
    unfold prev at this
    rw [if_neg (by omega), show i + 1 - 1 = i from rfl, Option.some.inj hv, Option.some.inj hw] at this
    omega
  · intro h i hi
    unfold prev
    by_cases c : i = 0
    · rw [if_pos c, c]; left; ring
    · rw [if_neg c]
      have := h (i - 1) _ _ (get_at (by omega)) (by rw [show i - 1 + 1 = i by omega]; exact get_at hi)
      omega

theorem best_extremum {T : Type} {K : Kind T} {mn : Bool} {x : Array Int} {l r : Nat} {y : T} (hlr : l < r) (hr : r ≤ x.size) (h : Best K mn (at' 0 x) (fun k => l ≤ k ∧ k < r) y) :
    ∃ k v, IsExtremum mn x l r k v ∧ y = K.of v k := by
  rcases h with ⟨h, _⟩ | ⟨k, h1, h2, h3⟩
  · exact absurd ⟨le_rfl, hlr⟩ (h l)
  · refine ⟨k, at' 0 x k, ⟨h1.1, h1.2, get_at (by omega), fun j w hj1 hj2 hw => ?_⟩, h2⟩
    rw [get_at (by omega)] at hw
    have := h3 j ⟨hj1, hj2⟩
    rw [Option.some.inj hw] at this
    cases mn <;> simp [sg] at this ⊢ <;> omega

/-- C107: `RMQpm1(x)(l, r)` is the minimum (maximum) of `x[l..r)`, and `INT_MAX` (`INT_MIN`) for an empty range. -/
theorem plain_correct (mn : Bool) (d : Int) (x : Array Int) (h0 : x ≠ #[]) (h1 : Moderate x) (h2 : Zigzag x) :
    ∃ o, make (Kind.plain mn) mn 4 d x = .ok o ∧
      (∀ l r, l < r → r ≤ x.size → ∃ k v, IsExtremum mn x l r k v ∧ query (Kind.plain mn) 4 o l r = .ok v) ∧
      ∀ l r, r ≤ l → query (Kind.plain mn) 4 o l r = .ok (if mn then 2 ^ 31 - 1 else -2 ^ 31) := by
  obtain ⟨o, ho, M⟩ := make_tot (plain_lawful mn) 4 d (x := x) (fun h => h0 (by simpa using h)) (In_of h1) ((pm1_iff x).2 h2)
  refine ⟨o, ho, fun l r hlr hr => ?_, fun l r hlr => ?_⟩
  · obtain ⟨y, hy, hB⟩ := query_tot (plain_lawful mn) (In_of h1) ((pm1_iff x).2 h2) M hr (l := l)
    obtain ⟨k, v, hE, e⟩ := best_extremum hlr hr hB
    exact ⟨k, v, hE, by rw [hy, e]; rfl⟩
  · unfold query; rw [if_pos hlr]; rfl

example : ∃ o, make (Kind.plain true) true 4 0 #[3, 2, 3, 4, 3] = .ok o :=
  (plain_correct true 0 #[3, 2, 3, 4, 3] (by simp) (by intro v hv; simp at hv; omega) (by rw [← pm1_iff]; unfold Pm1; decide +kernel)).imp fun _ h => h.1

/-- C107: `RMQpm1WithIndex(x)(l, r)` is a minimum (maximum) of `x[l..r)` with a position of it, and `{INT_MAX, -1}` (`{INT_MIN, -1}`) for an empty range. -/
theorem indexed_correct (mn : Bool) (d : Int × Int) (x : Array Int) (h0 : x ≠ #[]) (h1 : Moderate x) (h2 : Zigzag x) :
    ∃ o, make (Kind.indexed mn) mn 4 d x = .ok o ∧
      (∀ l r, l < r → r ≤ x.size → ∃ k v, IsExtremum mn x l r k v ∧ query (Kind.indexed mn) 4 o l r = .ok (v, (k : Int))) ∧
      ∀ l r, r ≤ l → query (Kind.indexed mn) 4 o l r = .ok (if mn then 2 ^ 31 - 1 else -2 ^ 31, -1) := by
  obtain ⟨o, ho, M⟩ := make_tot (indexed_lawful mn) 4 d (x := x) (fun h => h0 (by simpa using h)) (In_of h1) ((pm1_iff x).2 h2)
  refine ⟨o, ho, fun l r hlr hr => ?_, fun l r hlr => ?_⟩
  · obtain ⟨y, hy, hB⟩ := query_tot (indexed_lawful mn) (In_of h1) ((pm1_iff x).2 h2) M hr (l := l)
    obtain ⟨k, v, hE, e⟩ := best_extremum hlr hr hB
    exact ⟨k, v, hE, by rw [hy, e]; rfl⟩
  · unfold query; rw [if_pos hlr]; rfl

example : ∃ o, make (Kind.indexed false) false 4 (0, 0) #[-1, 0, 1, 0] = .ok o :=
  (indexed_correct false (0, 0) #[-1, 0, 1, 0] (by simp) (by intro v hv; simp at hv; omega) (by rw [← pm1_iff]; unfold Pm1; decide +kernel)).imp fun _ h => h.1

/-- C107: an array with neighbours that do not differ by one fails the assertion. -/
theorem not_zigzag {T : Type} (K : Kind T) (mn : Bool) (d : T) (x : Array Int) (h0 : x ≠ #[]) (h1 : ∀ v ∈ x.toList, -2 ^ 30 < v ∧ v < 2 ^ 30) (h2 : ¬ Zigzag x) :
    make K mn 4 d x = .error .assertion := by
  refine make_fail K mn 4 d (fun h => h0 (by simpa using h)) (fun i hi => ?_) (fun h => h2 ((pm1_iff x).1 h))
  exact h1 (at' 0 x i) (by rw [show at' 0 x i = x[i] by unfold at'; rw [Array.getElem?_eq_getElem hi]; rfl]; simp)

example : make (Kind.plain true) true 4 0 #[1, 2, 2] = .error .assertion :=
  not_zigzag _ _ _ _ (by simp) (by intro v hv; simp at hv; omega) (by rw [← pm1_iff]; unfold Pm1; decide +kernel)

/-- C107: constructing from an empty vector is undefined. -/
theorem make_empty {T : Type} (K : Kind T) (mn : Bool) (d : T) : make K mn 4 d #[] = .error .ub := by
  obtain ⟨t, ht, _⟩ := tabs_tot mn 4
  unfold make
  rw [ht, ok_bind]
  rfl

/-- Runs of the model with blocks of two elements. -/
def demo (mn : Bool) (x : Array Int) (l r : Nat) : M (Int × Int) := do
  let o ← make (Kind.indexed mn) mn 1 (0, 0) x
  query (Kind.indexed mn) 1 o l r

example : demo true #[0, 1, 2, 1, 0, 1, 0, -1, 0, 1] 1 7 = .ok (0, 4) := by decide +kernel
example : demo false #[0, 1, 2, 1, 0, 1, 0, -1, 0, 1] 3 10 = .ok (1, 9) := by decide +kernel
example : demo true #[0, 1, 2, 1, 0, 1, 0, -1, 0, 1] 2 4 = .ok (1, 3) := by decide +kernel

end RMQpm1
