import Verif.Proof.BinaryTrie2

/-!
# C49: `BinaryTrie` is a multiset of `w`-bit numbers

The specification is `Verif/Spec/BinaryTrie.lean`.
-/

namespace BinaryTrieProps
open Cxx BinaryTrie BinaryTrieSpec

/-- A query that leaves the object alone. -/
def query (t : Node) (o : M Nat) : M (Node × Int) := do
  let z ← o
  return (t, (z : Int))

/-- A query with an `int` answer. -/
def queryI (t : Node) (o : M Int) : M (Node × Int) := do
  let z ← o
  return (t, z)

/-- The calls of the model. -/
def step (w : Nat) (t : Node) : Op → M (Node × Int)
  | .insert v num => BinaryTrie.insert w t v num
  | .erase v num => BinaryTrie.erase w t v num
  | .eraseAll v => BinaryTrie.eraseAll w t v
  | .size => return (t, size t)
  | .empty => return (t, if size t = 0 then 1 else 0)
  | .prefixCount v l => return (t, prefixCount w t v l)
  | .count v => return (t, count w t v)
  | .contains v => return (t, if contains w t v then 1 else 0)
  | .xorKthMin x k => query t (xorKthMin w t x k)
  | .xorKthMax x k => query t (xorKthMax w t x k)
  | .xorCountLt x v => return (t, xorCountLt w t x v)
  | .xorCountGeq x v => return (t, xorCountGeq w t x v)
  | .countLeq v => queryI t (xorCountLeq w t 0 v)
  | .countGt v => queryI t (xorCountGt w t 0 v)
  | .xorLower x v dflt => query t (xorLower w t x v dflt)
  | .xorCeil x v dflt => query t (xorCeil w t x v dflt)
  | .floor v dflt => query t (xorFloor w t 0 v dflt)
  | .higher v dflt => query t (xorHigher w t 0 v dflt)
  | .min => query t (min' w t)

theorem query_tot {w : Nat} {t : Node} {S : List Nat} (h : Holds w t S) {o : M Nat} {A : Int → Prop} (ho : Tot o fun z => A (z : Int)) : Tot (query t o) fun r => Holds w r.1 S ∧ A r.2 := by
  rw [query]
  exact Tot.bind ho fun z hz => Tot.pure ⟨h, hz⟩

theorem img_zero (S : List Nat) : img S 0 = S := by simp [img]

theorem compl_lt (L : List Nat) (v : Nat) : (L.countP (fun u => decide (v ≤ u)) : Int) = L.length - L.countP (fun u => decide (u < v)) := by
  have := countP_compl L (fun u => decide (u < v))
  rw [show (fun u => !decide (u < v)) = fun u => decide (v ≤ u) by
    funext u
    by_cases hu : u < v
    · simp [hu]
    · simp [hu, Nat.le_of_not_lt hu]] at this
  omega

/-- One call. -/
theorem step_tot {w : Nat} {t : Node} {S : List Nat} (h : Holds w t S) (o : Op) (hp : Pre w S o) : Tot (step w t o) fun r => Holds w r.1 (next S o) ∧ Ans S o r.2 := by
  have h0 := Nat.two_pow_pos w
  have hsz := size_len h
  cases o with
  | insert v num => exact insert_tot h hp.1 hp.2
  | erase v num => exact erase_tot h hp.1
  | eraseAll v => exact eraseAll_tot h hp
  | size => exact Tot.pure ⟨h, hsz⟩
  | empty =>
    refine Tot.pure ⟨h, ?_⟩
    show (if size t = 0 then (1 : Int) else 0) = if S = [] then 1 else 0
    rw [hsz]
    by_cases hS : S = []
    · rw [if_pos hS, if_pos (by rw [hS]; rfl)]
    · rw [if_neg hS, if_neg]
      intro e
      exact hS (List.length_eq_zero_iff.1 (by omega))
  | prefixCount v l => exact Tot.pure ⟨h, prefixCount_eq h hp l⟩
  | count v => exact Tot.pure ⟨h, count_eq h hp⟩
  | contains v =>
    refine Tot.pure ⟨h, ?_⟩
    show (if contains w t v = true then (1 : Int) else 0) = if v ∈ S then 1 else 0
    rw [contains, count_eq h hp]
    have := List.count_pos_iff (a := v) (l := S)
    by_cases hS : v ∈ S
    · rw [if_pos hS, if_pos]
      have := this.2 hS
      rw [decide_eq_true_eq]
      omega
    · rw [if_neg hS, if_neg]
      rw [List.count_eq_zero_of_not_mem hS]
      decide
  | xorKthMin x k =>
    refine query_tot h ((xorKthMin_tot h hp.2).mono ?_)
    rintro z ⟨-, h1, h2⟩
    exact ⟨z, rfl, WaveletMatrix.sorted_kth _ h1 h2⟩
  | xorKthMax x k =>
    refine query_tot h ((xorKthMax_tot h hp.1 hp.2).mono ?_)
    rintro z ⟨-, h1, h2⟩
    exact ⟨z, rfl, WaveletMatrix.sorted_kth _ h1 h2⟩
  | xorCountLt x v => exact Tot.pure ⟨h, countLt_eq h hp.1 hp.2⟩
  | xorCountGeq x v =>
    refine Tot.pure ⟨h, ?_⟩
    show xorCountGeq w t x v = _
    rw [xorCountGeq, countLt_eq h hp.1 hp.2, hsz, compl_lt, show (img S x).length = S.length by simp [img]]
  | countLeq v =>
    show Tot (queryI t _) _
    rw [queryI, countLeq_eq h hp]
    exact Tot.pure ⟨h, rfl⟩
  | countGt v =>
    show Tot (queryI t _) _
    rw [queryI, xorCountGt, countLeq_eq h hp]
    refine Tot.pure ⟨h, ?_⟩
    show size t - _ = _
    have := compl_lt S (v + 1)
    simp only [Nat.lt_succ_iff, Nat.succ_le_iff] at this
    rw [this, hsz]
  | xorLower x v dflt =>
    refine query_tot h ?_
    rw [xorLower]
    have := orLow_tot h (x := x) (dflt := dflt) (q := fun u => decide (u < v)) (fun a b hab hb => by simp only [decide_eq_true_eq] at *; omega)
      (k := size t - xorCountGeq w t x v - 1) (by rw [xorCountGeq, countLt_eq h hp.1 hp.2]; omega)
    simpa [Ans] using this
  | xorCeil x v dflt =>
    refine query_tot h ?_
    rw [xorCeil]
    have := orHigh_tot h (x := x) (dflt := dflt) (q := fun u => decide (u < v)) (fun a b hab hb => by simp only [decide_eq_true_eq] at *; omega)
      (k := xorCountLt w t x v) (countLt_eq h hp.1 hp.2)
    simpa [Ans] using this
  | floor v dflt =>
    refine query_tot h ?_
    rw [xorFloor, xorCountGt, countLeq_eq h hp, ok_bind, pure_eq, ok_bind]
    have := orLow_tot h (x := 0) (dflt := dflt) (q := fun u => decide (u ≤ v)) (fun a b hab hb => by simp only [decide_eq_true_eq] at *; omega)
      (k := size t - (size t - (S.countP (fun u => decide (u ≤ v)) : Int)) - 1) (by rw [img_zero]; omega)
    rw [img_zero] at this
    simpa [Ans] using this
  | higher v dflt =>
    refine query_tot h ?_
    rw [xorHigher, countLeq_eq h hp, ok_bind]
    have := orHigh_tot h (x := 0) (dflt := dflt) (q := fun u => decide (u ≤ v)) (fun a b hab hb => by simp only [decide_eq_true_eq] at *; omega)
      (k := (S.countP (fun u => decide (u ≤ v)) : Int)) (by rw [img_zero])
    rw [img_zero] at this
    simpa [Ans] using this
  | min =>
    refine query_tot h ?_
    rw [min']
    have hl : 0 < S.length := List.length_pos_iff.2 hp
    refine (xorKthMin_tot h (x := 0) (k := 0) hl).mono ?_
    rintro z ⟨h1, h2, -⟩
    rw [img_zero] at h1 h2
    refine ⟨z, h1, rfl, fun v hv => ?_⟩
    by_contra hc
    have : 0 < S.countP (fun u => decide (u < z)) := List.countP_pos_iff.2 ⟨v, hv, by simpa using hc⟩
    omega

/-- C49. Every history of calls (without the calls named below) gives the answers of the multiset. -/
theorem trie_refines (w : Nat) (ops : List Op) (hv : ValidOps (Pre w) next [] ops) : ∃ t os, runOps (step w) BinaryTrie.empty ops = .ok (t, os) ∧ TraceOk next Ans [] ops os := by
  obtain ⟨r, e, -, h⟩ := Cxx.refine (Sim := Holds w) (step := step w) (Pre := Pre w) (next := next) (Ans := Ans) (fun s t i hs hp => step_tot hs i hp) (holds_empty w) hv
  exact ⟨r.1, r.2, e, h⟩

/-- The objects that histories of calls produce. -/
def Reach (w : Nat) (S : List Nat) (t : Node) : Prop := ∃ ops os, ValidOps (Pre w) next [] ops ∧ runOps (step w) BinaryTrie.empty ops = .ok (t, os) ∧ S = ops.foldl next []

theorem reach_holds {w : Nat} {S : List Nat} {t : Node} (h : Reach w S t) : Holds w t S := by
  obtain ⟨ops, os, hv, e, rfl⟩ := h
  obtain ⟨r, e2, h2, -⟩ := Cxx.refine (Sim := Holds w) (step := step w) (Pre := Pre w) (next := next) (Ans := Ans) (fun s t i hs hp => step_tot hs i hp) (holds_empty w) hv
  rw [e] at e2
  cases e2
  exact h2

/-- C81. `xor_count_leq(x, v)` is the number of `u` with `x ^ u < v` plus the number of *`v`*.
Missing from the property: the number of elements equal to `x ^ v` should be added. Consequently `xor_count_gt`, `xor_floor`, `xor_higher` are right for `x = 0` (C49) only. -/
theorem xor_count_leq_partial {w : Nat} {S : List Nat} {t : Node} (h : Reach w S t) {x v : Nat} (hx : x < 2 ^ w) (hv : v < 2 ^ w) (hb : S.length < 2 ^ 30) :
    xorCountLeq w t x v = .ok (((S.map (x ^^^ ·)).countP (fun u => decide (u < v)) : Int) + S.count v) := by
  have hh := reach_holds h
  have h1 : (img S x).countP (fun u => decide (u < v)) ≤ (img S x).length := List.countP_le_length
  have h2 : S.count v ≤ S.length := List.count_le_length
  rw [show (img S x).length = S.length by simp [img]] at h1
  rw [xorCountLeq, countLt_eq hh hx hv, count_eq hh hv, i32_ok ⟨by omega, by omega⟩]
  rfl

/-- C81 fails: in `{1}`, one element has `1 ^ u ≤ 1`, but `xor_count_leq(1, 1)` is 2, `xor_count_gt(1, 1)` is -1 and `xor_higher(1, 1)` walks through a null pointer; in `{2}`,
`xor_floor(1, 3)` misses the element. -/
theorem xor_count_leq_wrong :
    (do let (t, _) ← insert 2 BinaryTrie.empty 1 1; xorCountLeq 2 t 1 1) = .ok 2 ∧
    (do let (t, _) ← insert 2 BinaryTrie.empty 1 1; xorCountGt 2 t 1 1) = .ok (-1) ∧
    (do let (t, _) ← insert 2 BinaryTrie.empty 1 1; xorHigher 2 t 1 1 9) = .error .ub ∧
    (do let (t, _) ← insert 2 BinaryTrie.empty 2 1; xorFloor 2 t 1 3 9) = .ok 9 := by decide +kernel

/-- C82. `max()` is the bitwise complement of the greatest element.
Missing from the property: it should be the greatest element itself. -/
theorem trie_max_partial {w : Nat} {S : List Nat} {t : Node} (h : Reach w S t) {D : Nat} (hD : w ≤ D) (hS : S ≠ []) :
    ∃ u ∈ S, (∀ v ∈ S, v ≤ u) ∧ max' D w t = .ok (2 ^ D - 1 - u) := by
  have hh := reach_holds h
  have hl : 0 < S.length := List.length_pos_iff.2 hS
  have hlt : ∀ v ∈ S, v < 2 ^ D := fun v hv => Nat.lt_of_lt_of_le (hh.lt v hv) (Nat.pow_le_pow_right (by decide) hD)
  obtain ⟨z, e, h1, h2, -⟩ := xorKthMin_tot hh (x := 2 ^ D - 1) (k := 0) hl
  obtain ⟨u, hu, rfl⟩ := List.mem_map.1 h1
  have hx : ∀ v ∈ S, (2 ^ D - 1) ^^^ v = 2 ^ D - 1 - v := fun v hv => by rw [Nat.xor_comm, xor_ones (hlt v hv)]
  refine ⟨u, hu, fun v hv => ?_, ?_⟩
  · by_contra hc
    have : 0 < (img S (2 ^ D - 1)).countP (fun y => decide (y < (2 ^ D - 1) ^^^ u)) := by
      refine List.countP_pos_iff.2 ⟨(2 ^ D - 1) ^^^ v, List.mem_map_of_mem hv, ?_⟩
      rw [decide_eq_true_eq, hx u hu, hx v hv]
      have := hlt v hv
      omega
    omega
  · rw [max']
    rw [hx u hu] at e
    exact e

/-- C82 fails: the greatest element of `{5}` is 5, but `max()` of a trie of 32 bit numbers is 4294967290. -/
theorem trie_max_wrong : (do let (t, _) ← insert 32 BinaryTrie.empty 5 1; max' 32 32 t) = .ok 4294967290 := by decide +kernel

/-- The hypotheses are satisfiable. -/
example : ValidOps (Pre 4) next [] [.insert 3 2, .insert 9 1, .xorKthMin 5 1, .erase 3 1, .floor 8 0, .eraseAll 9, .higher 3 7, .min] := by decide
example : (runOps (step 4) BinaryTrie.empty [.insert 3 2, .insert 9 1, .xorKthMin 5 1, .erase 3 1, .floor 8 0, .eraseAll 9, .higher 3 7, .min] >>= fun r => .ok r.2) = .ok [2, 1, 6, 1, 3, 1, 7, 3] := by decide +kernel

end BinaryTrieProps
