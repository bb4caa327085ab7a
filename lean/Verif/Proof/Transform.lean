import Verif.Proof.Kronecker
import Mathlib.Algebra.BigOperators.Intervals
import Mathlib.Data.Nat.Bitwise
import Mathlib.Tactic.IntervalCases
import Mathlib.Tactic.Positivity
import Mathlib.Algebra.Module.NatInt
import Mathlib.Algebra.Module.BigOperators

/-! # Proofs about the subset, superset and Walsh–Hadamard transforms and their convolutions -/

namespace Kronecker
open Cxx Finset

section
variable {α T R : Type} [AddCommMonoid T] [CommSemiring R] [Module R T] {rep : α → T → Prop}

/-- `[[1, 0], [ε, 1]]` -/
def A1 (ε : R) (i j : Nat) : R := if i = 0 then (if j = 0 then 1 else 0) else (if j = 0 then ε else 1)

/-- `[[1, ε], [0, 1]]` -/
def A0 (ε : R) (i j : Nat) : R := if i = 0 then (if j = 0 then 1 else ε) else (if j = 0 then 0 else 1)

/-- `[[1, 1], [1, -1]]` -/
def AW (i j : Nat) : Int := if i = 1 ∧ j = 1 then -1 else 1

theorem unit1_ok {op : α → α → M α} {ε : R} (h : ∀ c d u v, rep c u → rep d v → Tot (op c d) fun z => rep z (u + ε • v)) : UnitOk rep 2 (unit1 op) (A1 ε) := by
  intro w t hw
  unfold unit1
  refine Tot.bind (hw.rd (i := 0) (by omega)) fun x0 h0 => ?_
  refine Tot.bind (hw.rd (i := 1) (by omega)) fun x1 h1 => ?_
  refine Tot.bind (h _ _ _ _ h1 h0) fun y hy => ?_
  refine (hw.wr (by omega) hy).mono fun w' hw' => hw'.congr fun e he => ?_
  rw [sum_range_succ, sum_range_succ, sum_range_zero, zero_add]
  interval_cases e
  · simp [A1]
  · simp [A1, add_comm]

theorem unit0_ok {op : α → α → M α} {ε : R} (h : ∀ c d u v, rep c u → rep d v → Tot (op c d) fun z => rep z (u + ε • v)) : UnitOk rep 2 (unit0 op) (A0 ε) := by
  intro w t hw
  unfold unit0
  refine Tot.bind (hw.rd (i := 0) (by omega)) fun x0 h0 => ?_
  refine Tot.bind (hw.rd (i := 1) (by omega)) fun x1 h1 => ?_
  refine Tot.bind (h _ _ _ _ h0 h1) fun y hy => ?_
  refine (hw.wr (by omega) hy).mono fun w' hw' => hw'.congr fun e he => ?_
  rw [sum_range_succ, sum_range_succ, sum_range_zero, zero_add]
  interval_cases e
  · simp [A0]
  · simp [A0]

theorem unitWH_ok {T : Type} [AddCommGroup T] {rep : α → T → Prop} {add sub : α → α → M α} (h : ∀ c d u v, rep c u → rep d v → Tot (add c d) fun z => rep z (u + v))
    (h' : ∀ c d u v, rep c u → rep d v → Tot (sub c d) fun z => rep z (u - v)) : UnitOk rep 2 (unitWH add sub) AW := by
  intro w t hw
  unfold unitWH
  refine Tot.bind (hw.rd (i := 0) (by omega)) fun x0 h0 => ?_
  refine Tot.bind (hw.rd (i := 1) (by omega)) fun x1 h1 => ?_
  refine Tot.bind (h _ _ _ _ h0 h1) fun y hy => ?_
  refine Tot.bind (hw.wr (by omega) hy) fun w' hw' => ?_
  refine Tot.bind (h' _ _ _ _ h0 h1) fun z hz => ?_
  refine (hw'.wr (by omega) hz).mono fun w' hw' => hw'.congr fun e he => ?_
  rw [sum_range_succ, sum_range_succ, sum_range_zero, zero_add]
  interval_cases e
  · simp [AW]
  · simp [AW, sub_eq_add_neg]

/-- Multiplication by the Kronecker power. -/
def lin (A : Nat → Nat → R) (D k : Nat) (f : Nat → T) (x : Nat) : T := ∑ y ∈ range (D ^ k), kron A D k x y • f y

theorem lin_congr {A : Nat → Nat → R} {D k : Nat} {f g : Nat → T} (h : ∀ y, y < D ^ k → f y = g y) (x : Nat) : lin A D k f x = lin A D k g x :=
  sum_congr rfl fun y hy => by rw [h y (mem_range.1 hy)]

theorem lin_lin {A B C : Nat → Nat → R} {D : Nat} (hD : 0 < D) (hC : ∀ i, i < D → ∀ j, j < D → ∑ e ∈ range D, A i e * B e j = C i j) (k : Nat) (f : Nat → T) (x : Nat) :
    lin A D k (lin B D k f) x = lin C D k f x := by
  unfold lin
  simp only [smul_sum, smul_smul]
  rw [sum_comm]
  refine sum_congr rfl fun z _ => ?_
  rw [← kron_mul hD hC, Finset.sum_smul]

theorem digits_ext {D : Nat} (hD : 0 < D) : ∀ {k x z : Nat}, x < D ^ k → z < D ^ k → (∀ d, d < k → x / D ^ d % D = z / D ^ d % D) → x = z
  | 0, x, z, hx, hz, _ => by simp at hx hz; omega
  | k + 1, x, z, hx, hz, h => by
    have key : ∀ y, y < D ^ (k + 1) → ∃ j r, j < D ∧ r < D ^ k ∧ y = j * D ^ k + r := by
      intro y hy
      refine ⟨y / D ^ k, y % D ^ k, ?_, Nat.mod_lt _ (Nat.pow_pos hD), ?_⟩
      · rw [pow_succ] at hy
        exact Nat.div_lt_of_lt_mul hy
      · rw [Nat.mul_comm]; exact (Nat.div_add_mod y _).symm
    obtain ⟨j, r, h1, h2, rfl⟩ := key x hx
    obtain ⟨j', r', h3, h4, rfl⟩ := key z hz
    have e1 := h k (by omega)
    rw [digit_top hD h1 h2, digit_top hD h3 h4] at e1
    have e2 : r = r' := digits_ext hD h2 h4 fun d hd => by
      have := h d (by omega)
      rwa [digit_low hD hd, digit_low hD hd] at this
    rw [e1, e2]

/-- Kronecker power of a multiple of the identity. -/
theorem kron_diag {D : Nat} (hD : 0 < D) (c : R) {k x z : Nat} (hx : x < D ^ k) (hz : z < D ^ k) :
    kron (fun i j => if i = j then c else 0) D k x z = if x = z then c ^ k else 0 := by
  unfold kron
  rw [prod_ite_zero]
  by_cases h : x = z
  · subst h
    rw [if_pos (fun _ _ => rfl), if_pos rfl]
    simp
  · rw [if_neg h, if_neg]
    intro hc
    exact h (digits_ext hD hx hz fun d hd => hc d (mem_range.2 hd))

theorem lin_diag {D : Nat} (hD : 0 < D) (c : R) {k x : Nat} (f : Nat → T) (hx : x < D ^ k) : lin (fun i j => if i = j then c else 0) D k f x = c ^ k • f x := by
  unfold lin
  rw [sum_eq_single x]
  · rw [kron_diag hD c hx hx, if_pos rfl]
  · intro y hy hne
    rw [kron_diag hD c hx (mem_range.1 hy), if_neg (Ne.symm hne), zero_smul]
  · intro h
    exact absurd (mem_range.2 hx) h

end

/-! ### The kernels -/

theorem digit2 (x d : Nat) : x / 2 ^ d % 2 = if x.testBit d then 1 else 0 := by
  rw [Nat.testBit_eq_decide_div_mod_eq]
  have := Nat.mod_two_eq_zero_or_one (x / 2 ^ d)
  rcases this with h | h <;> simp [h]

theorem testBit_lt {x k d : Nat} (hx : x < 2 ^ k) (h : x.testBit d = true) : d < k := by
  by_contra hc
  have := Nat.testBit_lt_two_pow (show x < 2 ^ d from lt_of_lt_of_le hx (Nat.pow_le_pow_right (by omega) (by omega)))
  rw [this] at h
  cases h

theorem land_iff {x y k : Nat} (hy : y < 2 ^ k) : y &&& x = y ↔ ∀ d, d < k → y.testBit d = true → x.testBit d = true := by
  constructor
  · intro h d _ hd
    have := congrArg (fun z => z.testBit d) h
    simp only [Nat.testBit_land] at this
    rw [hd] at this
    simpa using this
  · intro h
    refine Nat.eq_of_testBit_eq fun d => ?_
    rw [Nat.testBit_land]
    by_cases c : y.testBit d = true
    · rw [c, h d (testBit_lt hy c) c]; rfl
    · simp at c
      rw [c]; rfl

section
variable {R : Type} [CommSemiring R]

theorem kron_A1 {k x y : Nat} (hy : y < 2 ^ k) : kron (A1 (1 : R)) 2 k x y = if y &&& x = y then 1 else 0 := by
  unfold kron
  have : ∀ d ∈ range k, A1 (1 : R) (x / 2 ^ d % 2) (y / 2 ^ d % 2) = if (y.testBit d = true → x.testBit d = true) then 1 else 0 := by
    intro d _
    rw [digit2, digit2]
    cases x.testBit d <;> cases y.testBit d <;> simp [A1]
  rw [prod_congr rfl this, prod_ite_zero]
  by_cases c : y &&& x = y
  · rw [if_pos c, if_pos (fun d hd => (land_iff hy).1 c d (mem_range.1 hd))]
    simp
  · rw [if_neg c, if_neg (fun h => c ((land_iff hy).2 fun d hd => h d (mem_range.2 hd)))]

theorem kron_A0 {k x y : Nat} (hx : x < 2 ^ k) : kron (A0 (1 : R)) 2 k x y = if x &&& y = x then 1 else 0 := by
  unfold kron
  have : ∀ d ∈ range k, A0 (1 : R) (x / 2 ^ d % 2) (y / 2 ^ d % 2) = if (x.testBit d = true → y.testBit d = true) then 1 else 0 := by
    intro d _
    rw [digit2, digit2]
    cases x.testBit d <;> cases y.testBit d <;> simp [A0]
  rw [prod_congr rfl this, prod_ite_zero]
  by_cases c : x &&& y = x
  · rw [if_pos c, if_pos (fun d hd => (land_iff hx).1 c d (mem_range.1 hd))]
    simp
  · rw [if_neg c, if_neg (fun h => c ((land_iff hx).2 fun d hd => h d (mem_range.2 hd)))]

end

/-- `(-1)` to the number of common set bits. -/
theorem kron_AW (k x y : Nat) : kron AW 2 k x y = ∏ d ∈ range k, if x.testBit d = true ∧ y.testBit d = true then (-1 : Int) else 1 := by
  unfold kron
  refine prod_congr rfl fun d _ => ?_
  rw [digit2, digit2]
  cases x.testBit d <;> cases y.testBit d <;> simp [AW]

theorem kron_AW_xor (k x i j : Nat) : kron AW 2 k x (i ^^^ j) = kron AW 2 k x i * kron AW 2 k x j := by
  rw [kron_AW, kron_AW, kron_AW, ← prod_mul_distrib]
  refine prod_congr rfl fun d _ => ?_
  rw [Nat.testBit_xor]
  cases x.testBit d <;> cases i.testBit d <;> cases j.testBit d <;> simp

theorem A1_inv (i : Nat) (hi : i < 2) (j : Nat) (hj : j < 2) : ∑ e ∈ range 2, A1 (-1 : Int) i e * A1 1 e j = if i = j then 1 else 0 := by
  interval_cases i <;> interval_cases j <;> decide

theorem A1_inv' (i : Nat) (hi : i < 2) (j : Nat) (hj : j < 2) : ∑ e ∈ range 2, A1 (1 : Int) i e * A1 (-1) e j = if i = j then 1 else 0 := by
  interval_cases i <;> interval_cases j <;> decide

theorem A0_inv (i : Nat) (hi : i < 2) (j : Nat) (hj : j < 2) : ∑ e ∈ range 2, A0 (-1 : Int) i e * A0 1 e j = if i = j then 1 else 0 := by
  interval_cases i <;> interval_cases j <;> decide

theorem A0_inv' (i : Nat) (hi : i < 2) (j : Nat) (hj : j < 2) : ∑ e ∈ range 2, A0 (1 : Int) i e * A0 (-1) e j = if i = j then 1 else 0 := by
  interval_cases i <;> interval_cases j <;> decide

theorem AW_inv (i : Nat) (hi : i < 2) (j : Nat) (hj : j < 2) : ∑ e ∈ range 2, AW i e * AW e j = if i = j then 2 else 0 := by
  interval_cases i <;> interval_cases j <;> decide

/-! ### The convolution theorem -/

/-- A multiplicative kernel turns the convolution over `op` into the pointwise product. -/
theorem conv_thm {T : Type} [Ring T] (s : Finset Nat) (op : Nat → Nat → Nat) (χ : Nat → Int) (h1 : ∀ i ∈ s, ∀ j ∈ s, op i j ∈ s → χ (op i j) = χ i * χ j)
    (h2 : ∀ i ∈ s, ∀ j ∈ s, op i j ∉ s → χ i * χ j = 0) (a b : Nat → T) :
    (∑ i ∈ s, χ i • a i) * (∑ j ∈ s, χ j • b j) = ∑ y ∈ s, χ y • ∑ i ∈ s, ∑ j ∈ s, if op i j = y then a i * b j else 0 := by
  rw [sum_mul_sum]
  simp only [smul_sum]
  rw [sum_comm (s := s) (t := s) (f := fun y i => ∑ j ∈ s, χ y • if op i j = y then a i * b j else 0)]
  refine sum_congr rfl fun i hi => ?_
  rw [sum_comm (s := s) (t := s) (f := fun y j => χ y • if op i j = y then a i * b j else 0)]
  refine sum_congr rfl fun j hj => ?_
  rw [smul_mul_smul_comm]
  by_cases c : op i j ∈ s
  · rw [sum_eq_single (op i j)]
    · rw [if_pos rfl, h1 i hi j hj c]
    · intro y _ hne
      rw [if_neg (Ne.symm hne), smul_zero]
    · exact fun h => absurd c h
  · rw [h2 i hi j hj c, zero_smul]
    symm
    refine sum_eq_zero fun y hy => ?_
    rw [if_neg (fun e : op i j = y => c (by rw [e]; exact hy)), smul_zero]

/-- The convolution over `op`. -/
def convOf {T : Type} [Ring T] (s : Finset Nat) (op : Nat → Nat → Nat) (a b : Nat → T) (y : Nat) : T := ∑ i ∈ s, ∑ j ∈ s, if op i j = y then a i * b j else 0

/-! ### Running the programs -/

section
variable {α : Type}

theorem repA_of_size [Zero α] {x : Array α} {n : Nat} (h : x.size = n) : RepA Eq x n fun i => at' 0 x i :=
  ⟨h, fun i hi => ⟨x[i], by simp [show i < x.size by omega], by simp [at', show i < x.size by omega]⟩⟩

theorem RepA.get {x : Array α} {n : Nat} {f : Nat → α} (h : RepA Eq x n f) {i : Nat} (hi : i < n) : x[i]? = some (f i) := by
  obtain ⟨c, h1, rfl⟩ := h.2 i hi
  exact h1

theorem RepA.at' [Zero α] {x : Array α} {n : Nat} {f : Nat → α} (h : RepA Eq x n f) {i : Nat} (hi : i < n) : Cxx.at' 0 x i = f i := by
  unfold Cxx.at'
  have := h.get hi
  simp [this]

theorem repA_unique {x y : Array α} {n : Nat} {f : Nat → α} (h : RepA Eq x n f) (h' : RepA Eq y n f) : x = y := by
  refine Array.ext_getElem? fun i => ?_
  rcases Nat.lt_or_ge i n with c | c
  · rw [h.get c, h'.get c]
  · rw [Array.getElem?_eq_none (by rw [h.1]; exact c), Array.getElem?_eq_none (by rw [h'.1]; exact c)]

variable {T : Type} {rep : α → T → Prop}

theorem mapAll_tot {x : Array α} {n : Nat} {f : Nat → T} {g : α → M α} {g' : T → T} (h : RepA rep x n f) (hg : ∀ c u, rep c u → Tot (g c) fun z => rep z (g' u)) :
    Tot (mapAll g x) fun x' => RepA rep x' n fun i => g' (f i) := by
  unfold mapAll
  rw [h.1]
  refine (Tot.forUp (P := fun i (x : Array α) => RepA rep x n fun j => if j < i then g' (f j) else f j) (Nat.zero_le _) (h.congr fun j _ => by simp) ?_).mono ?_
  · rintro i x - hi hx
    refine Tot.bind (hx.rd hi) fun c hc => ?_
    rw [if_neg (by omega)] at hc
    refine Tot.bind (hg _ _ hc) fun z hz => ?_
    refine (hx.wr hi hz).mono fun x' hx' => hx'.congr fun j _ => ?_
    by_cases e : j = i
    · subst e; simp
    · rw [if_neg e]
      by_cases c : j < i
      · rw [if_pos c, if_pos (by omega)]
      · rw [if_neg c, if_neg (by omega)]
  · intro x' hx'
    exact hx'.congr fun j hj => by rw [if_pos hj]

theorem pointwise_tot {x y : Array α} {n : Nat} {f g : Nat → T} {mul : α → α → M α} {m : T → T → T} (h : RepA rep x n f) (h' : RepA rep y n g)
    (hm : ∀ c d u v, rep c u → rep d v → Tot (mul c d) fun z => rep z (m u v)) : Tot (pointwise mul x y) fun x' => RepA rep x' n fun i => m (f i) (g i) := by
  unfold pointwise
  rw [h.1]
  refine (Tot.forUp (P := fun i (x : Array α) => RepA rep x n fun j => if j < i then m (f j) (g j) else f j) (Nat.zero_le _) (h.congr fun j _ => by simp) ?_).mono ?_
  · rintro i x - hi hx
    refine Tot.bind (hx.rd hi) fun c hc => ?_
    rw [if_neg (by omega)] at hc
    refine Tot.bind (h'.rd hi) fun d hd => ?_
    refine Tot.bind (hm _ _ _ _ hc hd) fun z hz => ?_
    refine (hx.wr hi hz).mono fun x' hx' => hx'.congr fun j _ => ?_
    by_cases e : j = i
    · subst e; simp
    · rw [if_neg e]
      by_cases c : j < i
      · rw [if_pos c, if_pos (by omega)]
      · rw [if_neg c, if_neg (by omega)]
  · intro x' hx'
    exact hx'.congr fun j hj => by rw [if_pos hj]

theorem transformConvolution_tot {x y : Array α} {n : Nat} {f g : Nat → T} {tr inv : Array α → M (Array α)} {mul : α → α → M α} {m : T → T → T} {F G : (Nat → T) → Nat → T}
    (h : RepA rep x n f) (h' : RepA rep y n g) (htr : ∀ x f, RepA rep x n f → Tot (tr x) fun x' => RepA rep x' n (F f))
    (hinv : ∀ x f, RepA rep x n f → Tot (inv x) fun x' => RepA rep x' n (G f))
    (hm : ∀ c d u v, rep c u → rep d v → Tot (mul c d) fun z => rep z (m u v)) :
    Tot (transformConvolution tr inv mul x y) fun r => RepA rep r n (G fun i => m (F f i) (F g i)) := by
  unfold transformConvolution
  rw [decide_eq_true (show x.size = y.size by rw [h.1, h'.1]), check_true, ok_bind]
  refine Tot.bind (htr _ _ h) fun x1 h1 => ?_
  refine Tot.bind (htr _ _ h') fun y1 h2 => ?_
  refine Tot.bind (pointwise_tot h1 h2 hm) fun z hz => ?_
  exact hinv _ _ hz

end

section
variable {α T : Type} [AddCommGroup T] {rep : α → T → Prop} {add sub : α → α → M α}

/-- The operations of the cells implement those of `T`. -/
structure OpsOk (rep : α → T → Prop) (add sub : α → α → M α) : Prop where
  add : ∀ c d u v, rep c u → rep d v → Tot (add c d) fun z => rep z (u + v)
  sub : ∀ c d u v, rep c u → rep d v → Tot (sub c d) fun z => rep z (u - v)

theorem subsetZeta_tot (ho : OpsOk rep add sub) {k : Nat} {x : Array α} {f : Nat → T} (h : RepA rep x (2 ^ k) f) :
    Tot (subsetZeta add x) fun x' => RepA rep x' (2 ^ k) (lin (A1 (1 : Int)) 2 k f) :=
  transform_tot (unit1_ok (ε := (1 : Int)) fun c d u v hu hv => (ho.add c d u v hu hv).mono fun z hz => by simpa using hz) (le_refl 2) h

theorem subsetMobius_tot (ho : OpsOk rep add sub) {k : Nat} {x : Array α} {f : Nat → T} (h : RepA rep x (2 ^ k) f) :
    Tot (subsetMobius sub x) fun x' => RepA rep x' (2 ^ k) (lin (A1 (-1 : Int)) 2 k f) :=
  transform_tot (unit1_ok (ε := (-1 : Int)) fun c d u v hu hv => (ho.sub c d u v hu hv).mono fun z hz => by simpa [← sub_eq_add_neg] using hz) (le_refl 2) h

theorem supsetZeta_tot (ho : OpsOk rep add sub) {k : Nat} {x : Array α} {f : Nat → T} (h : RepA rep x (2 ^ k) f) :
    Tot (supsetZeta add x) fun x' => RepA rep x' (2 ^ k) (lin (A0 (1 : Int)) 2 k f) :=
  transform_tot (unit0_ok (ε := (1 : Int)) fun c d u v hu hv => (ho.add c d u v hu hv).mono fun z hz => by simpa using hz) (le_refl 2) h

theorem supsetMobius_tot (ho : OpsOk rep add sub) {k : Nat} {x : Array α} {f : Nat → T} (h : RepA rep x (2 ^ k) f) :
    Tot (supsetMobius sub x) fun x' => RepA rep x' (2 ^ k) (lin (A0 (-1 : Int)) 2 k f) :=
  transform_tot (unit0_ok (ε := (-1 : Int)) fun c d u v hu hv => (ho.sub c d u v hu hv).mono fun z hz => by simpa [← sub_eq_add_neg] using hz) (le_refl 2) h

theorem walshHadamard_tot (ho : OpsOk rep add sub) {k : Nat} {x : Array α} {f : Nat → T} (h : RepA rep x (2 ^ k) f) :
    Tot (walshHadamard add sub x) fun x' => RepA rep x' (2 ^ k) (lin AW 2 k f) :=
  transform_tot (unitWH_ok ho.add ho.sub) (le_refl 2) h

theorem lin_A1_inv {k : Nat} (f : Nat → T) {x : Nat} (hx : x < 2 ^ k) : lin (A1 (-1 : Int)) 2 k (lin (A1 (1 : Int)) 2 k f) x = f x := by
  rw [lin_lin (by omega) A1_inv, lin_diag (by omega) _ f hx, one_pow, one_smul]

theorem lin_A1_inv' {k : Nat} (f : Nat → T) {x : Nat} (hx : x < 2 ^ k) : lin (A1 (1 : Int)) 2 k (lin (A1 (-1 : Int)) 2 k f) x = f x := by
  rw [lin_lin (by omega) A1_inv', lin_diag (by omega) _ f hx, one_pow, one_smul]

theorem lin_A0_inv {k : Nat} (f : Nat → T) {x : Nat} (hx : x < 2 ^ k) : lin (A0 (-1 : Int)) 2 k (lin (A0 (1 : Int)) 2 k f) x = f x := by
  rw [lin_lin (by omega) A0_inv, lin_diag (by omega) _ f hx, one_pow, one_smul]

theorem lin_A0_inv' {k : Nat} (f : Nat → T) {x : Nat} (hx : x < 2 ^ k) : lin (A0 (1 : Int)) 2 k (lin (A0 (-1 : Int)) 2 k f) x = f x := by
  rw [lin_lin (by omega) A0_inv', lin_diag (by omega) _ f hx, one_pow, one_smul]

theorem lin_AW_inv {k : Nat} (f : Nat → T) {x : Nat} (hx : x < 2 ^ k) : lin AW 2 k (lin AW 2 k f) x = (2 ^ k : Int) • f x := by
  rw [lin_lin (by omega) AW_inv, lin_diag (by omega) _ f hx]

theorem lin_A1_eq {k : Nat} (f : Nat → T) (x : Nat) : lin (A1 (1 : Int)) 2 k f x = ∑ y ∈ (range (2 ^ k)).filter (fun (y : Nat) => y &&& x = y), f y := by
  unfold lin
  rw [sum_filter]
  refine sum_congr rfl fun y hy => ?_
  rw [kron_A1 (mem_range.1 hy)]
  split <;> simp

theorem lin_A0_eq {k : Nat} (f : Nat → T) {x : Nat} (hx : x < 2 ^ k) : lin (A0 (1 : Int)) 2 k f x = ∑ y ∈ (range (2 ^ k)).filter (fun (y : Nat) => x &&& y = x), f y := by
  unfold lin
  rw [sum_filter]
  refine sum_congr rfl fun y hy => ?_
  rw [kron_A0 hx]
  split <;> simp

end

section
variable {T : Type} [Ring T]

theorem opsOk_ring {T : Type} [AddCommGroup T] : OpsOk (Eq : T → T → Prop) (ok2 (· + ·)) (ok2 (· - ·)) :=
  ⟨fun c d u v h1 h2 => by subst h1 h2; exact Tot.pure rfl, fun c d u v h1 h2 => by subst h1 h2; exact Tot.pure rfl⟩

theorem lin_or (k : Nat) (a b : Nat → T) {x : Nat} (hx : x < 2 ^ k) :
    lin (A1 (1 : Int)) 2 k a x * lin (A1 (1 : Int)) 2 k b x = lin (A1 (1 : Int)) 2 k (convOf (range (2 ^ k)) (· ||| ·) a b) x := by
  unfold lin convOf
  refine conv_thm _ _ _ ?_ ?_ a b
  · intro i hi j hj hij
    rw [kron_A1 (mem_range.1 hi), kron_A1 (mem_range.1 hj), kron_A1 (mem_range.1 hij)]
    have : (i ||| j) &&& x = i ||| j ↔ (i &&& x = i ∧ j &&& x = j) := by
      rw [land_iff (mem_range.1 hij), land_iff (mem_range.1 hi), land_iff (mem_range.1 hj)]
      simp only [Nat.testBit_lor, Bool.or_eq_true]
      constructor
      · exact fun h => ⟨fun d hd h1 => h d hd (Or.inl h1), fun d hd h1 => h d hd (Or.inr h1)⟩
      · rintro ⟨h1, h2⟩ d hd (h | h)
        · exact h1 d hd h
        · exact h2 d hd h
    by_cases c1 : i &&& x = i <;> by_cases c2 : j &&& x = j <;> simp [this, c1, c2]
  · intro i hi j hj hij
    exact absurd (mem_range.2 (Nat.or_lt_two_pow (mem_range.1 hi) (mem_range.1 hj))) hij

theorem lin_and (k : Nat) (a b : Nat → T) {x : Nat} (hx : x < 2 ^ k) :
    lin (A0 (1 : Int)) 2 k a x * lin (A0 (1 : Int)) 2 k b x = lin (A0 (1 : Int)) 2 k (convOf (range (2 ^ k)) (· &&& ·) a b) x := by
  unfold lin convOf
  refine conv_thm _ _ _ ?_ ?_ a b
  · intro i hi j hj hij
    rw [kron_A0 hx, kron_A0 hx, kron_A0 hx]
    have : x &&& (i &&& j) = x ↔ (x &&& i = x ∧ x &&& j = x) := by
      rw [land_iff hx, land_iff hx, land_iff hx]
      simp only [Nat.testBit_land, Bool.and_eq_true]
      constructor
      · exact fun h => ⟨fun d hd h1 => (h d hd h1).1, fun d hd h1 => (h d hd h1).2⟩
      · rintro ⟨h1, h2⟩ d hd h
        exact ⟨h1 d hd h, h2 d hd h⟩
    by_cases c1 : x &&& i = x <;> by_cases c2 : x &&& j = x <;> simp [this, c1, c2]
  · intro i hi j hj hij
    exact absurd (mem_range.2 (lt_of_le_of_lt Nat.and_le_left (mem_range.1 hi))) hij

theorem lin_xor (k : Nat) (a b : Nat → T) (x : Nat) : lin AW 2 k a x * lin AW 2 k b x = lin AW 2 k (convOf (range (2 ^ k)) (· ^^^ ·) a b) x := by
  unfold lin convOf
  refine conv_thm _ _ _ ?_ ?_ a b
  · intro i hi j hj hij
    exact kron_AW_xor k x i j
  · intro i hi j hj hij
    exact absurd (mem_range.2 (Nat.xor_lt_two_pow (mem_range.1 hi) (mem_range.1 hj))) hij

theorem ok2_tot {f : T → T → T} (c d u v : T) (h1 : c = u) (h2 : d = v) : Tot (ok2 f c d) fun z => z = f u v := by
  subst h1 h2; exact Tot.pure rfl

theorem orConvolution_tot {k : Nat} {a b : Array T} (ha : a.size = 2 ^ k) (hb : b.size = 2 ^ k) :
    Tot (orConvolution a b) fun r => RepA Eq r (2 ^ k) (convOf (range (2 ^ k)) (· ||| ·) (at' 0 a) (at' 0 b)) := by
  unfold orConvolution
  refine (transformConvolution_tot (rep := Eq) (m := (· * ·)) (F := lin (A1 (1 : Int)) 2 k) (G := lin (A1 (-1 : Int)) 2 k) (repA_of_size ha) (repA_of_size hb) (fun x f h => subsetZeta_tot opsOk_ring h) (fun x f h => subsetMobius_tot opsOk_ring h)
    (fun c d u v => ok2_tot c d u v)).mono fun r hr => hr.congr fun x hx => ?_
  rw [← lin_A1_inv (convOf (range (2 ^ k)) (· ||| ·) (at' 0 a) (at' 0 b)) hx]
  exact lin_congr (fun y hy => lin_or k _ _ hy) x

theorem andConvolution_tot {k : Nat} {a b : Array T} (ha : a.size = 2 ^ k) (hb : b.size = 2 ^ k) :
    Tot (andConvolution a b) fun r => RepA Eq r (2 ^ k) (convOf (range (2 ^ k)) (· &&& ·) (at' 0 a) (at' 0 b)) := by
  unfold andConvolution
  refine (transformConvolution_tot (rep := Eq) (m := (· * ·)) (F := lin (A0 (1 : Int)) 2 k) (G := lin (A0 (-1 : Int)) 2 k) (repA_of_size ha) (repA_of_size hb) (fun x f h => supsetZeta_tot opsOk_ring h) (fun x f h => supsetMobius_tot opsOk_ring h)
    (fun c d u v => ok2_tot c d u v)).mono fun r hr => hr.congr fun x hx => ?_
  rw [← lin_A0_inv (convOf (range (2 ^ k)) (· &&& ·) (at' 0 a) (at' 0 b)) hx]
  exact lin_congr (fun y hy => lin_and k _ _ hy) x

theorem walshHadamardInv_tot {inv : T → T} {k : Nat} {x : Array T} {f : Nat → T} (h : RepA Eq x (2 ^ k) f) :
    Tot (walshHadamardInv inv x) fun x' => RepA Eq x' (2 ^ k) fun i => lin AW 2 k f i * inv ((2 ^ k : Nat) : T) := by
  unfold walshHadamardInv
  refine Tot.bind (walshHadamard_tot opsOk_ring h) fun y hy => ?_
  rw [hy.1]
  exact mapAll_tot (g' := fun u => u * inv ((2 ^ k : Nat) : T)) hy fun c u hc => by subst hc; exact Tot.pure rfl

theorem xorConvolution_tot {inv : T → T} {k : Nat} (hinv : ((2 ^ k : Nat) : T) * inv ((2 ^ k : Nat) : T) = 1) {a b : Array T} (ha : a.size = 2 ^ k) (hb : b.size = 2 ^ k) :
    Tot (xorConvolution inv a b) fun r => RepA Eq r (2 ^ k) (convOf (range (2 ^ k)) (· ^^^ ·) (at' 0 a) (at' 0 b)) := by
  unfold xorConvolution
  refine (transformConvolution_tot (rep := Eq) (m := (· * ·)) (F := lin AW 2 k) (G := fun f i => lin AW 2 k f i * inv ((2 ^ k : Nat) : T)) (repA_of_size ha) (repA_of_size hb) (fun x f h => walshHadamard_tot opsOk_ring h) (fun x f h => walshHadamardInv_tot h)
    (fun c d u v => ok2_tot c d u v)).mono fun r hr => hr.congr fun x hx => ?_
  rw [lin_congr (g := lin AW 2 k (convOf (range (2 ^ k)) (· ^^^ ·) (at' 0 a) (at' 0 b))) (fun y hy => lin_xor k _ _ y) x, lin_AW_inv _ hx]
  have : (2 ^ k : Int) • convOf (range (2 ^ k)) (· ^^^ ·) (at' 0 a) (at' 0 b) x = convOf (range (2 ^ k)) (· ^^^ ·) (at' 0 a) (at' 0 b) x * ((2 ^ k : Nat) : T) := by
    rw [zsmul_eq_mul, ← (Nat.cast_commute (2 ^ k) _).eq]
    push_cast
    rfl
  rw [this, mul_assoc, hinv, mul_one]

theorem walshHadamardInvInt_tot {k : Nat} {x : Array Int} {f : Nat → Int} (h : RepA Eq x (2 ^ k) f) :
    Tot (walshHadamardInvInt x) fun x' => RepA Eq x' (2 ^ k) fun i => (lin AW 2 k f i).tdiv (2 ^ k) := by
  unfold walshHadamardInvInt
  refine Tot.bind (walshHadamard_tot opsOk_ring h) fun y hy => ?_
  rw [hy.1]
  refine mapAll_tot (g' := fun u : Int => u.tdiv (2 ^ k)) hy fun c u hc => ?_
  subst hc
  rw [if_neg (by have := Nat.pow_pos (n := k) (show 0 < 2 by omega); omega)]
  exact Tot.pure (by push_cast; rfl)

theorem xorConvolutionInt_tot {k : Nat} {a b : Array Int} (ha : a.size = 2 ^ k) (hb : b.size = 2 ^ k) :
    Tot (xorConvolutionInt a b) fun r => RepA Eq r (2 ^ k) (convOf (range (2 ^ k)) (· ^^^ ·) (at' 0 a) (at' 0 b)) := by
  unfold xorConvolutionInt
  refine (transformConvolution_tot (rep := Eq) (m := (· * ·)) (F := lin AW 2 k) (G := fun f i => (lin AW 2 k f i).tdiv (2 ^ k)) (repA_of_size ha) (repA_of_size hb) (fun x f h => walshHadamard_tot opsOk_ring h) (fun x f h => walshHadamardInvInt_tot h)
    (fun c d u v => ok2_tot c d u v)).mono fun r hr => hr.congr fun x hx => ?_
  rw [lin_congr (g := lin AW 2 k (convOf (range (2 ^ k)) (· ^^^ ·) (at' 0 a) (at' 0 b))) (fun y hy => lin_xor k _ _ y) x, lin_AW_inv _ hx, smul_eq_mul]
  exact Int.mul_tdiv_cancel_left _ (by positivity)

end

/-! ### The matrix version -/

section
variable {T : Type} [CommSemiring T]

theorem matUnit_ok {D : Nat} {A : Array (Array T)} (hA : A.size = D) (hr : ∀ i, (h : i < A.size) → A[i].size = D) :
    UnitOk (Eq : T → T → Prop) D (matUnit D A) (fun i j => at' 0 (at' #[] A i) j) := by
  intro w t hw
  unfold matUnit
  refine (Tot.forUp (P := fun i (y : Array T) => RepA Eq y D fun e => if e < i then ∑ j ∈ range D, at' 0 (at' #[] A e) j • t j else 0) (Nat.zero_le _)
    ⟨by simp, fun i hi => ⟨0, by simp [hi], by simp⟩⟩ ?_).mono fun y hy => hy.congr fun e he => by rw [if_pos he]
  rintro i y - hi hy
  refine (Tot.forUp (P := fun j (y : Array T) => RepA Eq y D fun e => if e < i then ∑ j ∈ range D, at' 0 (at' #[] A e) j • t j else
    if e = i then ∑ j' ∈ range j, at' 0 (at' #[] A e) j' • t j' else 0) (Nat.zero_le _) (hy.congr fun e he => by simp) ?_).mono ?_
  · rintro j y - hj hy
    unfold matCell
    have e1 : A[i].size = D := hr i (by omega)
    rw [rd_at #[] (by omega), ok_bind, rd_at 0 (by rw [show at' #[] A i = A[i] by simp [at', show i < A.size by omega], e1]; exact hj), ok_bind]
    refine Tot.bind (hw.rd hj) fun c hc => ?_
    refine Tot.bind (hy.rd hi) fun u hu => ?_
    rw [if_neg (by omega), if_pos rfl] at hu
    refine (hy.wr hi rfl).mono fun y' hy' => hy'.congr fun e he => ?_
    by_cases c1 : e = i
    · subst c1
      rw [if_pos rfl, if_neg (by omega), if_pos rfl, sum_range_succ, hu, hc, smul_eq_mul]
    · rw [if_neg c1, if_neg c1, if_neg c1]
  · intro y hy
    refine hy.congr fun e he => ?_
    by_cases c1 : e < i
    · rw [if_pos c1, if_pos (by omega)]
    · rw [if_neg c1]
      by_cases c2 : e = i
      · rw [if_pos c2, if_pos (by omega)]
      · rw [if_neg c2, if_neg (by omega)]

end
end Kronecker
