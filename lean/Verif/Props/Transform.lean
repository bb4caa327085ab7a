import Verif.Proof.DivisorTransform
import Verif.Proof.SubsetConvolution

/-!
# C31–C35, C67: transforms over subsets, divisors and multiples, and the convolutions built on them

`cell a i` is the `i`-th entry of a vector (0 outside).  A result of a transform is described by its length and its entries.
-/

namespace TransformProps
open Cxx Finset

/-- The `i`-th entry. -/
def cell {T : Type} [Zero T] (a : Array T) (i : Nat) : T := a[i]?.getD 0

/-- `r` has the `n` entries `g 0, …, g (n-1)`. -/
def HasEntries {T : Type} (r : Array T) (n : Nat) (g : Nat → T) : Prop := r.size = n ∧ ∀ i, i < n → r[i]? = some (g i)

theorem of_rep {T : Type} {r : Array T} {n : Nat} {g : Nat → T} (h : Kronecker.RepA Eq r n g) : HasEntries r n g := ⟨h.1, fun _ hi => h.get hi⟩

section
variable {T : Type} [AddCommGroup T]

/-- C31: `subset_transform::zeta` on a vector of length `2^k` gives at `S` the sum of the entries at the subsets of `S`. -/
theorem subset_zeta (k : Nat) (a : Array T) (ha : a.size = 2 ^ k) :
    ∃ r, Kronecker.subsetZeta (Kronecker.ok2 (· + ·)) a = .ok r ∧
      HasEntries r (2 ^ k) fun S => ∑ U ∈ (range (2 ^ k)).filter (fun (U : Nat) => U &&& S = U), cell a U := by
  obtain ⟨r, h1, h2⟩ := Kronecker.subsetZeta_tot Kronecker.opsOk_ring (Kronecker.repA_of_size ha)
  exact ⟨r, h1, of_rep (h2.congr fun i _ => Kronecker.lin_A1_eq _ _)⟩

/-- C31: `supset_transform::zeta` gives at `S` the sum of the entries at the supersets of `S`. -/
theorem supset_zeta (k : Nat) (a : Array T) (ha : a.size = 2 ^ k) :
    ∃ r, Kronecker.supsetZeta (Kronecker.ok2 (· + ·)) a = .ok r ∧
      HasEntries r (2 ^ k) fun S => ∑ U ∈ (range (2 ^ k)).filter (fun (U : Nat) => S &&& U = S), cell a U := by
  obtain ⟨r, h1, h2⟩ := Kronecker.supsetZeta_tot Kronecker.opsOk_ring (Kronecker.repA_of_size ha)
  exact ⟨r, h1, of_rep (h2.congr fun i hi => Kronecker.lin_A0_eq _ hi)⟩

/-- C31: `subset_transform::mobius` inverts `zeta`. -/
theorem subset_mobius_zeta (k : Nat) (a : Array T) (ha : a.size = 2 ^ k) :
    (Kronecker.subsetZeta (Kronecker.ok2 (· + ·)) a >>= Kronecker.subsetMobius (Kronecker.ok2 (· - ·))) = .ok a := by
  rw [← tot_eq]
  refine Tot.bind (Kronecker.subsetZeta_tot Kronecker.opsOk_ring (Kronecker.repA_of_size ha)) fun r hr => ?_
  refine (Kronecker.subsetMobius_tot Kronecker.opsOk_ring hr).mono fun x hx => ?_
  exact Kronecker.repA_unique (hx.congr fun i hi => Kronecker.lin_A1_inv _ hi) (Kronecker.repA_of_size ha)

/-- C31: `subset_transform::zeta` inverts `mobius`. -/
theorem subset_zeta_mobius (k : Nat) (a : Array T) (ha : a.size = 2 ^ k) :
    (Kronecker.subsetMobius (Kronecker.ok2 (· - ·)) a >>= Kronecker.subsetZeta (Kronecker.ok2 (· + ·))) = .ok a := by
  rw [← tot_eq]
  refine Tot.bind (Kronecker.subsetMobius_tot Kronecker.opsOk_ring (Kronecker.repA_of_size ha)) fun r hr => ?_
  refine (Kronecker.subsetZeta_tot Kronecker.opsOk_ring hr).mono fun x hx => ?_
  exact Kronecker.repA_unique (hx.congr fun i hi => Kronecker.lin_A1_inv' _ hi) (Kronecker.repA_of_size ha)

/-- C31: `supset_transform::mobius` inverts `zeta`. -/
theorem supset_mobius_zeta (k : Nat) (a : Array T) (ha : a.size = 2 ^ k) :
    (Kronecker.supsetZeta (Kronecker.ok2 (· + ·)) a >>= Kronecker.supsetMobius (Kronecker.ok2 (· - ·))) = .ok a := by
  rw [← tot_eq]
  refine Tot.bind (Kronecker.supsetZeta_tot Kronecker.opsOk_ring (Kronecker.repA_of_size ha)) fun r hr => ?_
  refine (Kronecker.supsetMobius_tot Kronecker.opsOk_ring hr).mono fun x hx => ?_
  exact Kronecker.repA_unique (hx.congr fun i hi => Kronecker.lin_A0_inv _ hi) (Kronecker.repA_of_size ha)

/-- C31: `supset_transform::zeta` inverts `mobius`. -/
theorem supset_zeta_mobius (k : Nat) (a : Array T) (ha : a.size = 2 ^ k) :
    (Kronecker.supsetMobius (Kronecker.ok2 (· - ·)) a >>= Kronecker.supsetZeta (Kronecker.ok2 (· + ·))) = .ok a := by
  rw [← tot_eq]
  refine Tot.bind (Kronecker.supsetMobius_tot Kronecker.opsOk_ring (Kronecker.repA_of_size ha)) fun r hr => ?_
  refine (Kronecker.supsetZeta_tot Kronecker.opsOk_ring hr).mono fun x hx => ?_
  exact Kronecker.repA_unique (hx.congr fun i hi => Kronecker.lin_A0_inv' _ hi) (Kronecker.repA_of_size ha)

end

/-- The hypotheses of the C31 theorems hold for this vector, whose subset sums are not trivial. -/
example : (#[1, 2, 3, 4] : Array Int).size = 2 ^ 2 ∧ Kronecker.subsetZeta (Kronecker.ok2 (· + ·)) (#[1, 2, 3, 4] : Array Int) = .ok #[1, 3, 4, 10] := by decide

section
variable {T : Type} [Ring T]

/-- C32: `or_convolution(a, b)[k]` is the sum of `a[i] b[j]` over `i | j = k`. -/
theorem or_convolution (k : Nat) (a b : Array T) (ha : a.size = 2 ^ k) (hb : b.size = 2 ^ k) :
    ∃ r, Kronecker.orConvolution a b = .ok r ∧
      HasEntries r (2 ^ k) fun m => ∑ i ∈ range (2 ^ k), ∑ j ∈ range (2 ^ k), if i ||| j = m then cell a i * cell b j else 0 := by
  obtain ⟨r, h1, h2⟩ := Kronecker.orConvolution_tot ha hb
  exact ⟨r, h1, of_rep h2⟩

/-- C32: `and_convolution(a, b)[k]` is the sum of `a[i] b[j]` over `i & j = k`. -/
theorem and_convolution (k : Nat) (a b : Array T) (ha : a.size = 2 ^ k) (hb : b.size = 2 ^ k) :
    ∃ r, Kronecker.andConvolution a b = .ok r ∧
      HasEntries r (2 ^ k) fun m => ∑ i ∈ range (2 ^ k), ∑ j ∈ range (2 ^ k), if i &&& j = m then cell a i * cell b j else 0 := by
  obtain ⟨r, h1, h2⟩ := Kronecker.andConvolution_tot ha hb
  exact ⟨r, h1, of_rep h2⟩

/-- The hypotheses hold for these vectors. -/
example : Kronecker.orConvolution (#[1, 2] : Array Int) #[3, 4] = .ok #[3, 18] ∧ Kronecker.andConvolution (#[1, 2] : Array Int) #[3, 4] = .ok #[13, 8] := by decide

/-- C33: `xor_convolution(a, b)[k]` is the sum of `a[i] b[j]` over `i ^ j = k`, in every ring where `inv` inverts the length. -/
theorem xor_convolution (inv : T → T) (k : Nat) (hinv : ((2 ^ k : Nat) : T) * inv ((2 ^ k : Nat) : T) = 1) (a b : Array T) (ha : a.size = 2 ^ k) (hb : b.size = 2 ^ k) :
    ∃ r, Kronecker.xorConvolution inv a b = .ok r ∧
      HasEntries r (2 ^ k) fun m => ∑ i ∈ range (2 ^ k), ∑ j ∈ range (2 ^ k), if i ^^^ j = m then cell a i * cell b j else 0 := by
  obtain ⟨r, h1, h2⟩ := Kronecker.xorConvolution_tot hinv ha hb
  exact ⟨r, h1, of_rep h2⟩

/-- C33: `walsh_hadamard_inv` inverts `walsh_hadamard`. -/
theorem walsh_hadamard_inv (inv : T → T) (k : Nat) (hinv : ((2 ^ k : Nat) : T) * inv ((2 ^ k : Nat) : T) = 1) (a : Array T) (ha : a.size = 2 ^ k) :
    (Kronecker.walshHadamard (Kronecker.ok2 (· + ·)) (Kronecker.ok2 (· - ·)) a >>= Kronecker.walshHadamardInv inv) = .ok a := by
  rw [← tot_eq]
  refine Tot.bind (Kronecker.walshHadamard_tot Kronecker.opsOk_ring (Kronecker.repA_of_size ha)) fun r hr => ?_
  refine (Kronecker.walshHadamardInv_tot hr).mono fun x hx => ?_
  refine Kronecker.repA_unique (hx.congr fun i hi => ?_) (Kronecker.repA_of_size ha)
  rw [Kronecker.lin_AW_inv _ hi, zsmul_eq_mul]
  have h := (Nat.cast_commute (2 ^ k) (at' 0 a i)).eq
  push_cast at h hinv ⊢
  rw [h, mul_assoc, hinv, mul_one]

end

/-- C33: the Walsh–Hadamard transform at `x` is the sum of the entries at `y` with the sign given by the parity of the number of common bits. -/
theorem walsh_hadamard {T : Type} [AddCommGroup T] (k : Nat) (a : Array T) (ha : a.size = 2 ^ k) :
    ∃ r, Kronecker.walshHadamard (Kronecker.ok2 (· + ·)) (Kronecker.ok2 (· - ·)) a = .ok r ∧
      HasEntries r (2 ^ k) fun x => ∑ y ∈ range (2 ^ k), (∏ d ∈ range k, if x.testBit d = true ∧ y.testBit d = true then (-1 : Int) else 1) • cell a y := by
  obtain ⟨r, h1, h2⟩ := Kronecker.walshHadamard_tot Kronecker.opsOk_ring (Kronecker.repA_of_size ha)
  exact ⟨r, h1, of_rep (h2.congr fun i hi => sum_congr rfl fun y _ => by rw [Kronecker.kron_AW]; rfl)⟩

/-- C33: the same for integer vectors, where `walsh_hadamard_inv` divides by the length. -/
theorem xor_convolution_int (k : Nat) (a b : Array Int) (ha : a.size = 2 ^ k) (hb : b.size = 2 ^ k) :
    ∃ r, Kronecker.xorConvolutionInt a b = .ok r ∧
      HasEntries r (2 ^ k) fun m => ∑ i ∈ range (2 ^ k), ∑ j ∈ range (2 ^ k), if i ^^^ j = m then cell a i * cell b j else 0 := by
  obtain ⟨r, h1, h2⟩ := Kronecker.xorConvolutionInt_tot ha hb
  exact ⟨r, h1, of_rep h2⟩

/-- C33: `walsh_hadamard_inv` inverts `walsh_hadamard` on integer vectors. -/
theorem walsh_hadamard_inv_int (k : Nat) (a : Array Int) (ha : a.size = 2 ^ k) :
    (Kronecker.walshHadamard (Kronecker.ok2 (· + ·)) (Kronecker.ok2 (· - ·)) a >>= Kronecker.walshHadamardInvInt) = .ok a := by
  rw [← tot_eq]
  refine Tot.bind (Kronecker.walshHadamard_tot Kronecker.opsOk_ring (Kronecker.repA_of_size ha)) fun r hr => ?_
  refine (Kronecker.walshHadamardInvInt_tot hr).mono fun x hx => ?_
  refine Kronecker.repA_unique (hx.congr fun i hi => ?_) (Kronecker.repA_of_size ha)
  rw [Kronecker.lin_AW_inv _ hi, smul_eq_mul]
  exact Int.mul_tdiv_cancel_left _ (by positivity)

/-- Concrete vectors. -/
example : Kronecker.xorConvolutionInt #[1, 2] #[3, 4] = .ok #[11, 10] := by decide

/-- The length is invertible in the rationals. -/
example : ∃ (inv : Rat → Rat), ((2 ^ 3 : Nat) : Rat) * inv ((2 ^ 3 : Nat) : Rat) = 1 := ⟨fun x => x⁻¹, by norm_num⟩

section
variable {T : Type} [AddCommGroup T]

/-- C34: `divisor_transform::zeta` gives at `m ≥ 1` the sum of the entries at the divisors of `m`; entry 0 is left alone. -/
theorem divisor_zeta (a : Array T) :
    ∃ r, DivisorTransform.zeta (· + ·) a = .ok r ∧
      HasEntries r a.size fun m => if m = 0 then cell a 0 else ∑ d ∈ (Ico 1 a.size).filter (fun (d : Nat) => d ∣ m), cell a d := by
  obtain ⟨r, h1, h2⟩ := DivisorTransform.zeta_tot (Kronecker.repA_of_size (x := a) rfl)
  exact ⟨r, h1, of_rep h2⟩

/-- C34: `multiple_transform::zeta` gives at `m ≥ 1` the sum of the entries at the multiples of `m`; entry 0 is left alone. -/
theorem multiple_zeta (a : Array T) :
    ∃ r, MultipleTransform.zeta (· + ·) a = .ok r ∧
      HasEntries r a.size fun m => if m = 0 then cell a 0 else ∑ d ∈ (Ico 1 a.size).filter (fun (d : Nat) => m ∣ d), cell a d := by
  obtain ⟨r, h1, h2⟩ := MultipleTransform.zeta_tot (Kronecker.repA_of_size (x := a) rfl)
  exact ⟨r, h1, of_rep h2⟩

/-- C34: `divisor_transform::mobius` inverts `zeta`. -/
theorem divisor_mobius_zeta (a : Array T) : (DivisorTransform.zeta (· + ·) a >>= DivisorTransform.mobius (· - ·)) = .ok a := by
  rw [← tot_eq]
  refine Tot.bind (DivisorTransform.zeta_tot (Kronecker.repA_of_size (x := a) rfl)) fun r hr => ?_
  exact (DivisorTransform.mobius_tot hr).mono fun x hx => Kronecker.repA_unique hx (Kronecker.repA_of_size rfl)

/-- C34: `divisor_transform::zeta` inverts `mobius`. -/
theorem divisor_zeta_mobius (a : Array T) : (DivisorTransform.mobius (· - ·) a >>= DivisorTransform.zeta (· + ·)) = .ok a := by
  rw [← tot_eq]
  have ha := Kronecker.repA_of_size (x := a) rfl
  obtain ⟨h, hh⟩ := DivisorTransform.exists_zetaD a.size (fun i => at' 0 a i)
  refine Tot.bind (DivisorTransform.mobius_tot (ha.congr hh)) fun r hr => ?_
  exact (DivisorTransform.zeta_tot hr).mono fun x hx => Kronecker.repA_unique (hx.congr fun i hi => (hh i hi).symm) ha

/-- C34: `multiple_transform::mobius` inverts `zeta`. -/
theorem multiple_mobius_zeta (a : Array T) : (MultipleTransform.zeta (· + ·) a >>= MultipleTransform.mobius (· - ·)) = .ok a := by
  rw [← tot_eq]
  refine Tot.bind (MultipleTransform.zeta_tot (Kronecker.repA_of_size (x := a) rfl)) fun r hr => ?_
  exact (MultipleTransform.mobius_tot hr).mono fun x hx => Kronecker.repA_unique hx (Kronecker.repA_of_size rfl)

/-- C34: `multiple_transform::zeta` inverts `mobius`. -/
theorem multiple_zeta_mobius (a : Array T) : (MultipleTransform.mobius (· - ·) a >>= MultipleTransform.zeta (· + ·)) = .ok a := by
  rw [← tot_eq]
  have ha := Kronecker.repA_of_size (x := a) rfl
  obtain ⟨h, hh⟩ := MultipleTransform.exists_zetaM a.size (fun i => at' 0 a i)
  refine Tot.bind (MultipleTransform.mobius_tot (ha.congr hh)) fun r hr => ?_
  exact (MultipleTransform.zeta_tot hr).mono fun x hx => Kronecker.repA_unique (hx.congr fun i hi => (hh i hi).symm) ha

end

/-- A run of the divisor and multiple transforms. -/
example : DivisorTransform.zeta (· + ·) (#[9, 1, 1, 1, 1, 1, 1] : Array Int) = .ok #[9, 1, 2, 2, 3, 2, 4] ∧
    MultipleTransform.zeta (· + ·) (#[9, 1, 1, 1, 1, 1, 1] : Array Int) = .ok #[9, 6, 3, 2, 1, 1, 1] := by decide +kernel

section
variable {T : Type} [Ring T]

/-- C34: `gcd_convolution(a, b)[k]` is, for `k ≥ 1`, the sum of `a[i] b[j]` over `i, j ≥ 1` with `gcd(i, j) = k`; entry 0 is `a[0] b[0]`. -/
theorem gcd_convolution (a b : Array T) (h : a.size = b.size) :
    ∃ r, MultipleTransform.gcdConvolution a b = .ok r ∧
      HasEntries r a.size fun k => if k = 0 then cell a 0 * cell b 0 else ∑ i ∈ Ico 1 a.size, ∑ j ∈ Ico 1 a.size, if Nat.gcd i j = k then cell a i * cell b j else 0 := by
  obtain ⟨r, h1, h2⟩ := MultipleTransform.gcdConvolution_tot rfl h.symm
  exact ⟨r, h1, of_rep h2⟩

/-- C34: `lcm_convolution(a, b)[k]` is, for `k ≥ 1`, the sum of `a[i] b[j]` over `i, j ≥ 1` with `lcm(i, j) = k`; entry 0 is `a[0] b[0]`. -/
theorem lcm_convolution (a b : Array T) (h : a.size = b.size) :
    ∃ r, MultipleTransform.lcmConvolution a b = .ok r ∧
      HasEntries r a.size fun k => if k = 0 then cell a 0 * cell b 0 else ∑ i ∈ Ico 1 a.size, ∑ j ∈ Ico 1 a.size, if Nat.lcm i j = k then cell a i * cell b j else 0 := by
  obtain ⟨r, h1, h2⟩ := MultipleTransform.lcmConvolution_tot rfl h.symm
  exact ⟨r, h1, of_rep h2⟩

/-- A run. -/
example : (#[0, 1, 2, 3] : Array Int).size = (#[0, 1, 1, 1] : Array Int).size ∧ MultipleTransform.gcdConvolution (#[0, 1, 2, 3] : Array Int) #[0, 1, 1, 1] = .ok #[0, 13, 2, 3] := by decide +kernel

/-- C35: `subset_convolution(a, b)[S]` is the sum of `a[U] b[V]` over the partitions of `S` into disjoint `U`, `V`. -/
theorem subset_convolution (k : Nat) (a b : Array T) (ha : a.size = 2 ^ k) (hb : b.size = 2 ^ k) :
    ∃ r, SubsetConvolution.subsetConvolution a b = .ok r ∧
      HasEntries r (2 ^ k) fun S => ∑ U ∈ range (2 ^ k), ∑ V ∈ range (2 ^ k), if U ||| V = S ∧ U &&& V = 0 then cell a U * cell b V else 0 := by
  obtain ⟨r, h1, h2⟩ := SubsetConvolution.subsetConvolution_tot ha hb
  exact ⟨r, h1, of_rep h2⟩

/-- A run. -/
example : SubsetConvolution.subsetConvolution (#[1, 2, 3, 4] : Array Int) #[5, 6, 7, 8] = .ok #[5, 16, 22, 60] := by decide +kernel

/-- Finding: on empty vectors `subset_convolution` evaluates `__builtin_ctz(0)`, which is undefined. -/
theorem subset_convolution_empty : SubsetConvolution.subsetConvolution (#[] : Array Int) #[] = .error .ub := by decide

end

/-- C67: `kronecker_power_transform(x, A)` for a `D × D` matrix `A`, `D ≥ 2`, on a vector of length `D^k` multiplies by the `k`-th Kronecker power of `A`:
entry `i` of the result is the sum over `j` of the product over the `k` digits (base `D`) of `A[digit of i][digit of j]`, times `x[j]`. -/
theorem kronecker_power_transform {T : Type} [CommSemiring T] (D k : Nat) (hD : 2 ≤ D) (A : Array (Array T)) (hA : A.size = D) (hrow : ∀ i, (h : i < A.size) → A[i].size = D)
    (x : Array T) (hx : x.size = D ^ k) :
    ∃ r, Kronecker.matTransform A x = .ok r ∧
      HasEntries r (D ^ k) fun i => ∑ j ∈ range (D ^ k), (∏ d ∈ range k, cell (A[i / D ^ d % D]?.getD #[]) (j / D ^ d % D)) * cell x j := by
  have hu := Kronecker.matUnit_ok hA hrow
  unfold Kronecker.matTransform
  rw [rd_at #[] (by omega), ok_bind]
  have e : (at' #[] A 0).size = D := by
    have := hrow 0 (by omega)
    simpa [at', show 0 < A.size by omega] using this
  rw [hA, e, decide_eq_true rfl, check_true, ok_bind]
  obtain ⟨r, h1, h2⟩ := Kronecker.transform_tot hu hD (Kronecker.repA_of_size hx)
  exact ⟨r, h1, of_rep h2⟩

/-- A run with a 3 × 3 matrix. -/
example : Kronecker.matTransform (#[#[1, 1, 0], #[0, 1, 0], #[0, 0, 2]] : Array (Array Int)) #[1, 2, 3, 4, 5, 6, 7, 8, 9] = .ok #[12, 7, 18, 9, 5, 12, 30, 16, 36] := by decide +kernel

end TransformProps
