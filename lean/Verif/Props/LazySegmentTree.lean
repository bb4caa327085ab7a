import Verif.Proof.LazySegmentTreeSearch
import Verif.Props.SegmentTree
import Mathlib.Algebra.Group.Int.Defs
import Mathlib.Algebra.Group.Action.Defs
import Mathlib.Algebra.Group.Prod
import Mathlib.Algebra.Group.TypeTags.Basic

/-!
# LazySegmentTree: properties C11 and C64

The template parameters are written multiplicatively: `op a b = a * b`, `e() = 1`, `mapping(f, x) = f • x`,
`composition(f, g) = f * g`, `id() = 1`.  Hypotheses: `T` and `F` are monoids, `F` acts on `T` and the action is compatible with
the product (`hd`).  Abstract state: the current array `f : Nat → T`, equal to the identity from index `n` on.
-/

namespace LazySegmentTree
open Cxx
open SegmentTree (rangeProd ofArray IsMaxRight IsMinLeft Out isMaxRight_of isMinLeft_of)

variable {T F : Type} [Monoid T] [Monoid F] [MulAction F T]

/-- What the calls do to the array. -/
def next (f : Nat → T) : Op T F → Nat → T
  | .modify i h => Function.update f i (h (f i))
  | .applyPoint i φ => Function.update f i (φ • f i)
  | .apply l r φ => fun i => if l ≤ i ∧ i < r then φ • f i else f i
  | _ => f

/-- Indices are in range, predicates accept the identity.  For `suffix_prod` the size must be a power of two; for `min_left`
starting at the end the size must not be a power of two (≥ 2): see `suffixProd_aborts` and `minLeft_undefined`. -/
def Pre (n : Nat) (_ : Nat → T) : Op T F → Prop
  | .modify i _ => i < n
  | .applyPoint i _ => i < n
  | .apply l r _ => l ≤ r ∧ r ≤ n
  | .get i => i < n
  | .prod l r => l ≤ r ∧ r ≤ n
  | .prefixProd r => r ≤ n
  | .suffixProd l => l ≤ n ∧ ∃ j, n = 2 ^ j
  | .allProd => True
  | .maxRight l g => l ≤ n ∧ g 1 = true
  | .minLeft r g => r ≤ n ∧ g 1 = true ∧ (r = n → ¬ ∃ j, n = 2 ^ (j + 1))

/-- Reads return the current values and their ordered products. -/
def Ans (n : Nat) (f : Nat → T) : Op T F → Out T → Prop
  | .get i, o => o = .val (f i)
  | .prod l r, o => o = .val (rangeProd f l r)
  | .prefixProd r, o => o = .val (rangeProd f 0 r)
  | .suffixProd l, o => o = .val (rangeProd f l n)
  | .allProd, o => o = .val (rangeProd f 0 n)
  | .maxRight l g, o => ∃ r, o = .idx r ∧ IsMaxRight n f l g r
  | .minLeft r g, o => ∃ l, o = .idx l ∧ IsMinLeft f r g l
  | _, o => o = .unit

/-- The padded size is the smallest power of two. -/
def Sim (n : Nat) (s : State T F) (f : Nat → T) : Prop := ∃ m lg, (m = 1 ∨ m < 2 * n) ∧ Ok n m lg f s

theorem m_eq {n m lg : Nat} (hmin : m = 1 ∨ m < 2 * n) (hm : m = 2 ^ lg) (hle : n ≤ m) {j : Nat} (hn : n = 2 ^ j) : m = n := by
  have hj := SegTree.pow_pos' j
  rcases hmin with h | h
  · omega
  · rw [hm, hn] at hle
    rw [hm, hn, ← pow_succ'] at h
    have h1 := (Nat.pow_le_pow_iff_right (a := 2) (by omega)).1 hle
    have h2 := (Nat.pow_lt_pow_iff_right (a := 2) (by omega)).1 h
    rw [hm, hn, show lg = j by omega]

theorem step_sim (hd : ∀ (φ : F) (a b : T), φ • (a * b) = φ • a * φ • b) (n : Nat) (s : State T F) (f : Nat → T) (c : Op T F) (h : Sim n s f)
    (hp : Pre n f c) : Tot (step (prm T F) s c) fun r => Sim n r.1 (next f c) ∧ Ans n f c r.2 := by
  obtain ⟨m, lg, hmin, h⟩ := h
  have hle := h.hle
  cases c with
  | modify i g => exact Tot.bind (modify_tot hd h hp g) fun s' h' => Tot.pure ⟨⟨m, lg, hmin, h'⟩, rfl⟩
  | applyPoint i φ => exact Tot.bind (applyPoint_tot hd h hp φ) fun s' h' => Tot.pure ⟨⟨m, lg, hmin, h'⟩, rfl⟩
  | apply l r φ => exact Tot.bind (apply_tot hd h hp.1 hp.2 φ) fun s' h' => Tot.pure ⟨⟨m, lg, hmin, h'⟩, rfl⟩
  | get i =>
    refine Tot.bind (get_tot hd h hp) ?_
    rintro ⟨s', v⟩ ⟨h', rfl⟩
    exact Tot.pure ⟨⟨m, lg, hmin, h'⟩, rfl⟩
  | prod l r =>
    refine Tot.bind (prod_tot hd h hp.1 hp.2) ?_
    rintro ⟨s', v⟩ ⟨h', rfl⟩
    exact Tot.pure ⟨⟨m, lg, hmin, h'⟩, rfl⟩
  | prefixProd r =>
    refine Tot.bind (prod_tot hd h (Nat.zero_le r) hp) ?_
    rintro ⟨s', v⟩ ⟨h', rfl⟩
    exact Tot.pure ⟨⟨m, lg, hmin, h'⟩, rfl⟩
  | suffixProd l =>
    obtain ⟨hl, j, hj⟩ := hp
    have e := m_eq hmin h.hm h.hle hj
    simp only [step, h.hsm]
    refine Tot.bind (prod_tot hd h (l := l) (r := m) (by omega) (by omega)) ?_
    rintro ⟨s', v⟩ ⟨h', rfl⟩
    exact Tot.pure ⟨⟨m, lg, hmin, h'⟩, by rw [e]; rfl⟩
  | allProd =>
    simp only [step, allProd_eq hd h, ok_bind]
    exact Tot.pure ⟨⟨m, lg, hmin, h⟩, rfl⟩
  | maxRight l g =>
    refine Tot.bind (maxRight_tot hd h g hp.1 hp.2) ?_
    rintro ⟨s', r⟩ ⟨h', h1, h2, h3, h4⟩
    exact Tot.pure ⟨⟨m, lg, hmin, h'⟩, r, rfl, isMaxRight_of h1 h2 h3 h4⟩
  | minLeft r g =>
    obtain ⟨hr, hg, hn⟩ := hp
    have hcase : r < m ∨ lg = 0 := by
      rcases Nat.lt_or_ge r m with hlt | hge
      · exact Or.inl hlt
      · right
        by_contra hlg
        refine hn (by omega) ⟨lg - 1, ?_⟩
        rw [show lg - 1 + 1 = lg by omega, ← h.hm]
        omega
    refine Tot.bind (minLeft_tot hd h g hr hcase hg) ?_
    rintro ⟨s', l⟩ ⟨h', h1, h3, h4⟩
    exact Tot.pure ⟨⟨m, lg, hmin, h'⟩, l, rfl, isMinLeft_of h1 h3 h4⟩

/-- **C11** (and the part of **C64** that holds). `LazySegmentTree(a)` followed by any history of calls: all calls terminate
normally and return what the array semantics says. -/
theorem lazySegmentTree_correct (hd : ∀ (φ : F) (a b : T), φ • (a * b) = φ • a * φ • b) (a : Array T) (ops : List (Op T F))
    (hv : ValidOps (Pre a.size) next (ofArray a) ops) :
    ∃ s0 s outs, ofVector (prm T F) a = .ok s0 ∧ runOps (step (prm T F)) s0 ops = .ok (s, outs) ∧
      TraceOk next (Ans a.size) (ofArray a) ops outs := by
  obtain ⟨s0, e0, h0⟩ := ofVector_tot (F := F) a
  obtain ⟨⟨s, outs⟩, e, -, h⟩ := refine (Sim := Sim a.size) (step_sim hd a.size) h0 hv
  exact ⟨s0, s, outs, e0, e, h⟩

/-- **C64 fails for `min_left`.** After any valid history on a tree whose size is a power of two (at least 2), `min_left(n, g)`
reads outside of the vectors. -/
theorem minLeft_undefined (hd : ∀ (φ : F) (a b : T), φ • (a * b) = φ • a * φ • b) (a : Array T) (j : Nat) (ha : a.size = 2 ^ (j + 1))
    (ops : List (Op T F)) (hv : ValidOps (Pre a.size) next (ofArray a) ops) (g : T → Bool) (hg : g 1 = true) :
    ∃ s0 s outs, ofVector (prm T F) a = .ok s0 ∧ runOps (step (prm T F)) s0 ops = .ok (s, outs) ∧
      step (prm T F) s (.minLeft a.size g) = .error .ub := by
  obtain ⟨s0, e0, h0⟩ := ofVector_tot (F := F) a
  obtain ⟨⟨s, outs⟩, e, ⟨m, lg, hmin, h⟩, -⟩ := refine (Sim := Sim a.size) (step_sim hd a.size) h0 hv
  refine ⟨s0, s, outs, e0, e, ?_⟩
  have em := m_eq hmin h.hm h.hle ha
  have := SegTree.pow_pos' j
  have hm2 : 2 ≤ m := by rw [em, ha, pow_succ]; omega
  unfold step
  dsimp only
  rw [minLeft_ub hd h g em.symm hm2 hg]
  rfl

/-- **C64 fails for `suffix_prod`.** After any valid history on a tree whose size is not a power of two, every call of
`suffix_prod` trips an assertion. -/
theorem suffixProd_aborts (hd : ∀ (φ : F) (a b : T), φ • (a * b) = φ • a * φ • b) (a : Array T) (ha : ¬ ∃ j, a.size = 2 ^ j)
    (ops : List (Op T F)) (hv : ValidOps (Pre a.size) next (ofArray a) ops) (l : Nat) :
    ∃ s0 s outs, ofVector (prm T F) a = .ok s0 ∧ runOps (step (prm T F)) s0 ops = .ok (s, outs) ∧
      step (prm T F) s (.suffixProd l) = .error .assertion := by
  obtain ⟨s0, e0, h0⟩ := ofVector_tot (F := F) a
  obtain ⟨⟨s, outs⟩, e, ⟨m, lg, hmin, h⟩, -⟩ := refine (Sim := Sim a.size) (step_sim hd a.size) h0 hv
  refine ⟨s0, s, outs, e0, e, suffixProd_abort h ?_ l⟩
  refine lt_of_le_of_ne h.hle fun e => ha ⟨lg, ?_⟩
  rw [e, h.hm]

/-! ### The hypotheses are met: sums under range addition, with the length carried along -/

/-- Affine maps `x ↦ a x + b` on integers, as a monoid of maps that is not commutative. -/
structure Aff where
  a : Int
  b : Int
  deriving DecidableEq

/-- (sum, number of elements). -/
structure Seg where
  sum : Int
  len : Int
  deriving DecidableEq

instance : Mul Aff := ⟨fun f g => ⟨f.a * g.a, f.a * g.b + f.b⟩⟩
instance : One Aff := ⟨⟨1, 0⟩⟩
instance : Mul Seg := ⟨fun x y => ⟨x.sum + y.sum, x.len + y.len⟩⟩
instance : One Seg := ⟨⟨0, 0⟩⟩
instance : SMul Aff Seg := ⟨fun f x => ⟨f.a * x.sum + f.b * x.len, x.len⟩⟩

theorem aff_mul (f g : Aff) : f * g = ⟨f.a * g.a, f.a * g.b + f.b⟩ := rfl
theorem aff_one : (1 : Aff) = ⟨1, 0⟩ := rfl
theorem seg_mul (x y : Seg) : x * y = ⟨x.sum + y.sum, x.len + y.len⟩ := rfl
theorem seg_one : (1 : Seg) = ⟨0, 0⟩ := rfl
theorem aff_smul (f : Aff) (x : Seg) : f • x = ⟨f.a * x.sum + f.b * x.len, x.len⟩ := rfl

instance : Monoid Aff where
  mul_assoc f g h := by
    simp only [aff_mul, Aff.mk.injEq]
    constructor <;> ring
  one_mul f := by simp [aff_mul, aff_one]
  mul_one f := by simp [aff_mul, aff_one]

instance : Monoid Seg where
  mul_assoc x y z := by
    simp only [seg_mul, Seg.mk.injEq]
    constructor <;> ring
  one_mul x := by simp [seg_mul, seg_one]
  mul_one x := by simp [seg_mul, seg_one]

instance : MulAction Aff Seg where
  one_smul x := by
    show (⟨1, 0⟩ : Aff) • x = x
    simp [aff_smul]
  mul_smul f g x := by
    show (⟨f.a * g.a, f.a * g.b + f.b⟩ : Aff) • x = _
    simp only [aff_smul, Seg.mk.injEq, and_true]
    ring

/-- The distributivity hypothesis holds for this instance. -/
theorem aff_dist (φ : Aff) (x y : Seg) : φ • (x * y) = φ • x * φ • y := by
  show φ • (⟨x.sum + y.sum, x.len + y.len⟩ : Seg) = _
  simp only [aff_smul]
  show _ = (⟨_, _⟩ : Seg)
  simp only [Seg.mk.injEq, and_true]
  ring

/-- A history on five elements. -/
def demoInit : Array Seg := #[⟨1, 1⟩, ⟨2, 1⟩, ⟨3, 1⟩, ⟨4, 1⟩, ⟨5, 1⟩]
def demoOps : List (Op Seg Aff) :=
  [.apply 1 4 ⟨2, 1⟩, .apply 0 5 ⟨1, 10⟩, .prod 2 5, .modify 3 (fun _ => ⟨100, 1⟩), .applyPoint 0 ⟨3, 0⟩, .get 0,
    .maxRight 1 (fun x => decide (x.sum ≤ 40)), .minLeft 5 (fun x => decide (x.sum ≤ 120)), .allProd]

example : ValidOps (Pre demoInit.size) next (ofArray demoInit) demoOps :=
  ⟨⟨by decide, by decide⟩, ⟨by decide, by decide⟩, ⟨by decide, by decide⟩, (by decide : 3 < 5), (by decide : 0 < 5), (by decide : 0 < 5),
    ⟨by decide, rfl⟩, ⟨by decide, rfl, fun _ ⟨j, hj⟩ => by
      have : (5 : Nat) = 2 ^ (j + 1) := hj
      rw [pow_succ] at this; omega⟩, trivial, trivial⟩

/-- The modelled program on that history. -/
example : (ofVector (prm Seg Aff) demoInit >>= fun s => runOps (step (prm Seg Aff)) s demoOps >>= fun r => .ok r.2) =
    .ok [.unit, .unit, .val ⟨51, 3⟩, .unit, .unit, .val ⟨33, 1⟩, .idx 3, .idx 3, .val ⟨180, 5⟩] := by decide +kernel

/-- The size hypotheses of the two negative theorems are met. -/
example : (#[⟨1, 1⟩, ⟨2, 1⟩] : Array Seg).size = 2 ^ (0 + 1) := rfl
example : ¬ ∃ j, demoInit.size = 2 ^ j := by
  rintro ⟨j, hj⟩
  have h5 : (5 : Nat) = 2 ^ j := hj
  cases j with
  | zero => simp at h5
  | succ j => rw [pow_succ] at h5; omega

end LazySegmentTree
