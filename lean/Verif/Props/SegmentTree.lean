import Verif.Proof.SegmentTree
import Mathlib.Algebra.Group.Nat.Defs
import Mathlib.Algebra.FreeMonoid.Basic

/-!
# SegmentTree: properties C09 and C10

Specification: the abstract state is the current array `f : Nat → T`, equal to the identity from index `n` on.
-/

namespace SegmentTree
open Cxx

variable {T : Type} [Monoid T]

/-- The ordered product `f l * f (l+1) * … * f (r-1)`. -/
def rangeProd (f : Nat → T) (l r : Nat) : T := ((List.range' l (r - l)).map f).prod

/-- Contents of a vector, the identity outside of it. -/
def ofArray (a : Array T) (i : Nat) : T := a[i]?.getD 1

/-- What the calls do to the array: `build(a)` overwrites the first `a.size()` values. -/
def next (f : Nat → T) : Op T → Nat → T
  | .build a => fun i => if i < a.size then ofArray a i else f i
  | .modify i h => Function.update f i (h (f i))
  | _ => f

/-- Indices are in range; the predicates of `max_right` and `min_left` accept the identity. -/
def Pre (n : Nat) (_ : Nat → T) : Op T → Prop
  | .build a => a.size ≤ n
  | .modify i _ => i < n
  | .get i => i < n
  | .prod l r => l ≤ r ∧ r ≤ n
  | .prefixProd r => r ≤ n
  | .suffixProd l => l ≤ n
  | .allProd => True
  | .maxRight l g => l ≤ n ∧ g 1 = true
  | .minLeft r g => r ≤ n ∧ g 1 = true

/-- `r` is where `max_right(l, g)` has to stop: `g` holds for `[l, r)` but not for `[l, r+1)`; if `g` is monotone on the
products starting in `l`, then `r` is the largest index for which `g` holds. -/
def IsMaxRight (n : Nat) (f : Nat → T) (l : Nat) (g : T → Bool) (r : Nat) : Prop :=
  l ≤ r ∧ r ≤ n ∧ g (rangeProd f l r) = true ∧ (r < n → g (rangeProd f l (r + 1)) = false) ∧
  ((∀ a b, l ≤ a → a ≤ b → b ≤ n → g (rangeProd f l b) = true → g (rangeProd f l a) = true) →
    ∀ r', l ≤ r' → r' ≤ n → (g (rangeProd f l r') = true ↔ r' ≤ r))

/-- `l` is where `min_left(r, g)` has to stop. -/
def IsMinLeft (f : Nat → T) (r : Nat) (g : T → Bool) (l : Nat) : Prop :=
  l ≤ r ∧ g (rangeProd f l r) = true ∧ (0 < l → g (rangeProd f (l - 1) r) = false) ∧
  ((∀ a b, a ≤ b → b ≤ r → g (rangeProd f a r) = true → g (rangeProd f b r) = true) →
    ∀ l', l' ≤ r → (g (rangeProd f l' r) = true ↔ l ≤ l'))

/-- Reads return the current values and their ordered products. -/
def Ans (n : Nat) (f : Nat → T) : Op T → Out T → Prop
  | .get i, o => o = .val (f i)
  | .prod l r, o => o = .val (rangeProd f l r)
  | .prefixProd r, o => o = .val (rangeProd f 0 r)
  | .suffixProd l, o => o = .val (rangeProd f l n)
  | .allProd, o => o = .val (rangeProd f 0 n)
  | .maxRight l g, o => ∃ r, o = .idx r ∧ IsMaxRight n f l g r
  | .minLeft r g, o => ∃ l, o = .idx l ∧ IsMinLeft f r g l
  | _, o => o = .unit

theorem isMaxRight_of {n : Nat} {f : Nat → T} {l : Nat} {g : T → Bool} {r : Nat} (h1 : l ≤ r) (h2 : r ≤ n)
    (h3 : g (rangeProd f l r) = true) (h4 : r < n → g (rangeProd f l (r + 1)) = false) : IsMaxRight n f l g r := by
  refine ⟨h1, h2, h3, h4, fun hmono r' a b => ⟨fun hr' => ?_, fun hr' => hmono r' r a hr' h2 h3⟩⟩
  by_contra hc
  have := hmono (r + 1) r' (by omega) (by omega) b hr'
  rw [h4 (by omega)] at this
  cases this

theorem isMinLeft_of {f : Nat → T} {r : Nat} {g : T → Bool} {l : Nat} (h1 : l ≤ r)
    (h3 : g (rangeProd f l r) = true) (h4 : 0 < l → g (rangeProd f (l - 1) r) = false) : IsMinLeft f r g l := by
  refine ⟨h1, h3, h4, fun hmono l' a => ⟨fun hl' => ?_, fun hl' => hmono l l' hl' a h3⟩⟩
  by_contra hc
  have := hmono l' (l - 1) (by omega) (by omega) hl'
  rw [h4 (by omega)] at this
  cases this

theorem step_sim (n : Nat) (s : State T) (f : Nat → T) (c : Op T) (h : Rep n f s) (hp : Pre n f c) :
    Tot (step (· * ·) 1 s c) fun r => Rep n (next f c) r.1 ∧ Ans n f c r.2 := by
  have hle := h.hle
  cases c with
  | build a => exact Tot.bind (build_tot h a hp) fun s' h' => Tot.pure ⟨h', rfl⟩
  | modify i g => exact Tot.bind (modify_tot h hp g) fun s' h' => Tot.pure ⟨h', rfl⟩
  | get i =>
    have hi : i < n := hp
    have hsz := h.hsz
    simp only [step, get]
    rw [decide_eq_true (by rw [h.hn]; exact hi), check_true, ok_bind, rd_at 1 (by omega), ok_bind, Nat.add_comm i, h.leaf i (by omega)]
    exact Tot.pure ⟨h, rfl⟩
  | prod l r =>
    simp only [step, prod_eq h hp.1 (le_trans hp.2 hle), ok_bind]
    exact Tot.pure ⟨h, rfl⟩
  | prefixProd r =>
    simp only [step, prod_eq h (Nat.zero_le r) (le_trans hp hle), ok_bind]
    exact Tot.pure ⟨h, rfl⟩
  | suffixProd l =>
    have hl : l ≤ n := hp
    simp only [step, prod_eq h (hl.trans hle) le_rfl, ok_bind, P_pad h.pad hl hle]
    exact Tot.pure ⟨h, rfl⟩
  | allProd =>
    simp only [step, allProd_eq h, ok_bind]
    exact Tot.pure ⟨h, rfl⟩
  | maxRight l g =>
    refine Tot.bind (maxRight_tot h g hp.1 hp.2) ?_
    rintro r ⟨h1, h2, h3, h4⟩
    exact Tot.pure ⟨h, r, rfl, isMaxRight_of h1 h2 h3 h4⟩
  | minLeft r g =>
    refine Tot.bind (minLeft_tot h g hp.1 hp.2) ?_
    rintro l ⟨h1, h3, h4⟩
    exact Tot.pure ⟨h, l, rfl, isMinLeft_of h1 h3 h4⟩

/-- **C09, C10.** `SegmentTree(a)` followed by any history of calls: all calls terminate normally, and return what the array
semantics says. The operation is any monoid. -/
theorem segmentTree_correct (a : Array T) (ops : List (Op T)) (hv : ValidOps (Pre a.size) next (ofArray a) ops) :
    ∃ s0 s outs, ofVector (· * ·) 1 a = .ok s0 ∧ runOps (step (· * ·) 1) s0 ops = .ok (s, outs) ∧
      TraceOk next (Ans a.size) (ofArray a) ops outs := by
  obtain ⟨s0, e0, h0⟩ := ofVector_tot a
  obtain ⟨⟨s, outs⟩, e, -, h⟩ := refine (Sim := fun s f => Rep a.size f s) (step_sim a.size) h0 hv
  exact ⟨s0, s, outs, e0, e, h⟩

/-- **C09, C10** for `SegmentTree(n)`: the array starts out as `n` identities. -/
theorem segmentTree_sized_correct (n : Nat) (ops : List (Op T)) (hv : ValidOps (Pre n) next (fun _ => 1) ops) :
    ∃ s0 s outs, init (· * ·) 1 n = .ok s0 ∧ runOps (step (· * ·) 1) s0 ops = .ok (s, outs) ∧
      TraceOk next (Ans n) (fun _ => (1 : T)) ops outs := by
  have e : ofArray (Array.replicate n (1 : T)) = fun _ => 1 := by
    funext i
    unfold ofArray
    rw [Array.getElem?_replicate]
    split <;> rfl
  have := segmentTree_correct (Array.replicate n (1 : T)) ops (by simpa [e] using hv)
  simpa [e, init] using this

/-- A history used to show that the hypotheses are met: words under concatenation (not commutative). -/
def demoOps : List (Op (FreeMonoid Nat)) :=
  [.modify 1 (fun x => x * FreeMonoid.of 7), .prod 0 3, .maxRight 1 (fun x => decide (x.toList.length ≤ 2)),
    .minLeft 3 (fun x => decide (x.toList.length ≤ 1)), .build #[FreeMonoid.of 5], .suffixProd 1, .allProd]

/-- Three leaves: not a power of two. -/
def demoInit : Array (FreeMonoid Nat) := #[FreeMonoid.of 0, FreeMonoid.of 1, FreeMonoid.of 2]

/-- The hypotheses are met by this history. -/
example : ValidOps (Pre demoInit.size) next (ofArray demoInit) demoOps :=
  ⟨(by decide : 1 < 3), ⟨by decide, by decide⟩, ⟨by decide, rfl⟩, ⟨by decide, rfl⟩, (by decide : 1 ≤ 3), (by decide : 1 ≤ 3),
    trivial, trivial⟩

/-- The modelled program on that history. -/
example : (ofVector (fun a b : List Nat => a ++ b) [] #[[0], [1], [2]] >>= fun s =>
      runOps (step (· ++ ·) []) s [.modify 1 (fun x => x ++ [7]), .prod 0 3, .maxRight 1 (fun x => decide (x.length ≤ 2)),
        .minLeft 3 (fun x => decide (x.length ≤ 1)), .build #[[5]], .suffixProd 1, .allProd] >>= fun r => .ok r.2) =
    .ok [.unit, .val [0, 1, 7, 2], .idx 2, .idx 2, .unit, .val [1, 7, 2], .val [5, 1, 7, 2]] := by decide +kernel

end SegmentTree
