import Mathlib.Order.Basic

/-!
# The execution model shared by all modules

C++ programs of the library are modelled as total functions in the monad `M = Except Err`.
Everything the C++ standard leaves undefined (an out-of-range `operator[]` of `std::vector`,
`__builtin_clz(0)`, division by zero, ...), every failed `assert`, and every loop that exhausts the
iteration bound given by the model is a *distinct outcome* (`Err`), never silently totalised.  A theorem
of the form `prog = .ok v` (or `Tot prog Q`) therefore also states that the execution terminates, reads and
writes only inside its vectors and trips no assertion.
-/

namespace Cxx

/-- Abnormal outcomes of a modelled C++ execution. -/
inductive Err where
  /-- undefined behaviour (out-of-range access, `clz(0)`, division by zero, null dereference ...) -/
  | ub
  /-- a failed `assert` -/
  | assertion
  /-- a loop did not finish within the bound used by the model -/
  | diverge
  deriving DecidableEq, Repr

/-- The execution monad. -/
abbrev M (α : Type _) := Except Err α

@[simp] theorem ok_bind {α β} (a : α) (f : α → M β) : (Except.ok a >>= f) = f a := rfl
@[simp] theorem err_bind {α β} (e : Err) (f : α → M β) : ((Except.error e : M α) >>= f) = .error e := rfl
@[simp] theorem pure_eq {α} (a : α) : (pure a : M α) = .ok a := rfl
@[simp] theorem map_ok {α β} (f : α → β) (a : α) : (f <$> (Except.ok a : M α)) = .ok (f a) := rfl

/-- `v[i]` on a `std::vector` (read). Out of range is undefined behaviour. -/
def rd {α} (a : Array α) (i : Nat) : M α :=
  match a[i]? with
  | some x => .ok x
  | none => .error .ub

/-- `v[i] = x` on a `std::vector`. Out of range is undefined behaviour. -/
def wr {α} (a : Array α) (i : Nat) (x : α) : M (Array α) :=
  if i < a.size then .ok (a.setIfInBounds i x) else .error .ub

/-- `assert(b)` -/
def check (b : Bool) : M Unit := if b then .ok () else .error .assertion

/-- `k` iterations of a counting loop, starting with index `i`. -/
def forN {σ} (f : Nat → σ → M σ) : Nat → Nat → σ → M σ
  | 0, _, s => .ok s
  | k + 1, i, s => f i s >>= forN f k (i + 1)

/-- `for (int i = lo; i < hi; ++i) s = f(i, s);` -/
def forUp {σ} (lo hi : Nat) (s : σ) (f : Nat → σ → M σ) : M σ := forN f (hi - lo) lo s

/-- `for (int i = hi - 1; i >= lo; --i) s = f(i, s);` -/
def forDown {σ} (hi lo : Nat) (s : σ) (f : Nat → σ → M σ) : M σ :=
  forN (fun j s => f (hi + lo - 1 - j) s) (hi - lo) lo s

/-- `for (auto x : xs) s = f(s, x);` -/
def forEach {σ α} (xs : List α) (s : σ) (f : σ → α → M σ) : M σ :=
  match xs with
  | [] => .ok s
  | x :: xs => f s x >>= fun s => forEach xs s f

/-- `while (cond) body`, with an iteration bound; `diverge` if the bound is exhausted while the condition
still holds.  `step` returns `none` when the loop condition is false. -/
def loop {σ} (step : σ → M (Option σ)) : Nat → σ → M σ
  | 0, s => step s >>= fun
    | none => .ok s
    | some _ => .error .diverge
  | k + 1, s => step s >>= fun
    | none => .ok s
    | some s' => loop step k s'

/-! ### Total correctness -/

/-- `m` terminates normally and its result satisfies `Q`. -/
def Tot {α} (m : M α) (Q : α → Prop) : Prop := ∃ a, m = .ok a ∧ Q a

theorem Tot.mono {α} {m : M α} {P Q : α → Prop} (h : Tot m P) (hPQ : ∀ a, P a → Q a) : Tot m Q := by
  obtain ⟨a, e, h⟩ := h; exact ⟨a, e, hPQ a h⟩

theorem Tot.pure {α} {a : α} {Q : α → Prop} (h : Q a) : Tot (.ok a) Q := ⟨a, rfl, h⟩

theorem Tot.bind {α β} {m : M α} {f : α → M β} {P : α → Prop} {Q : β → Prop}
    (h : Tot m P) (hf : ∀ a, P a → Tot (f a) Q) : Tot (m >>= f) Q := by
  obtain ⟨a, rfl, h⟩ := h; exact hf a h

theorem Tot.of_eq {α} {m : M α} {a : α} {Q : α → Prop} (h : m = .ok a) (hq : Q a) : Tot m Q := ⟨a, h, hq⟩

theorem tot_ok {α} {a : α} {Q : α → Prop} : Tot (.ok a) Q ↔ Q a := by
  constructor
  · rintro ⟨b, hb, hq⟩; cases hb; exact hq
  · exact Tot.pure

theorem tot_eq {α} {m : M α} {a : α} : Tot m (· = a) ↔ m = .ok a := by
  constructor
  · rintro ⟨b, hb, rfl⟩; exact hb
  · intro h; exact ⟨a, h, rfl⟩

theorem rd_eq {α} {a : Array α} {i : Nat} (h : i < a.size) : rd a i = .ok a[i] := by
  simp [rd, h]

theorem rd_some {α} {a : Array α} {i : Nat} {x : α} (h : a[i]? = some x) : rd a i = .ok x := by
  simp [rd, h]

theorem rd_ub {α} {a : Array α} {i : Nat} (h : a.size ≤ i) : rd a i = .error .ub := by
  simp [rd, h]

theorem wr_eq {α} {a : Array α} {i : Nat} {x : α} (h : i < a.size) : wr a i x = .ok (a.setIfInBounds i x) := by
  simp [wr, h]

theorem wr_ub {α} {a : Array α} {i : Nat} {x : α} (h : a.size ≤ i) : wr a i x = .error .ub := by
  simp [wr, Nat.not_lt.mpr h]

@[simp] theorem check_true : check true = .ok () := rfl
@[simp] theorem check_false : check false = .error .assertion := rfl

theorem Tot.rd {α} {a : Array α} {i : Nat} {Q : α → Prop} (h : i < a.size) (hq : Q a[i]) : Tot (rd a i) Q :=
  ⟨_, rd_eq h, hq⟩

theorem Tot.wr {α} {a : Array α} {i : Nat} {x : α} {Q : Array α → Prop} (h : i < a.size)
    (hq : Q (a.setIfInBounds i x)) : Tot (wr a i x) Q :=
  ⟨_, wr_eq h, hq⟩

theorem Tot.forN {σ} {f : Nat → σ → M σ} {P : Nat → σ → Prop} {k i : Nat} {s : σ}
    (h0 : P i s) (hs : ∀ j s, i ≤ j → j < i + k → P j s → Tot (f j s) (P (j + 1))) :
    Tot (forN f k i s) (P (i + k)) := by
  induction k generalizing i s with
  | zero => exact ⟨s, rfl, h0⟩
  | succ k ih =>
    refine Tot.bind (hs i s (Nat.le_refl _) (by omega) h0) fun s' h' => ?_
    have := ih h' (fun j s hj hj' hp => hs j s (by omega) (by omega) hp)
    rwa [show i + 1 + k = i + (k + 1) by omega] at this

/-- Invariant rule for `for (i = lo; i < hi; ++i)`. -/
theorem Tot.forUp {σ} {f : Nat → σ → M σ} {P : Nat → σ → Prop} {lo hi : Nat} {s : σ} (hle : lo ≤ hi)
    (h0 : P lo s) (hs : ∀ j s, lo ≤ j → j < hi → P j s → Tot (f j s) (P (j + 1))) :
    Tot (forUp lo hi s f) (P hi) := by
  have := Tot.forN (f := f) (P := P) (k := hi - lo) (i := lo) (s := s) h0
    (fun j s h1 h2 hp => hs j s h1 (by omega) hp)
  rwa [show lo + (hi - lo) = hi by omega] at this

/-- Invariant rule for `for (i = hi - 1; i >= lo; --i)`: `P j` holds when exactly the indices `≥ j` have been
processed. -/
theorem Tot.forDown {σ} {f : Nat → σ → M σ} {P : Nat → σ → Prop} {lo hi : Nat} {s : σ} (hle : lo ≤ hi)
    (h0 : P hi s) (hs : ∀ j s, lo ≤ j → j < hi → P (j + 1) s → Tot (f j s) (P j)) :
    Tot (forDown hi lo s f) (P lo) := by
  have := Tot.forN (f := fun j s => f (hi + lo - 1 - j) s) (P := fun j s => P (hi + lo - j) s)
    (k := hi - lo) (i := lo) (s := s) (by simpa using h0)
    (fun j s h1 h2 hp => by
      have := hs (hi + lo - 1 - j) s (by omega) (by omega)
        (by rwa [show hi + lo - 1 - j + 1 = hi + lo - j by omega])
      rwa [show hi + lo - 1 - j = hi + lo - (j + 1) by omega] at *)
  rwa [show hi + lo - (lo + (hi - lo)) = lo by omega] at this

/-- Invariant rule for range-`for`: `P done s` where `done` is the list of elements processed so far. -/
theorem Tot.forEach {σ α} {f : σ → α → M σ} {P : List α → σ → Prop} {xs : List α} {s : σ}
    (h0 : P [] s)
    (hs : ∀ pre x post s, xs = pre ++ x :: post → P pre s → Tot (f s x) (P (pre ++ [x]))) :
    Tot (forEach xs s f) (P xs) := by
  suffices H : ∀ pre post s, xs = pre ++ post → P pre s → Tot (Cxx.forEach post s f) (P xs) from
    H [] xs s rfl h0
  intro pre post
  induction post generalizing pre with
  | nil => intro s e h; exact ⟨s, rfl, by simpa [e] using h⟩
  | cons x post ih =>
    intro s e h
    exact Tot.bind (hs pre x post s e h) fun s' h' => ih (pre ++ [x]) s' (by simp [e]) h'

/-- Invariant rule for `while` with a variant `μ`. -/
theorem Tot.loop {σ} {step : σ → M (Option σ)} {P : σ → Prop} {Q : σ → Prop} (μ : σ → Nat)
    (hstep : ∀ s, P s → Tot (step s) fun
      | none => Q s
      | some s' => P s' ∧ μ s' < μ s)
    {fuel : Nat} {s : σ} (h0 : P s) (hf : μ s ≤ fuel) : Tot (loop step fuel s) Q := by
  induction fuel generalizing s with
  | zero =>
    obtain ⟨r, hr, h⟩ := hstep s h0
    cases r with
    | none => exact ⟨s, by simp [Cxx.loop, hr], h⟩
    | some s' => exact absurd h.2 (by omega)
  | succ k ih =>
    obtain ⟨r, hr, h⟩ := hstep s h0
    cases r with
    | none => exact ⟨s, by simp [Cxx.loop, hr], h⟩
    | some s' =>
      obtain ⟨a, ha, hq⟩ := ih h.1 (by have := h.2; omega)
      exact ⟨a, by simp [Cxx.loop, hr, ha], hq⟩

/-- Invariant rule for `while` with a ghost variant. -/
theorem Tot.loopG {σ} {step : σ → M (Option σ)} {P : Nat → σ → Prop} {Q : σ → Prop}
    (hstep : ∀ k s, P k s → Tot (step s) fun
      | none => Q s
      | some s' => ∃ k' < k, P k' s')
    {fuel k : Nat} {s : σ} (h0 : P k s) (hf : k ≤ fuel) : Tot (Cxx.loop step fuel s) Q := by
  induction fuel generalizing s k with
  | zero =>
    obtain ⟨r, hr, h⟩ := hstep k s h0
    cases r with
    | none => exact ⟨s, by simp [Cxx.loop, hr], h⟩
    | some s' => obtain ⟨k', hk, -⟩ := h; omega
  | succ n ih =>
    obtain ⟨r, hr, h⟩ := hstep k s h0
    cases r with
    | none => exact ⟨s, by simp [Cxx.loop, hr], h⟩
    | some s' =>
      obtain ⟨k', hk, h⟩ := h
      obtain ⟨a, ha, hq⟩ := ih h (by omega)
      exact ⟨a, by simp [Cxx.loop, hr, ha], hq⟩

/-! ### Histories of operations

The state of an object after a history of calls, and the values the calls returned, are described by
`runOps`.  A specification consists of an abstract state `τ`, a precondition `Pre`, a transition `next`
and an answer relation `Ans`. -/

/-- Run a list of operations one after the other, collecting the outputs. -/
def runOps {σ ι ο} (step : σ → ι → M (σ × ο)) : σ → List ι → M (σ × List ο)
  | s, [] => .ok (s, [])
  | s, i :: is => step s i >>= fun r => runOps step r.1 is >>= fun r' => .ok (r'.1, r.2 :: r'.2)

/-- Every operation of the list meets its precondition when it is called. -/
def ValidOps {τ ι} (Pre : τ → ι → Prop) (next : τ → ι → τ) : τ → List ι → Prop
  | _, [] => True
  | t, i :: is => Pre t i ∧ ValidOps Pre next (next t i) is

/-- The outputs of the operations are those the specification allows. -/
def TraceOk {τ ι ο} (next : τ → ι → τ) (Ans : τ → ι → ο → Prop) : τ → List ι → List ο → Prop
  | _, [], [] => True
  | t, i :: is, o :: os => Ans t i o ∧ TraceOk next Ans (next t i) is os
  | _, _, _ => False

instance decValidOps {τ ι} (Pre : τ → ι → Prop) [∀ t i, Decidable (Pre t i)] (next : τ → ι → τ) :
    ∀ t is, Decidable (ValidOps Pre next t is)
  | _, [] => isTrue trivial
  | t, i :: is =>
    have := decValidOps Pre next (next t i) is
    inferInstanceAs (Decidable (_ ∧ _))

/-- If every single operation simulates the specification, so does every history. -/
theorem refine {σ τ ι ο} {step : σ → ι → M (σ × ο)} {Pre : τ → ι → Prop} {next : τ → ι → τ}
    {Ans : τ → ι → ο → Prop} {Sim : σ → τ → Prop}
    (h : ∀ s t i, Sim s t → Pre t i → Tot (step s i) fun r => Sim r.1 (next t i) ∧ Ans t i r.2)
    {s : σ} {t : τ} {is : List ι} (h0 : Sim s t) (hv : ValidOps Pre next t is) :
    Tot (runOps step s is) fun r => Sim r.1 (is.foldl next t) ∧ TraceOk next Ans t is r.2 := by
  induction is generalizing s t with
  | nil => exact ⟨_, rfl, h0, trivial⟩
  | cons i is ih =>
    refine Tot.bind (h s t i h0 hv.1) fun r hr => ?_
    refine Tot.bind (ih hr.1 hv.2) fun r' hr' => ?_
    exact Tot.pure ⟨hr'.1, hr.2, hr'.2⟩

/-! ### Histories whose abstract effect is not a function of the call

For containers that may remove any one of several equivalent elements the abstract transition is a relation
`Rel t call answer t'`.  Preconditions refer to an abstract state `κ` that does evolve deterministically (a size). -/

/-- The answers are those of some run of the abstract transition relation. -/
def RunOk {τ ι ο} (Rel : τ → ι → ο → τ → Prop) : τ → List ι → List ο → Prop
  | _, [], [] => True
  | t, i :: is, o :: os => ∃ t', Rel t i o t' ∧ RunOk Rel t' is os
  | _, _, _ => False

/-- Refinement for relational specifications. -/
theorem refineR {σ τ κ ι ο} {step : σ → ι → M (σ × ο)} {Pre : κ → ι → Prop} {next : κ → ι → κ}
    {Rel : τ → ι → ο → τ → Prop} {Sim : σ → τ → κ → Prop}
    (h : ∀ s t k i, Sim s t k → Pre k i → Tot (step s i) fun r => ∃ t', Rel t i r.2 t' ∧ Sim r.1 t' (next k i))
    {s : σ} {t : τ} {k : κ} {is : List ι} (h0 : Sim s t k) (hv : ValidOps Pre next k is) :
    Tot (runOps step s is) fun r => RunOk Rel t is r.2 := by
  induction is generalizing s t k with
  | nil => exact ⟨_, rfl, trivial⟩
  | cons i is ih =>
    refine Tot.bind (h s t k i h0 hv.1) fun r hr => ?_
    obtain ⟨t', h1, h2⟩ := hr
    refine Tot.bind (ih h2 hv.2) fun r' hr' => ?_
    exact Tot.pure ⟨t', h1, hr'⟩

/-- A strict weak order, the requirement *Compare* of the C++ standard. -/
structure StrictWeak {α} (lt : α → α → Bool) : Prop where
  irrefl : ∀ x, lt x x = false
  trans : ∀ x y z, lt x y = true → lt y z = true → lt x z = true
  neg : ∀ x y z, lt x y = false → lt y z = false → lt x z = false

theorem StrictWeak.asymm {α} {lt : α → α → Bool} (h : StrictWeak lt) {x y : α} (hxy : lt x y = true) : lt y x = false := by
  by_contra hc
  rw [Bool.not_eq_false] at hc
  have := h.trans _ _ _ hxy hc
  rw [h.irrefl] at this
  cases this

theorem StrictWeak.swap {α} {lt : α → α → Bool} (h : StrictWeak lt) : StrictWeak fun x y => lt y x :=
  ⟨h.irrefl, fun x y z a b => h.trans _ _ _ b a, fun x y z a b => h.neg _ _ _ b a⟩

/-- `omega` after reducing projections in the goal. -/
macro "om" : tactic => `(tactic| first | omega | (dsimp only; omega))

/-! ### Array facts used throughout -/

@[simp] theorem get?_set {α} (a : Array α) (i j : Nat) (x : α) (h : i < a.size) :
    (a.setIfInBounds i x)[j]? = if i = j then some x else a[j]? := by
  rw [Array.getElem?_setIfInBounds]; split <;> simp_all

/-- Total view of an array: `d` outside of the bounds. Used in invariants only. -/
def at' {α} (d : α) (a : Array α) (i : Nat) : α := a[i]?.getD d

theorem rd_at {α} (d : α) {a : Array α} {i : Nat} (h : i < a.size) : rd a i = .ok (at' d a i) := by
  simp [rd, at', h]

theorem at_set {α} (d : α) {a : Array α} {i : Nat} (h : i < a.size) (x : α) (j : Nat) :
    at' d (a.setIfInBounds i x) j = if i = j then x else at' d a j := by
  unfold at'; rw [get?_set _ _ _ _ h]; split <;> rfl

theorem at_ge {α} (d : α) {a : Array α} {i : Nat} (h : a.size ≤ i) : at' d a i = d := by
  simp [at', h]

end Cxx
