import Verif.Model.DefaultVector

/-!
# Properties of `library/util/default_vector.hpp`
-/

namespace DefaultVector
open Cxx
variable {T : Type}

/-! ### Specification: an infinite sequence, of which the first `len` elements are stored -/

/-- The sequence, the number of stored elements and the default value. -/
structure Seq (T : Type) where
  f : Nat → T
  len : Nat
  d : T

/-- Indices and sizes are not negative. -/
def Pre (_ : Seq T) : Op T → Prop
  | .setDefault _ | .size => True
  | .get _ | .getOr _ _ => True
  | .read i | .write i _ | .resize i => 0 ≤ i

/-- The effect of a call. -/
def next (S : Seq T) : Op T → Seq T
  | .setDefault d => ⟨fun j => if j < S.len then S.f j else d, S.len, d⟩
  | .get _ | .getOr _ _ | .size => S
  | .read i => ⟨S.f, max S.len (i.toNat + 1), S.d⟩
  | .write i x => ⟨fun j => if j = i.toNat then x else S.f j, max S.len (i.toNat + 1), S.d⟩
  | .resize n => ⟨fun j => if j < n.toNat then S.f j else S.d, n.toNat, S.d⟩

/-- The result of a call. -/
def Ans (S : Seq T) : Op T → Out T → Prop
  | .get i, o => o = .val (if i < 0 then S.d else S.f i.toNat)
  | .getOr i d, o => o = .val (if 0 ≤ i ∧ i.toNat < S.len then S.f i.toNat else d)
  | .read i, o => o = .val (S.f i.toNat)
  | .size, o => o = .num S.len
  | _, o => o = .unit

/-- The sequence of a vector with a default value. -/
def seq (v : Array T) (d : T) : Seq T := ⟨fun j => v[j]?.getD d, v.size, d⟩

/-! ### Proof -/

structure Sim (s : State T) (S : Seq T) : Prop where
  d : s.dflt = some S.d
  len : s.v.size = S.len
  val : ∀ j < S.len, s.v[j]? = some (S.f j)
  out : ∀ j, S.len ≤ j → S.f j = S.d

variable {s : State T} {S : Seq T}

theorem use_eq (h : Sim s S) : useDefault s = .ok S.d := by
  unfold useDefault
  rw [h.d]

theorem oob_iff (s : State T) (i : Int) : oob s i = true ↔ i < 0 ∨ (s.v.size : Int) ≤ i := by
  unfold oob; exact decide_eq_true_iff

theorem resize_tot (h : Sim s S) {n : Int} (hn : 0 ≤ n) : Tot (resize s n) fun s' => Sim s' (next S (.resize n)) := by
  have hl := h.len
  unfold resize
  rw [if_neg (by omega)]
  by_cases hc : n ≤ (s.v.size : Int)
  · rw [if_pos hc]
    refine Tot.pure ⟨h.d, ?_, ?_, ?_⟩
    · simp [next]; omega
    · intro j hj
      dsimp only [next] at hj ⊢
      rw [if_pos hj]
      rw [Array.getElem?_extract]
      have := h.val j (by omega)
      simp only [Nat.zero_add, Nat.sub_zero]
      rw [if_pos (by omega), this]
    · intro j hj
      dsimp only [next] at hj ⊢
      rw [if_neg (by omega)]
  · rw [if_neg hc, use_eq h, ok_bind]
    refine Tot.pure ⟨h.d, ?_, ?_, ?_⟩
    · simp [next]; omega
    · intro j hj
      dsimp only [next] at hj ⊢
      rw [if_pos hj, Array.getElem?_append]
      by_cases hj' : j < s.v.size
      · rw [if_pos hj', h.val j (by omega)]
      · rw [if_neg hj', h.out j (by omega), Array.getElem?_replicate, if_pos (by omega)]
    · intro j hj
      dsimp only [next] at hj ⊢
      rw [if_neg (by omega)]

theorem grow_tot (h : Sim s S) {i : Int} (hi : 0 ≤ i) : Tot (grow s i) fun s' => Sim s' (next S (.read i)) := by
  have hl := h.len
  unfold grow
  by_cases hc : oob s i = true
  · rw [if_pos hc]
    have hc' := (oob_iff s i).mp hc
    refine Tot.mono (resize_tot h (show 0 ≤ i + 1 by omega)) fun s' h' => ?_
    have e : next S (.resize (i + 1)) = next S (.read i) := by
      dsimp only [next]
      congr 1
      · funext j
        split
        · rfl
        · exact (h.out j (by omega)).symm
      · omega
    rw [← e]
    exact h'
  · rw [if_neg hc]
    have hc' : ¬ (i < 0 ∨ (s.v.size : Int) ≤ i) := fun h' => hc ((oob_iff s i).mpr h')
    refine Tot.pure ?_
    have e : next S (.read i) = S := by
      dsimp only [next]
      rw [show max S.len (i.toNat + 1) = S.len by omega]
    rw [e]
    exact h

theorem step_tot (s : State T) (S : Seq T) (c : Op T) (h : Sim s S) (hp : Pre S c) :
    Tot (step s c) fun r => Sim r.1 (next S c) ∧ Ans S c r.2 := by
  have hl := h.len
  cases c with
  | setDefault d =>
    refine Tot.pure ⟨⟨rfl, h.len, ?_, ?_⟩, rfl⟩
    · intro j hj
      dsimp only [next] at hj ⊢
      rw [if_pos hj]; exact h.val j hj
    · intro j hj
      dsimp only [next] at hj ⊢
      rw [if_neg (by omega)]
  | get i =>
    dsimp only [step]
    unfold get
    by_cases hc : oob s i = true
    · have hc' := (oob_iff s i).mp hc
      rw [if_pos hc, use_eq h, ok_bind]
      refine Tot.pure ⟨h, ?_⟩
      dsimp only [Ans]
      split
      · rfl
      · rw [h.out _ (by omega)]
    · have hc' : ¬ (i < 0 ∨ (s.v.size : Int) ≤ i) := fun h' => hc ((oob_iff s i).mpr h')
      rw [if_neg hc, rd_some (h.val _ (by omega)), ok_bind]
      refine Tot.pure ⟨h, ?_⟩
      dsimp only [Ans]
      rw [if_neg (by omega)]
  | getOr i d =>
    dsimp only [step]
    unfold getOr
    by_cases hc : oob s i = true
    · have hc' := (oob_iff s i).mp hc
      rw [if_pos hc, ok_bind]
      refine Tot.pure ⟨h, ?_⟩
      dsimp only [Ans]
      rw [if_neg (by omega)]
    · have hc' : ¬ (i < 0 ∨ (s.v.size : Int) ≤ i) := fun h' => hc ((oob_iff s i).mpr h')
      rw [if_neg hc, rd_some (h.val _ (by omega)), ok_bind]
      refine Tot.pure ⟨h, ?_⟩
      dsimp only [Ans]
      rw [if_pos (by omega)]
  | read i =>
    have hi : 0 ≤ i := hp
    dsimp only [step]
    unfold readRef
    obtain ⟨s', e, h'⟩ := grow_tot h hi
    rw [e, ok_bind, if_neg (by omega), rd_some (h'.val i.toNat (by dsimp only [next]; omega)), ok_bind, pure_eq, ok_bind]
    exact Tot.pure ⟨h', rfl⟩
  | write i x =>
    have hi : 0 ≤ i := hp
    dsimp only [step]
    unfold writeRef
    obtain ⟨s', e, h'⟩ := grow_tot h hi
    have hl' := h'.len
    dsimp only [next] at hl'
    rw [e, ok_bind, if_neg (by omega), wr_eq (by omega), ok_bind, pure_eq, ok_bind]
    refine Tot.pure ⟨⟨h'.d, by simpa [next] using hl', fun j hj => ?_, fun j hj => ?_⟩, rfl⟩
    · dsimp only [next] at hj ⊢
      rw [Array.getElem?_setIfInBounds]
      by_cases hji : i.toNat = j
      · rw [if_pos hji, if_pos (by omega), if_pos hji.symm]
      · rw [if_neg hji, if_neg (Ne.symm hji)]
        exact h'.val j hj
    · dsimp only [next] at hj ⊢
      rw [if_neg (by omega)]
      exact h'.out j hj
  | resize n =>
    obtain ⟨s', e, h'⟩ := resize_tot h (show 0 ≤ n from hp)
    dsimp only [step]
    rw [e, ok_bind]
    exact Tot.pure ⟨h', rfl⟩
  | size =>
    exact Tot.pure ⟨h, by dsimp only [Ans]; rw [hl]⟩

/-- C212: once a default value is set, a `default_vector` is an infinite sequence: after any history of calls with indices that are not negative,
reads of any index return the element last written, or else the initial element, or else the default value; reads and writes beyond the
end make the vector longer, elements beyond the size follow `set_default_value`, and stored ones do not. -/
theorem defaultVector_correct (v : Array T) (d : T) (old : Option T) (ops : List (Op T)) (hv : ValidOps Pre next (seq v d) ops) :
    Tot (runOps step ⟨v, old⟩ (.setDefault d :: ops)) fun r => TraceOk next Ans (seq v d) (.setDefault d :: ops) r.2 := by
  have h0 : Sim ⟨v, some d⟩ (seq v d) := by
    refine ⟨rfl, rfl, fun j hj => ?_, fun j hj => ?_⟩
    · dsimp only [seq] at hj ⊢
      rw [Array.getElem?_eq_getElem hj]; rfl
    · dsimp only [seq] at hj ⊢
      rw [Array.getElem?_eq_none hj]; rfl
  have e : next (seq v d) (.setDefault d) = seq v d := by
    dsimp only [next, seq]
    congr 1
    funext j
    split
    · rfl
    · rw [Array.getElem?_eq_none (by omega)]; rfl
  obtain ⟨r, hr, -, ht⟩ := refine (Sim := Sim) step_tot h0 hv
  refine ⟨(r.1, .unit :: r.2), ?_, rfl, ?_⟩
  · unfold runOps
    dsimp only [step]
    rw [ok_bind, hr]
    rfl
  · rw [e]; exact ht

instance (S : Seq T) (c : Op T) : Decidable (Pre S c) := by
  cases c <;> unfold Pre <;> infer_instance

/-- A history with growth by a read, a new default value, a shrinking and a negative index in a `const` read. -/
example : ValidOps Pre next (seq #[1, 2] 7) [.read 4, .setDefault 9, .get 4, .get 6, .resize 1, .write 3 5, .get (-1), .size] := by
  decide +kernel

/-- C213, violated: without a call of `set_default_value` the elements beyond the end are indeterminate; reading one is undefined, and so is growing. -/
theorem unset_counterexample (v : Array T) (i : Nat) (hi : v.size ≤ i) (x : T) :
    get ⟨v, none⟩ i = .error .ub ∧ readRef ⟨v, none⟩ i = .error .ub ∧ writeRef ⟨v, none⟩ i x = .error .ub ∧ resize ⟨v, none⟩ (i + 1) = .error .ub := by
  have ho : oob (⟨v, none⟩ : State T) i = true := (oob_iff _ _).mpr (Or.inr (by dsimp only; omega))
  have hr : resize (⟨v, none⟩ : State T) ((i : Int) + 1) = .error .ub := by
    unfold resize
    rw [if_neg (by omega), if_neg (by dsimp only; omega)]
    rfl
  refine ⟨?_, ?_, ?_, hr⟩
  · unfold get
    rw [if_pos ho]
    rfl
  · unfold readRef grow
    rw [if_pos ho, hr]
    rfl
  · unfold writeRef grow
    rw [if_pos ho, hr]
    rfl

/-- The hypothesis is met by any vector and an index beyond its end. -/
example : (#[1, 2] : Array Nat).size ≤ 5 := by decide

/-- C213, the part that holds: without a default value, reads and writes within the vector are right. -/
theorem unset_partial (v : Array T) (old : Option T) (i : Nat) (hi : i < v.size) (x : T) :
    get ⟨v, old⟩ i = .ok v[i] ∧ readRef ⟨v, old⟩ i = .ok (⟨v, old⟩, v[i]) ∧ writeRef ⟨v, old⟩ i x = .ok ⟨v.set i x, old⟩ := by
  have ho : ¬ oob (⟨v, old⟩ : State T) i = true := fun h => by
    have := (oob_iff _ _).mp h
    dsimp only at this
    omega
  refine ⟨?_, ?_, ?_⟩
  · unfold get
    rw [if_neg ho, Int.toNat_natCast]
    exact rd_eq hi
  · unfold readRef grow
    rw [if_neg ho, ok_bind, if_neg (by omega), Int.toNat_natCast, rd_eq hi]
    rfl
  · unfold writeRef grow
    rw [if_neg ho, ok_bind, if_neg (by omega), Int.toNat_natCast, wr_eq hi, ok_bind]
    simp [Array.setIfInBounds, hi, pure_eq]

/-- C213: `v[-1]` is not the default value in a vector that is not `const`: all elements are removed, and then memory before the vector is accessed. -/
theorem negative_undefined (v : Array T) (old : Option T) (x : T) :
    grow ⟨v, old⟩ (-1) = .ok ⟨#[], old⟩ ∧ readRef ⟨v, old⟩ (-1) = .error .ub ∧ writeRef ⟨v, old⟩ (-1) x = .error .ub := by
  have hg : grow (⟨v, old⟩ : State T) (-1) = .ok ⟨#[], old⟩ := by
    unfold grow
    rw [if_pos ((oob_iff _ _).mpr (Or.inl (by omega)))]
    unfold resize
    rw [if_neg (by omega), if_pos (by dsimp only; omega)]
    simp
  refine ⟨hg, ?_, ?_⟩
  · unfold readRef
    rw [hg]
    rfl
  · unfold writeRef
    rw [hg]
    rfl

end DefaultVector
