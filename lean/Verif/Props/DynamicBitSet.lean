import Verif.Proof.DynamicBitSet3

/-!
# Bit sets of changing size: properties C172, C173, C174
-/

namespace DynamicBitSet
open Cxx

/-- The objects represent the lists, whose lengths are below 2^31. -/
structure Sim (os : Array BS) (t : List (List Bool)) : Prop where
  size : os.size = t.length
  rep : ∀ x, x < t.length → Rep (at' ⟨0, #[]⟩ os x) (Spec.obj t x)
  lt : ∀ x, x < t.length → (Spec.obj t x).length < 2 ^ 31

theorem obj_append {t : List (List Bool)} {l : List Bool} {x : Nat} (hx : x < (t ++ [l]).length) : Spec.obj (t ++ [l]) x = if x = t.length then l else Spec.obj t x := by
  unfold Spec.obj
  rw [List.length_append, List.length_singleton] at hx
  by_cases e : x = t.length
  · subst e; simp
  · rw [if_neg e, List.getElem?_append_left (by omega)]

theorem mk_tot {os : Array BS} {t : List (List Bool)} (h : Sim os t) {m : M BS} {l : List Bool} (hm : Tot m fun s => Rep s l) (hl : l.length < 2 ^ 31) :
    Tot (mk os m) fun r => Sim r.1 (t ++ [l]) ∧ r.2 = .unit := by
  unfold mk
  refine Tot.bind hm fun s hs => Tot.pure ⟨⟨by simp [h.size], fun x hx => ?_, fun x hx => ?_⟩, rfl⟩
  · have hx' := hx
    rw [List.length_append, List.length_singleton] at hx'
    rw [obj_append hx]
    dsimp only
    by_cases e : x = t.length
    · rw [if_pos e, e, ← h.size]
      simpa [at'] using hs
    · rw [if_neg e]
      have := h.rep x (by omega)
      rw [at', Array.getElem?_push, if_neg (by rw [h.size]; exact e)]
      exact this
  · have hx' := hx
    rw [List.length_append, List.length_singleton] at hx'
    rw [obj_append hx]
    split
    · exact hl
    · exact h.lt x (by omega)

theorem rd_obj {os : Array BS} {t : List (List Bool)} (h : Sim os t) {x : Nat} (hx : x < t.length) : rd os x = .ok (at' ⟨0, #[]⟩ os x) :=
  rd_at _ (by rw [h.size]; exact hx)

theorem upd_tot {os : Array BS} {t : List (List Bool)} (h : Sim os t) {x : Nat} (hx : x < t.length) {f : BS → M BS} {l : List Bool}
    (hm : ∀ s, Rep s (Spec.obj t x) → Tot (f s) fun s => Rep s l) (hl : l.length < 2 ^ 31) : Tot (upd os x f) fun r => Sim r.1 (t.set x l) ∧ r.2 = .unit := by
  have hx' : x < os.size := by rw [h.size]; exact hx
  unfold upd
  rw [rd_obj h hx, ok_bind]
  refine Tot.bind (hm _ (h.rep x hx)) fun s hs => ?_
  rw [wr_eq hx', ok_bind]
  have ho : ∀ y, Spec.obj (t.set x l) y = if x = y then l else Spec.obj t y := by
    intro y
    unfold Spec.obj
    rw [List.getElem?_set]
    by_cases e : x = y
    · subst e; simp [hx]
    · simp [e]
  refine Tot.pure ⟨⟨by simp [h.size], fun y hy => ?_, fun y hy => ?_⟩, rfl⟩
  · rw [List.length_set] at hy
    dsimp only
    rw [ho, at_set _ hx']
    split
    · exact hs
    · exact h.rep y hy
  · rw [List.length_set] at hy
    rw [ho]
    split
    · exact hl
    · exact h.lt y hy

theorem ask_tot {os : Array BS} {t : List (List Bool)} (h : Sim os t) {x : Nat} (hx : x < t.length) {f : BS → M Out} {A : Out → Prop}
    (hm : ∀ s, Rep s (Spec.obj t x) → Tot (f s) A) : Tot (ask os x f) fun r => Sim r.1 t ∧ A r.2 := by
  unfold ask
  rw [rd_obj h hx, ok_bind]
  exact Tot.bind (hm _ (h.rep x hx)) fun a ha => Tot.pure ⟨h, ha⟩

theorem two {α : Type} {os : Array BS} {t : List (List Bool)} (h : Sim os t) {y : Nat} (hy : y < t.length) {f : BS → M α} {A : α → Prop}
    (hm : ∀ s, Rep s (Spec.obj t y) → Tot (f s) A) : Tot (rd os y >>= f) A := by
  rw [rd_obj h hy, ok_bind]
  exact hm _ (h.rep y hy)

theorem not_iff_of {b : Bool} {p : Prop} (h : b = true ↔ p) : (!b) = true ↔ ¬ p := by
  rw [Bool.not_eq_true', ← Bool.not_eq_true, h]

theorem step_tot (os : Array BS) (t : List (List Bool)) (i : Op) (h : Sim os t) (hp : Spec.Pre t i) :
    Tot (step os i) fun r => Sim r.1 (Spec.next t i) ∧ Spec.Ans t i r.2 := by
  cases i with
  | make n fill => exact mk_tot h (Tot.pure (list_rep _ _ (make_rep n fill) (by simp) fun i hi => by simp [Spec.get, hi])) (by simpa [Spec.Pre] using hp)
  | copy x => exact mk_tot h (by rw [rd_obj h hp]; exact Tot.pure (h.rep x hp)) (h.lt x hp)
  | and x y =>
    exact mk_tot h (two h hp.1 fun s hs => two h hp.2.1 fun u hu => zip_tot (fun a b o => BitVec.getLsbD_and) hs hu hp.2.2)
      (by rw [List.length_zipWith]; have := h.lt x hp.1; omega)
  | or x y =>
    exact mk_tot h (two h hp.1 fun s hs => two h hp.2.1 fun u hu => zip_tot (fun a b o => BitVec.getLsbD_or) hs hu hp.2.2)
      (by rw [List.length_zipWith]; have := h.lt x hp.1; omega)
  | xor x y =>
    exact mk_tot h (two h hp.1 fun s hs => two h hp.2.1 fun u hu => zip_tot (fun a b o => BitVec.getLsbD_xor) hs hu hp.2.2)
      (by rw [List.length_zipWith]; have := h.lt x hp.1; omega)
  | shiftLeft x k => exact mk_tot h (two h hp fun s hs => shiftLeft_tot hs k) (by rw [Spec.shiftLeft, length_tab]; exact h.lt x hp)
  | shiftRight x k => exact mk_tot h (two h hp fun s hs => shiftRight_tot hs k) (by rw [Spec.shiftRight, length_tab]; exact h.lt x hp)
  | compl x => exact mk_tot h (two h hp fun s hs => compl_tot hs) (by rw [List.length_map]; exact h.lt x hp)
  | andEq x y =>
    exact upd_tot h hp.1 (fun s hs => two h hp.2.1 fun u hu => zip_tot (fun a b o => BitVec.getLsbD_and) hs hu hp.2.2)
      (by rw [List.length_zipWith]; have := h.lt x hp.1; omega)
  | orEq x y =>
    exact upd_tot h hp.1 (fun s hs => two h hp.2.1 fun u hu => zip_tot (fun a b o => BitVec.getLsbD_or) hs hu hp.2.2)
      (by rw [List.length_zipWith]; have := h.lt x hp.1; omega)
  | xorEq x y =>
    exact upd_tot h hp.1 (fun s hs => two h hp.2.1 fun u hu => zip_tot (fun a b o => BitVec.getLsbD_xor) hs hu hp.2.2)
      (by rw [List.length_zipWith]; have := h.lt x hp.1; omega)
  | shiftLeftEq x k => exact upd_tot h hp (fun s hs => shiftLeft_tot hs k) (by rw [Spec.shiftLeft, length_tab]; exact h.lt x hp)
  | shiftRightEq x k => exact upd_tot h hp (fun s hs => shiftRight_tot hs k) (by rw [Spec.shiftRight, length_tab]; exact h.lt x hp)
  | resize x m fill => exact upd_tot h hp.1 (fun s hs => resize_tot hs m fill) (by rw [Spec.resize, length_tab]; exact hp.2)
  | pushBack x v => exact upd_tot h hp.1 (fun s hs => pushBack_tot hs v) (by rw [List.length_append]; exact hp.2)
  | popBack x => exact upd_tot h hp.1 (fun s hs => popBack_tot hs hp.2 (h.lt x hp.1)) (by rw [List.length_dropLast]; have := h.lt x hp.1; omega)
  | assign x i v => exact upd_tot h hp.1 (fun s hs => assign_tot hs hp.2 v) (by rw [List.length_set]; exact h.lt x hp.1)
  | flip x i => exact upd_tot h hp.1 (fun s hs => flip_tot hs hp.2) (by rw [List.length_set]; exact h.lt x hp.1)
  | bitAnd x i v => exact hp.elim
  | bitOr x i v => exact upd_tot h hp.1 (fun s hs => bitOr_tot hs hp.2 v) (by rw [List.length_set]; exact h.lt x hp.1)
  | bitXor x i v => exact upd_tot h hp.1 (fun s hs => bitXor_tot hs hp.2 v) (by rw [List.length_set]; exact h.lt x hp.1)
  | rangeSet x l r => exact upd_tot h hp.1 (fun s hs => range_bits rangeSet_bits hs hp.2.1 hp.2.2) (by rw [Spec.range, length_tab]; exact h.lt x hp.1)
  | rangeReset x l r => exact upd_tot h hp.1 (fun s hs => range_bits rangeReset_bits hs hp.2.1 hp.2.2) (by rw [Spec.range, length_tab]; exact h.lt x hp.1)
  | rangeFlip x l r => exact upd_tot h hp.1 (fun s hs => range_bits rangeFlip_bits hs hp.2.1 hp.2.2) (by rw [Spec.range, length_tab]; exact h.lt x hp.1)
  | rangeUpdate x l r v =>
    exact upd_tot h hp.1 (fun s hs => range_bits (F := fun s l r => rangeUpdate s l r v) (rangeUpdate_bits v) hs hp.2.1 hp.2.2) (by rw [Spec.range, length_tab]; exact h.lt x hp.1)
  | set x => exact upd_tot h hp (fun s hs => Tot.pure (setAll_rep hs true)) (by rw [List.length_map]; exact h.lt x hp)
  | reset x => exact upd_tot h hp (fun s hs => Tot.pure (setAll_rep hs false)) (by rw [List.length_map]; exact h.lt x hp)
  | size x => exact ask_tot (A := Spec.Ans t (.size x)) h hp fun s hs => Tot.pure hs.n_eq
  | test x i => exact ask_tot (A := Spec.Ans t (.test x i)) h hp.1 fun s hs => Tot.bind (test_tot hs hp.2) fun r hr => Tot.pure hr
  | rangeCount x l r => exact ask_tot (A := Spec.Ans t (.rangeCount x l r)) h hp.1 fun s hs => Tot.bind (rangeCount_tot hs hp.2.1 hp.2.2) fun r hr => Tot.pure hr
  | all x => exact ask_tot (A := Spec.Ans t (.all x)) h hp.1 fun s hs => Tot.bind (all_tot hs hp.2) fun r hr => Tot.pure hr
  | none x => exact ask_tot (A := Spec.Ans t (.none x)) h hp fun s hs => Tot.bind (none_tot hs) fun r hr => Tot.pure hr
  | any x => exact ask_tot (A := Spec.Ans t (.any x)) h hp fun s hs => Tot.bind (any_tot hs) fun r hr => Tot.pure hr
  | count x => exact ask_tot (A := Spec.Ans t (.count x)) h hp fun s hs => Tot.bind (count_tot hs) fun r hr => Tot.pure hr
  | findFirst x => exact ask_tot (A := Spec.Ans t (.findFirst x)) h hp fun s hs => Tot.bind (findFirst_tot hs) fun r hr => Tot.pure hr
  | findNext x p => exact ask_tot (A := Spec.Ans t (.findNext x p)) h hp.1 fun s hs => Tot.bind (findNext_tot hs hp.2) fun r hr => Tot.pure hr
  | hasIntersection x y =>
    exact ask_tot (A := Spec.Ans t (.hasIntersection x y)) h hp.1 fun s hs => two h hp.2 fun u hu => Tot.bind (hasIntersection_tot hs hu) fun r hr => Tot.pure hr
  | isDisjoint x y =>
    exact ask_tot (A := Spec.Ans t (.isDisjoint x y)) h hp.1 fun s hs => two h hp.2 fun u hu => Tot.bind (hasIntersection_tot hs hu) fun r hr => Tot.pure (not_iff_of hr)
  | eq x y => exact ask_tot (A := Spec.Ans t (.eq x y)) h hp.1 fun s hs => two h hp.2 fun u hu => Tot.bind (eq_tot hs hu) fun r hr => Tot.pure hr
  | ne x y => exact ask_tot (A := Spec.Ans t (.ne x y)) h hp.1 fun s hs => two h hp.2 fun u hu => Tot.bind (eq_tot hs hu) fun r hr => Tot.pure (not_iff_of hr)
  | lt x y =>
    exact ask_tot (A := Spec.Ans t (.lt x y)) h hp.1 fun s hs => two h hp.2.1 fun u hu => Tot.bind (cmp_tot hs hu hp.2.2 false) fun r hr => Tot.pure (by
      simpa [Spec.Ans] using hr)
  | le x y =>
    exact ask_tot (A := Spec.Ans t (.le x y)) h hp.1 fun s hs => two h hp.2.1 fun u hu => Tot.bind (cmp_tot hs hu hp.2.2 true) fun r hr => Tot.pure (by
      simpa [Spec.Ans, Nat.le_iff_lt_or_eq] using hr)
  | gt x y =>
    exact ask_tot (A := Spec.Ans t (.gt x y)) h hp.1 fun s hs => two h hp.2.1 fun u hu => Tot.bind (cmp_tot hs hu hp.2.2 true) fun r hr => Tot.pure (by
      show (!r) = true ↔ _
      rw [not_iff_of hr]
      simp only [true_and]
      omega)
  | ge x y =>
    exact ask_tot (A := Spec.Ans t (.ge x y)) h hp.1 fun s hs => two h hp.2.1 fun u hu => Tot.bind (cmp_tot hs hu hp.2.2 false) fun r hr => Tot.pure (by
      show (!r) = true ↔ _
      rw [not_iff_of hr]
      simp)

/-- **C172.** In every history of calls on a family of `DynamicBitSet` objects with arguments in range, without `s[i] &= val` and without `all()` on a size that is a positive multiple of 64, no call fails and every answer is that of the lists of bits. -/
theorem history (ops : List Op) (hv : ValidOps Spec.Pre Spec.next [] ops) :
    ∃ os outs, runOps step #[] ops = .ok (os, outs) ∧ TraceOk Spec.next Spec.Ans [] ops outs := by
  obtain ⟨r, e, -, ht⟩ := Cxx.refine (Ans := Spec.Ans) step_tot (s := #[]) (t := []) ⟨rfl, fun x hx => by simp at hx, fun x hx => by simp at hx⟩ hv
  exact ⟨r.1, r.2, e, ht⟩

/-- The hypothesis of `history` holds for a history with blocks of both kinds. -/
example : ValidOps Spec.Pre Spec.next [] [.make 3 true, .pushBack 0 false, .resize 0 70 true, .make 70 false, .rangeSet 1 0 3, .xor 0 1, .shiftRight 2 65, .compl 3,
    .all 4, .findNext 2 3, .lt 0 1, .popBack 0, .hasIntersection 0 1, .resize 0 2 false, .shiftLeftEq 0 1, .count 0, .eq 0 1, .rangeCount 2 1 69] := by
  simp [ValidOps, Spec.Pre, Spec.next, Spec.obj, Spec.resize, Spec.range, Spec.shiftRight, Spec.shiftLeft, length_tab]

/-- The answers of a short history. -/
example : (runOps step #[] [.make 3 true, .resize 0 70 false, .pushBack 0 true, .count 0, .findNext 0 2, .shiftRight 0 70, .test 1 0, .all 0] >>= fun r => .ok r.2)
    = .ok [.unit, .unit, .unit, .int 4, .int 70, .unit, .bool true, .bool false] := by decide +kernel

/-- **C173 (violated).** After `DynamicBitSet s(2, true); s[0] &= true;` the bit `s[1]` is false: the call clears all other bits of the block. -/
theorem bitAnd_counterexample : ∃ os, runOps step #[] [.make 2 true, .bitAnd 0 0 true, .test 0 0, .test 0 1] = .ok (os, [.unit, .unit, .bool true, .bool false]) :=
  ⟨#[⟨2, #[1]⟩], by decide +kernel⟩

/-- **C173, part.** `s[i] &= val` gives bit `i` the right value and keeps the bits of the other blocks; the other bits of the block of `i` become false. Missing: the other bits keep their values. -/
theorem bitAnd_partial {s : BS} {l : List Bool} (h : Rep s l) {i : Nat} (hi : i < l.length) (v : Bool) :
    ∃ s' l', bitAnd s i v = .ok s' ∧ Rep s' l' ∧ l'.length = l.length ∧ Spec.get l' i = (Spec.get l i && v) ∧
      (∀ j, j < l.length → j / 64 ≠ i / 64 → Spec.get l' j = Spec.get l j) ∧ ∀ j, j < l.length → j / 64 = i / 64 → j ≠ i → Spec.get l' j = false := by
  have hb' : i / 64 < s.blocks.size := by have := h.lt hi; omega
  have e : bitAnd s i v = .ok { s with blocks := s.blocks.setIfInBounds (i / 64) (at' 0 s.blocks (i / 64) &&& ((if v then 1 else 0 : Block) <<< (i % 64))) } := by
    unfold bitAnd
    rw [rd_at 0 hb', ok_bind, shl_eq _ (by omega), ok_bind, wr_eq hb', ok_bind]
    rfl
  obtain ⟨f, hf⟩ : ∃ f : Nat → Bool, f = fun j => if j / 64 = i / 64 then (Spec.get l j && (decide (j = i) && v)) else Spec.get l j := ⟨_, rfl⟩
  refine ⟨_, Spec.tab l.length f, e, R.tab (R.of_bits h rfl (by simp) fun j hj => ?_), length_tab _ _, ?_, fun j hj hne => ?_, fun j hj he hne => ?_⟩
  · dsimp only
    rw [bit_set hb', hf]
    dsimp only
    by_cases hj' : j / 64 = i / 64
    · rw [if_pos hj', if_pos hj', BitVec.getLsbD_and, ← hj']
      have e1 : (at' 0 s.blocks (j / 64)).getLsbD (j % 64) = Spec.get l j := h.bits j hj
      rw [e1]
      congr 1
      cases v with
      | true =>
        simp only [if_true]
        rw [one_shl_bit (by omega), Bool.and_true, decide_eq_decide]
        omega
      | false => simp
    · rw [if_neg hj', if_neg hj']
      exact h.bits j hj
  · rw [get_tab f hi, hf]; simp
  · rw [get_tab f hj, hf]; simp [hne]
  · rw [get_tab f hj, hf]; simp [he, hne]

/-- The hypotheses of `bitAnd_partial` hold. -/
example : Rep (make 70 true) (Spec.tab 70 fun _ => true) ∧ 69 < (Spec.tab 70 fun _ => true).length := ⟨R.tab (make_rep 70 true), by simp [length_tab]⟩

/-- **C174 (violated).** `DynamicBitSet(64).all()` and `DynamicBitSet(64, true).all()`: the second shifts a block by 64, which is undefined. -/
theorem all_counterexample : runOps step #[] [.make 64 true, .all 0] = .error .ub := by decide +kernel

/-- **C174, part.** `all()` is right for the size 0 and for sizes that are no multiple of 64. Missing: positive multiples of 64. -/
theorem all_partial {s : BS} {l : List Bool} (h : Rep s l) (hm : l.length = 0 ∨ l.length % 64 ≠ 0) :
    ∃ b, all s = .ok b ∧ (b = true ↔ ∀ v ∈ l, v = true) := all_tot h hm

example : Rep (make 65 true) (Spec.tab 65 fun _ => true) ∧ ((Spec.tab 65 fun _ => true).length = 0 ∨ (Spec.tab 65 fun _ => true).length % 64 ≠ 0) :=
  ⟨R.tab (make_rep 65 true), by simp [length_tab]⟩

end DynamicBitSet
