import Verif.Spec.PersistentArray
import Mathlib.Algebra.BigOperators.Intervals
import Mathlib.Tactic.Ring
import Mathlib.Algebra.Order.BigOperators.Group.Finset

/-! # Persistent arrays: proofs -/

namespace PersistentArray
open Cxx

variable {T : Type}

theorem mask_eq (lg i : Nat) : i &&& (1 <<< lg - 1) = i % 2 ^ lg := by
  rw [Nat.one_shiftLeft, Nat.and_two_pow_sub_one_eq_mod]

theorem shr_eq (lg i : Nat) : i >>> lg = i / 2 ^ lg := Nat.shiftRight_eq_div_pow _ _

theorem down_lt (lg : Nat) {i : Nat} (h : i ≠ 0) : (i - 1) / 2 ^ lg < i :=
  Nat.lt_of_le_of_lt (Nat.div_le_self _ _) (by omega)

/-- The child pointer with number `d` of the node at `p`. -/
def child (h : Heap T) (p : Option Nat) (d : Nat) : Option Nat := (p.bind fun q => h.nodes[q]?).bind fun x => x.ch[d]?.join

/-- The node holding element `i` of the tree at `p`. -/
def slot (lg : Nat) (h : Heap T) (p : Option Nat) (i : Nat) : Option Nat :=
  if i = 0 then p else slot lg h (child h p (i % 2 ^ lg)) ((i - 1) / 2 ^ lg)
termination_by i
decreasing_by exact down_lt lg (by assumption)

/-- Element `i` of the tree at `p`. -/
def val (lg : Nat) (h : Heap T) (p : Option Nat) (i : Nat) : Option T := ((slot lg h p i).bind fun q => h.nodes[q]?).map Nd.val

theorem slot_zero (lg : Nat) (h : Heap T) (p : Option Nat) : slot lg h p 0 = p := by rw [slot, if_pos rfl]
theorem slot_pos (lg : Nat) (h : Heap T) (p : Option Nat) {i : Nat} (hi : i ≠ 0) :
    slot lg h p i = slot lg h (child h p (i % 2 ^ lg)) ((i - 1) / 2 ^ lg) := by rw [slot, if_neg hi]

theorem child_none (h : Heap T) (d : Nat) : child h none d = none := rfl

theorem slot_none (lg : Nat) (h : Heap T) (i : Nat) : slot lg h none i = none := by
  induction i using Nat.strong_induction_on with
  | _ i ih =>
    by_cases hi : i = 0
    · subst hi; exact slot_zero ..
    · rw [slot_pos _ _ _ hi, child_none, ih _ (down_lt lg hi)]

theorem val_zero (lg : Nat) (h : Heap T) (q : Nat) : val lg h (some q) 0 = h.nodes[q]?.map Nd.val := by
  unfold val; rw [slot_zero]; rfl
theorem val_pos (lg : Nat) (h : Heap T) (p : Option Nat) {i : Nat} (hi : i ≠ 0) :
    val lg h p i = val lg h (child h p (i % 2 ^ lg)) ((i - 1) / 2 ^ lg) := by
  unfold val; rw [slot_pos _ _ _ hi]
theorem val_none (lg : Nat) (h : Heap T) (i : Nat) : val lg h none i = none := by
  unfold val; rw [slot_none]; rfl

/-- The label of a node: the index of its element and the step of its subtree. Labels of children. -/
def labCh (lg : Nat) (l : Nat × Nat) (d : Nat) : Nat × Nat := (l.1 + (if d = 0 then 2 ^ lg else d) * l.2, 2 ^ lg * l.2)

/-- The pool is well formed: nodes have `2 ^ lg` child pointers, which point into the pool; labels are consistent. -/
structure WF (lg : Nat) (lab : Nat → Nat × Nat) (h : Heap T) : Prop where
  ar : ∀ (q : Nat) (x : Nd T), h.nodes[q]? = some x → x.ch.size = 2 ^ lg
  cl : ∀ (q : Nat) (x : Nd T) (d c : Nat), h.nodes[q]? = some x → x.ch[d]? = some (some c) → c < h.nodes.size
  lb : ∀ (q : Nat) (x : Nd T) (d c : Nat), h.nodes[q]? = some x → x.ch[d]? = some (some c) → lab c = labCh lg (lab q) d

theorem child_some {h : Heap T} {q d : Nat} {x : Nd T} (hx : h.nodes[q]? = some x) : child h (some q) d = x.ch[d]?.join := by
  unfold child; rw [Option.bind_some, hx]; rfl

theorem child_eq_some {h : Heap T} {p : Option Nat} {d c : Nat} (e : child h p d = some c) :
    ∃ (q : Nat) (x : Nd T), p = some q ∧ h.nodes[q]? = some x ∧ x.ch[d]? = some (some c) := by
  cases p with
  | none => rw [child_none] at e; cases e
  | some q =>
    cases hx : h.nodes[q]? with
    | none => unfold child at e; rw [Option.bind_some, hx] at e; cases e
    | some x =>
      rw [child_some hx] at e
      refine ⟨q, x, rfl, hx, ?_⟩
      cases hd : x.ch[d]? with
      | none => rw [hd] at e; cases e
      | some y => rw [hd] at e; exact congrArg some e

theorem lab_arith (K a p i : Nat) (hi : i ≠ 0) :
    a + (if i % K = 0 then K else i % K) * p + K * p * ((i - 1) / K) = a + p * i := by
  rcases Nat.eq_zero_or_pos K with rfl | hK
  · simp
    split
    · omega
    · ring
  have h1 := Nat.div_add_mod i K
  by_cases h0 : i % K = 0
  · rw [if_pos h0]
    rw [h0] at h1
    obtain ⟨q, hq⟩ : ∃ q, i / K = q := ⟨_, rfl⟩
    rw [hq] at h1
    have hq0 : q ≠ 0 := by rintro rfl; simp at h1; omega
    obtain ⟨q, rfl⟩ : ∃ q', q = q' + 1 := ⟨q - 1, by omega⟩
    have h2 : (i - 1) / K = q := by
      rw [Nat.div_eq_iff hK]
      constructor
      · have : K * (q + 1) = q * K + K := by ring
        omega
      · have : K * (q + 1) = q * K + K := by ring
        omega
    rw [h2, ← h1]
    ring
  · rw [if_neg h0]
    have h2 : (i - 1) / K = i / K := by
      rw [Nat.div_eq_iff hK]
      have : i / K * K = K * (i / K) := by ring
      have := Nat.mod_lt i hK
      omega
    rw [h2]
    conv_rhs => rw [← h1]
    ring

theorem WF.slot_lt {lg : Nat} {lab : Nat → Nat × Nat} {h : Heap T} (w : WF lg lab h) {i : Nat} :
    ∀ {q r : Nat}, q < h.nodes.size → slot lg h (some q) i = some r → r < h.nodes.size := by
  induction i using Nat.strong_induction_on with
  | _ i ih =>
    intro q r hq e
    by_cases hi : i = 0
    · subst hi; rw [slot_zero] at e; cases e; exact hq
    · rw [slot_pos _ _ _ hi] at e
      cases hc : child h (some q) (i % 2 ^ lg) with
      | none => rw [hc, slot_none] at e; cases e
      | some c =>
        rw [hc] at e
        obtain ⟨q', x, e1, hx, hd⟩ := child_eq_some hc
        exact ih _ (down_lt lg hi) (w.cl _ _ _ _ hx hd) e

/-- The node of element `i` carries the label `i`. -/
theorem WF.slot_lab {lg : Nat} {lab : Nat → Nat × Nat} {h : Heap T} (w : WF lg lab h) {i : Nat} :
    ∀ {q r : Nat}, slot lg h (some q) i = some r → (lab r).1 = (lab q).1 + (lab q).2 * i := by
  induction i using Nat.strong_induction_on with
  | _ i ih =>
    intro q r e
    by_cases hi : i = 0
    · subst hi; rw [slot_zero] at e; cases e; simp
    · rw [slot_pos _ _ _ hi] at e
      cases hc : child h (some q) (i % 2 ^ lg) with
      | none => rw [hc, slot_none] at e; cases e
      | some c =>
        rw [hc] at e
        obtain ⟨q', x, e1, hx, hd⟩ := child_eq_some hc
        cases e1
        rw [ih _ (down_lt lg hi) e, w.lb _ _ _ _ hx hd]
        unfold labCh
        exact lab_arith _ _ _ _ hi

/-- Trees in a part of the pool that is closed under child pointers and the same in both pools. -/
theorem slot_congr {lg : Nat} {h h' : Heap T} {B : Nat} (hB : ∀ q, q < B → h'.nodes[q]? = h.nodes[q]?)
    (hcl : ∀ (q : Nat) (x : Nd T) (d c : Nat), q < B → h.nodes[q]? = some x → x.ch[d]? = some (some c) → c < B) {i : Nat} :
    ∀ {q : Nat}, q < B → slot lg h' (some q) i = slot lg h (some q) i ∧ ∀ r, slot lg h (some q) i = some r → r < B := by
  induction i using Nat.strong_induction_on with
  | _ i ih =>
    intro q hq
    by_cases hi : i = 0
    · subst hi; rw [slot_zero, slot_zero]; exact ⟨rfl, fun r e => by cases e; exact hq⟩
    · rw [slot_pos _ _ _ hi, slot_pos _ _ _ hi]
      have hch : child h' (some q) (i % 2 ^ lg) = child h (some q) (i % 2 ^ lg) := by
        unfold child; rw [Option.bind_some, Option.bind_some, hB q hq]
      rw [hch]
      cases hc : child h (some q) (i % 2 ^ lg) with
      | none => rw [slot_none, slot_none]; exact ⟨rfl, fun r e => by cases e⟩
      | some c =>
        obtain ⟨q', x, e1, hx, hd⟩ := child_eq_some hc
        cases e1
        exact ih _ (down_lt lg hi) (hcl _ _ _ _ hq hx hd)

theorem val_congr {lg : Nat} {h h' : Heap T} {B : Nat} (hB : ∀ q, q < B → h'.nodes[q]? = h.nodes[q]?)
    (hcl : ∀ (q : Nat) (x : Nd T) (d c : Nat), q < B → h.nodes[q]? = some x → x.ch[d]? = some (some c) → c < B) {i q : Nat} (hq : q < B) :
    val lg h' (some q) i = val lg h (some q) i := by
  obtain ⟨h1, h2⟩ := slot_congr (lg := lg) hB hcl (i := i) hq
  unfold val
  rw [h1]
  cases e : slot lg h (some q) i with
  | none => rfl
  | some r => rw [Option.bind_some, Option.bind_some, hB r (h2 r e)]

/-! ### Reading -/

theorem walk_tot {lg : Nat} {h : Heap T} {p : Option Nat} {id r : Nat} (e : slot lg h p id = some r)
    (ha : ∀ (q : Nat) (x : Nd T), h.nodes[q]? = some x → x.ch.size = 2 ^ lg) : walk lg h p id = .ok (some r) := by
  rw [← tot_eq]
  unfold walk
  refine Tot.bind (P := fun (s : Option Nat × Nat) => s.1 = some r) ?_ (fun s hs => Tot.pure hs)
  refine Tot.loop (P := fun (s : Option Nat × Nat) => slot lg h s.1 s.2 = some r) (fun s => s.2) ?_ e (by simp)
  rintro ⟨p, i⟩ he
  dsimp only at he
  unfold walkStep
  dsimp only
  by_cases hi : i = 0
  · rw [if_pos hi]
    subst hi
    rw [slot_zero] at he
    exact Tot.pure he
  · rw [if_neg hi]
    have he' := he
    rw [slot_pos _ _ _ hi] at he'
    cases hc : child h p (i % 2 ^ lg) with
    | none => rw [hc, slot_none] at he'; cases he'
    | some c =>
      obtain ⟨q, x, rfl, hx, hd⟩ := child_eq_some hc
      have h1 : load h (some q) = .ok x := by unfold load; exact rd_some hx
      rw [h1, ok_bind, mask_eq, rd_some hd, ok_bind, shr_eq]
      refine Tot.pure ⟨?_, down_lt lg hi⟩
      rw [hc] at he'
      exact he'

theorem val_some {lg : Nat} {h : Heap T} {p : Option Nat} {i : Nat} {v : T} (e : val lg h p i = some v) :
    ∃ (r : Nat) (x : Nd T), slot lg h p i = some r ∧ h.nodes[r]? = some x ∧ x.val = v := by
  unfold val at e
  cases hs : slot lg h p i with
  | none => rw [hs] at e; cases e
  | some r =>
    rw [hs, Option.bind_some] at e
    cases hx : h.nodes[r]? with
    | none => rw [hx] at e; cases e
    | some x => rw [hx] at e; exact ⟨r, x, rfl, hx, by simpa using e⟩

theorem get_eq {lg : Nat} {h : Heap T} {p : Option Nat} {i : Nat} {v : T} (e : val lg h p i = some v)
    (ha : ∀ (q : Nat) (x : Nd T), h.nodes[q]? = some x → x.ch.size = 2 ^ lg) : get lg h p i = .ok v := by
  obtain ⟨r, x, h1, h2, h3⟩ := val_some e
  unfold get
  have h4 : load h (some r) = .ok x := by unfold load; exact rd_some h2
  rw [walk_tot h1 ha, ok_bind, h4, ok_bind, h3]; rfl

/-! ### Writing -/

theorem nodes_push {h : Heap T} {x : Nd T} {q : Nat} :
    ({ h with nodes := h.nodes.push x } : Heap T).nodes[q]? = if q = h.nodes.size then some x else h.nodes[q]? := by
  dsimp only
  rw [Array.getElem?_push]

theorem set_eq {α : Type} {a : Array α} {i : Nat} {x : α} {j : Nat} (h : i < a.size) :
    (a.setIfInBounds i x)[j]? = if j = i then some x else a[j]? := by
  rw [Array.getElem?_setIfInBounds]
  by_cases e : i = j
  · subst e; simp [h]
  · rw [if_neg e, if_neg (Ne.symm e)]

/-- Adding a node. -/
theorem WF.push {lg : Nat} {lab : Nat → Nat × Nat} {h : Heap T} (w : WF lg lab h) {x : Nd T} {l : Nat × Nat}
    (h1 : x.ch.size = 2 ^ lg) (h2 : ∀ (d c : Nat), x.ch[d]? = some (some c) → c < h.nodes.size ∧ lab c = labCh lg l d) :
    WF lg (fun q => if q = h.nodes.size then l else lab q) ({ h with nodes := h.nodes.push x } : Heap T) := by
  constructor
  · intro q y hy
    rw [nodes_push] at hy
    split at hy
    · cases hy; exact h1
    · exact w.ar _ _ hy
  · intro q y d c hy hd
    rw [nodes_push] at hy
    simp only [Array.size_push]
    split at hy
    · cases hy; have := (h2 d c hd).1; omega
    · have := w.cl _ _ _ _ hy hd; omega
  · intro q y d c hy hd
    rw [nodes_push] at hy
    split at hy
    next e =>
      cases hy
      obtain ⟨h3, h4⟩ := h2 d c hd
      simp only [if_pos e, if_neg (Nat.ne_of_lt h3)]; exact h4
    next e =>
      have := w.cl _ _ _ _ hy hd
      simp only [if_neg e, if_neg (Nat.ne_of_lt this)]
      exact w.lb _ _ _ _ hy hd

/-- Overwriting a node. -/
theorem WF.write {lg : Nat} {lab : Nat → Nat × Nat} {h : Heap T} (w : WF lg lab h) {r : Nat} (hr : r < h.nodes.size) {x : Nd T}
    (h1 : x.ch.size = 2 ^ lg) (h2 : ∀ (d c : Nat), x.ch[d]? = some (some c) → c < h.nodes.size ∧ lab c = labCh lg (lab r) d) :
    WF lg lab ({ h with nodes := h.nodes.setIfInBounds r x } : Heap T) := by
  constructor
  · intro q y hy
    dsimp only at hy
    rw [set_eq hr] at hy
    split at hy
    · cases hy; exact h1
    · exact w.ar _ _ hy
  · intro q y d c hy hd
    dsimp only at hy
    rw [set_eq hr] at hy
    simp only [Array.size_setIfInBounds]
    split at hy
    · cases hy; exact (h2 d c hd).1
    · exact w.cl _ _ _ _ hy hd
  · intro q y d c hy hd
    dsimp only at hy
    rw [set_eq hr] at hy
    split at hy
    next e => cases hy; subst e; exact (h2 d c hd).2
    next e => exact w.lb _ _ _ _ hy hd

/-- Changing the value of a node leaves all slots as they are. -/
theorem slot_writeVal {lg : Nat} {h : Heap T} {r : Nat} {x : Nd T} (hx : h.nodes[r]? = some x) (v : T) {i : Nat} :
    ∀ {p : Option Nat}, slot lg ({ h with nodes := h.nodes.setIfInBounds r { x with val := v } } : Heap T) p i = slot lg h p i := by
  have hr : r < h.nodes.size := (Array.getElem?_eq_some_iff.1 hx).1
  induction i using Nat.strong_induction_on with
  | _ i ih =>
    intro p
    by_cases hi : i = 0
    · subst hi; rw [slot_zero, slot_zero]
    · rw [slot_pos _ _ _ hi, slot_pos _ _ _ hi, ih _ (down_lt lg hi)]
      congr 1
      cases p with
      | none => rfl
      | some q =>
        unfold child
        simp only [Option.bind_some]
        rw [set_eq hr]
        split
        next e => subst e; rw [hx]; rfl
        next e => rfl

theorem val_writeVal {lg : Nat} {h : Heap T} {r : Nat} {x : Nd T} (hx : h.nodes[r]? = some x) (v : T) {i : Nat} {p : Option Nat} :
    val lg ({ h with nodes := h.nodes.setIfInBounds r { x with val := v } } : Heap T) p i = if slot lg h p i = some r then some v else val lg h p i := by
  have hr : r < h.nodes.size := (Array.getElem?_eq_some_iff.1 hx).1
  unfold val
  rw [slot_writeVal hx]
  cases slot lg h p i with
  | none => simp
  | some q =>
    simp only [Option.bind_some, set_eq hr, Option.some.injEq]
    by_cases e : q = r
    · rw [if_pos e, if_pos e]; rfl
    · rw [if_neg e, if_neg e]

theorem WF.writeVal {lg : Nat} {lab : Nat → Nat × Nat} {h : Heap T} (w : WF lg lab h) {r : Nat} {x : Nd T} (hx : h.nodes[r]? = some x) (v : T) :
    WF lg lab ({ h with nodes := h.nodes.setIfInBounds r { x with val := v } } : Heap T) :=
  w.write (Array.getElem?_eq_some_iff.1 hx).1 (by exact w.ar r x hx) fun d c hd => ⟨w.cl r x d c hx hd, w.lb r x d c hx hd⟩

theorem mutSet_tot {lg : Nat} {lab : Nat → Nat × Nat} {h : Heap T} (w : WF lg lab h) {p : Option Nat} {i : Nat} {y : T} (e : val lg h p i = some y) (v : T) :
    Tot (mutSet lg h p i v) fun a => a.2 = y ∧ WF lg lab a.1 ∧ a.1.nodes.size = h.nodes.size ∧ a.1.cap = h.cap ∧
      ∀ p' j, val lg a.1 p' j = if slot lg h p' j = slot lg h p i then some v else val lg h p' j := by
  obtain ⟨r, x, h1, h2, h3⟩ := val_some e
  unfold mutSet
  have hr : r < h.nodes.size := (Array.getElem?_eq_some_iff.1 h2).1
  rw [walk_tot h1 w.ar, ok_bind]
  dsimp only
  rw [rd_some h2, ok_bind]
  unfold store
  rw [wr_eq hr]
  refine Tot.pure ⟨h3, w.writeVal h2 v, by simp, rfl, fun p' j => ?_⟩
  dsimp only
  rw [val_writeVal h2, h1]

theorem digit_inj (K : Nat) {i j : Nat} (hi : i ≠ 0) (hj : j ≠ 0) (h1 : i % K = j % K) (h2 : (i - 1) / K = (j - 1) / K) : i = j := by
  have a := lab_arith K 0 1 i hi
  have b := lab_arith K 0 1 j hj
  rw [h1, h2] at a
  simp only [Nat.zero_add, Nat.one_mul] at a b
  exact a.symm.trans b

/-- Lines 35-36: the nodes below `B` are closed under child pointers and not written, the node `cur` is a private copy. -/
theorem setFrom_tot {lg : Nat} {B : Nat} {v : T} {id : Nat} : ∀ {fuel : Nat} {h : Heap T} {lab : Nat → Nat × Nat} {cur : Nat} {y : T} {x : Nd T},
    id < fuel → WF lg lab h → B ≤ cur → h.nodes[cur]? = some x → h.nodes.size + depth lg id ≤ h.cap →
    (∀ (q : Nat) (x : Nd T) (d c : Nat), q < B → h.nodes[q]? = some x → x.ch[d]? = some (some c) → c < B) →
    (∀ (d c : Nat), x.ch[d]? = some (some c) → c < B) →
    val lg h (some cur) id = some y →
    Tot (setFrom lg fuel h cur id v) fun h' => h'.nodes.size = h.nodes.size + depth lg id ∧ h'.cap = h.cap ∧
      (∃ lab', WF lg lab' h' ∧ ∀ q, q < h.nodes.size → lab' q = lab q) ∧
      (∀ q, q < h.nodes.size → q ≠ cur → h'.nodes[q]? = h.nodes[q]?) ∧
      ∀ j, val lg h' (some cur) j = if j = id then some v else val lg h (some cur) j := by
  induction id using Nat.strong_induction_on with
  | _ id ih =>
    intro fuel h lab cur y x hf w hB hx hcap hcl hclx hv
    have hcur : cur < h.nodes.size := (Array.getElem?_eq_some_iff.1 hx).1
    obtain ⟨fuel, rfl⟩ : ∃ k, fuel = k + 1 := ⟨fuel - 1, by omega⟩
    unfold setFrom
    rw [loop]
    by_cases hi : id = 0
    · have hs : setStep lg (h, cur, id) = .ok none := by unfold setStep; dsimp only; rw [if_pos hi]; rfl
      rw [hs, ok_bind]
      dsimp only
      rw [ok_bind]
      dsimp only
      rw [rd_some hx, ok_bind]
      unfold store
      rw [wr_eq hcur]
      subst hi
      have hd : depth lg 0 = 0 := by rw [depth]; simp
      refine Tot.pure ⟨by simp [hd], rfl, ⟨lab, w.writeVal hx v, fun _ _ => rfl⟩, ?_, ?_⟩
      · intro q hq hne
        dsimp only
        rw [set_eq hcur, if_neg hne]
      · intro j
        rw [val_writeVal hx]
        by_cases hj : j = 0
        · subst hj; rw [slot_zero, if_pos rfl, if_pos rfl]
        · rw [if_neg hj, if_neg]
          rw [slot_pos _ _ _ hj]
          intro hc
          cases hcc : child h (some cur) (j % 2 ^ lg) with
          | none => rw [hcc, slot_none] at hc; cases hc
          | some c =>
            rw [hcc] at hc
            obtain ⟨q', x', e1, hx', hd'⟩ := child_eq_some hcc
            cases e1
            rw [hx] at hx'; cases hx'
            have := (slot_congr (lg := lg) (h := h) (h' := h) (B := B) (fun _ _ => rfl) hcl (i := (j - 1) / 2 ^ lg) (hclx _ _ hd')).2 _ hc
            omega
    · obtain ⟨d, hdd⟩ : ∃ d, d = id % 2 ^ lg := ⟨_, rfl⟩
      obtain ⟨id', hid'⟩ : ∃ d, d = (id - 1) / 2 ^ lg := ⟨_, rfl⟩
      have hv' := hv
      rw [val_pos _ _ _ hi, ← hdd, ← hid'] at hv'
      have hdep : depth lg id = depth lg id' + 1 := by rw [depth, dif_neg hi, ← hid']
      have hlt : id' < id := by rw [hid']; exact down_lt lg hi
      cases hc : child h (some cur) d with
      | none => rw [hc, val_none] at hv'; cases hv'
      | some c =>
        rw [hc] at hv'
        obtain ⟨q', x', e1, hx', hxd⟩ := child_eq_some hc
        cases e1
        rw [hx] at hx'; cases hx'
        have hcB : c < B := hclx _ _ hxd
        have hcs : c < h.nodes.size := by omega
        obtain ⟨z, hz⟩ : ∃ z, h.nodes[c]? = some z := ⟨_, Array.getElem?_eq_getElem hcs⟩
        have hdlt : d < x.ch.size := (Array.getElem?_eq_some_iff.1 hxd).1
        obtain ⟨h2, hh2⟩ : ∃ h2 : Heap T, h2 = { h with nodes := (h.nodes.push z).setIfInBounds cur { x with ch := x.ch.setIfInBounds d (some h.nodes.size) } } := ⟨_, rfl⟩
        have hcur2 : cur < (h.nodes.push z).size := by simp; omega
        have hn2 : ∀ q, h2.nodes[q]? = if q = cur then some { x with ch := x.ch.setIfInBounds d (some h.nodes.size) } else if q = h.nodes.size then some z else h.nodes[q]? := by
          intro q
          rw [hh2]; dsimp only
          rw [set_eq hcur2, Array.getElem?_push]
        have hs : setStep lg (h, cur, id) = .ok (some (h2, h.nodes.size, id')) := by
          unfold setStep
          dsimp only
          rw [if_neg hi, rd_some hx, ok_bind, mask_eq, ← hdd, rd_some hxd, ok_bind]
          have : cloneNode h (some c) = .ok ({ h with nodes := h.nodes.push z }, h.nodes.size) := by
            unfold cloneNode
            have : load h (some c) = .ok z := by unfold load; exact rd_some hz
            rw [this, ok_bind]
            unfold allocWith
            rw [if_pos (by omega)]; rfl
          rw [this, ok_bind]
          dsimp only
          have hx2 : (h.nodes.push z)[cur]? = some x := by rw [Array.getElem?_push, if_neg (by omega), hx]
          rw [rd_some hx2, ok_bind, wr_eq hdlt, ok_bind]
          unfold store
          rw [wr_eq hcur2, ok_bind]
          rw [shr_eq, hid', hh2]; rfl
        rw [hs, ok_bind]
        dsimp only
        have hsz2 : h2.nodes.size = h.nodes.size + 1 := by rw [hh2]; simp
        have hcap2 : h2.cap = h.cap := by rw [hh2]
        have w1 := w.push (x := z) (l := lab c) (w.ar _ _ hz) (fun d' c' hd' => ⟨w.cl _ _ _ _ hz hd', w.lb _ _ _ _ hz hd'⟩)
        obtain ⟨lab1, hlab1⟩ : ∃ l, l = (fun q => if q = h.nodes.size then lab c else lab q) := ⟨_, rfl⟩
        rw [← hlab1] at w1
        have hl1 : ∀ q, q < h.nodes.size → lab1 q = lab q := by
          intro q hq; rw [hlab1]; exact if_neg (by omega)
        have w2 : WF lg lab1 h2 := by
          rw [hh2]
          refine w1.write (r := cur) hcur2 (by simpa using w.ar _ _ hx) ?_
          intro d' c' hd'
          dsimp only at hd'
          rw [set_eq hdlt] at hd'
          split at hd'
          next e =>
            simp only [Option.some.injEq] at hd'
            subst hd'
            subst e
            refine ⟨by simp, ?_⟩
            rw [hl1 cur hcur, hlab1]
            simp only [if_true]
            exact w.lb _ _ _ _ hx hxd
          next e =>
            have := w.cl _ _ _ _ hx hd'
            refine ⟨by simp; omega, ?_⟩
            rw [hl1 cur hcur, hl1 c' this]
            exact w.lb _ _ _ _ hx hd'
        have hagree : ∀ q, q < B → h2.nodes[q]? = h.nodes[q]? := by
          intro q hq
          rw [hn2, if_neg (by omega), if_neg (by omega)]
        have hnew : h2.nodes[h.nodes.size]? = some z := by rw [hn2, if_neg (by omega), if_pos rfl]
        have hzB : ∀ (d c : Nat), z.ch[d]? = some (some c) → c < B := fun d' c' hd' => hcl _ _ _ _ hcB hz hd'
        have hcl2 : ∀ (q : Nat) (x : Nd T) (d c : Nat), q < B → h2.nodes[q]? = some x → x.ch[d]? = some (some c) → c < B := by
          intro q y d' c' hq hy hd'
          rw [hagree q hq] at hy
          exact hcl _ _ _ _ hq hy hd'
        -- the copy has the same elements
        have hcopy : ∀ j, val lg h2 (some h.nodes.size) j = val lg h (some c) j := by
          intro j
          by_cases hj : j = 0
          · subst hj; rw [val_zero, val_zero, hnew, hz]
          · rw [val_pos _ _ _ hj, val_pos _ _ _ hj, child_some hnew, child_some hz]
            cases hzz : z.ch[j % 2 ^ lg]? with
            | none => simp [val_none]
            | some o =>
              cases o with
              | none => simp [val_none]
              | some c' => exact val_congr hagree hcl (hzB _ _ hzz)
        have hrec := ih id' hlt (fuel := fuel) (h := h2) (lab := lab1) (cur := h.nodes.size) (y := y) (x := z) (by omega) w2 (by omega) hnew (by omega) hcl2 hzB
          (by rw [hcopy]; exact hv')
        unfold setFrom at hrec
        refine hrec.mono ?_
        rintro h' ⟨g1, g2, ⟨lab', g3, g3'⟩, g4, g5⟩
        refine ⟨by omega, by rw [g2, hcap2], ⟨lab', g3, fun q hq => by rw [g3' q (by omega), hl1 q hq]⟩, ?_, ?_⟩
        · intro q hq hne
          rw [g4 q (by omega) (by omega), hn2, if_neg hne, if_neg (by omega)]
        · intro j
          have hcur' : h'.nodes[cur]? = some { x with ch := x.ch.setIfInBounds d (some h.nodes.size) } := by
            rw [g4 cur (by omega) (by omega), hn2, if_pos rfl]
          by_cases hj : j = 0
          · subst hj
            rw [val_zero, hcur', if_neg (Ne.symm hi), val_zero, hx]; rfl
          · rw [val_pos _ _ _ hj, child_some hcur']
            dsimp only
            rw [set_eq hdlt]
            by_cases hjd : j % 2 ^ lg = d
            · rw [if_pos hjd]
              simp only [Option.join_some]
              rw [g5, hcopy]
              by_cases hji : j = id
              · rw [if_pos hji, if_pos (by rw [hji, hid'])]
              · rw [if_neg hji, if_neg, val_pos _ _ _ hj, hjd, hc]
                intro hcc
                exact hji (digit_inj (2 ^ lg) hj hi (by rw [hjd, hdd]) (by rw [hcc, hid']))
            · rw [if_neg hjd, if_neg (by rintro rfl; exact hjd hdd.symm), val_pos _ _ _ hj, child_some hx]
              cases hxx : x.ch[j % 2 ^ lg]? with
              | none => simp [val_none]
              | some o =>
                cases o with
                | none => simp [val_none]
                | some c' =>
                  simp only [Option.join_some]
                  refine val_congr (B := B) ?_ hcl (hclx _ _ hxx)
                  intro q hq
                  rw [g4 q (by omega) (by omega), hagree q hq]

theorem set_tot {lg : Nat} {lab : Nat → Nat × Nat} {h : Heap T} (w : WF lg lab h) {p : Option Nat} {i : Nat} {y : T} (e : val lg h p i = some y) (v : T)
    (hcap : h.nodes.size + depth lg i + 1 ≤ h.cap) :
    Tot (set lg h p i v) fun a => a.1.nodes.size = h.nodes.size + depth lg i + 1 ∧ a.1.cap = h.cap ∧
      (∀ q, q < h.nodes.size → a.1.nodes[q]? = h.nodes[q]?) ∧
      ∃ r lab', a.2 = some r ∧ r < a.1.nodes.size ∧ WF lg lab' a.1 ∧ (∀ q, q < h.nodes.size → lab' q = lab q) ∧ (∀ q, p = some q → lab' r = lab q) ∧
        ∀ j, val lg a.1 (some r) j = if j = i then some v else val lg h p j := by
  cases p with
  | none => rw [val_none] at e; cases e
  | some q =>
  have : ∃ z, h.nodes[q]? = some z := by
    by_cases hi : i = 0
    · subst hi
      rw [val_zero] at e
      cases hz : h.nodes[q]? with
      | none => rw [hz] at e; cases e
      | some z => exact ⟨z, rfl⟩
    · rw [val_pos _ _ _ hi] at e
      cases hc : child h (some q) (i % 2 ^ lg) with
      | none => rw [hc, val_none] at e; cases e
      | some c => obtain ⟨q', x, e1, hx, -⟩ := child_eq_some hc; cases e1; exact ⟨x, hx⟩
  obtain ⟨z, hz⟩ := this
  have hq : q < h.nodes.size := (Array.getElem?_eq_some_iff.1 hz).1
  unfold set
  obtain ⟨h1, hh1⟩ : ∃ h1 : Heap T, h1 = { h with nodes := h.nodes.push z } := ⟨_, rfl⟩
  have hcn : cloneNode h (some q) = .ok (h1, h.nodes.size) := by
    unfold cloneNode
    have : load h (some q) = .ok z := by unfold load; exact rd_some hz
    rw [this, ok_bind]
    unfold allocWith
    rw [if_pos (by omega), hh1]; rfl
  rw [hcn, ok_bind]
  dsimp only
  have w1 : WF lg (fun r => if r = h.nodes.size then lab q else lab r) h1 := by
    rw [hh1]; exact w.push (x := z) (l := lab q) (w.ar _ _ hz) (fun d' c' hd' => ⟨w.cl _ _ _ _ hz hd', w.lb _ _ _ _ hz hd'⟩)
  have hn1 : ∀ r, h1.nodes[r]? = if r = h.nodes.size then some z else h.nodes[r]? := by
    intro r; rw [hh1, nodes_push]
  have hsz : h1.nodes.size = h.nodes.size + 1 := by rw [hh1]; simp
  have hc1 : h1.cap = h.cap := by rw [hh1]
  have hagree : ∀ r, r < h.nodes.size → h1.nodes[r]? = h.nodes[r]? := fun r hr => by rw [hn1, if_neg (by omega)]
  have hcl0 : ∀ (q : Nat) (x : Nd T) (d c : Nat), q < h.nodes.size → h.nodes[q]? = some x → x.ch[d]? = some (some c) → c < h.nodes.size :=
    fun r x d c _ hx hd => w.cl _ _ _ _ hx hd
  have hnew : h1.nodes[h.nodes.size]? = some z := by rw [hn1, if_pos rfl]
  have hcopy : ∀ j, val lg h1 (some h.nodes.size) j = val lg h (some q) j := by
    intro j
    by_cases hj : j = 0
    · subst hj; rw [val_zero, val_zero, hnew, hz]
    · rw [val_pos _ _ _ hj, val_pos _ _ _ hj, child_some hnew, child_some hz]
      cases hzz : z.ch[j % 2 ^ lg]? with
      | none => simp [val_none]
      | some o =>
        cases o with
        | none => simp [val_none]
        | some c' => exact val_congr hagree hcl0 (w.cl _ _ _ _ hz hzz)
  refine Tot.bind (setFrom_tot (B := h.nodes.size) (Nat.lt_succ_self i) w1 (Nat.le_refl _) hnew (by omega) ?_ ?_ (by rw [hcopy]; exact e)) ?_
  · intro r x d c hr hx hd
    rw [hagree r hr] at hx
    exact w.cl _ _ _ _ hx hd
  · exact fun d c hd => w.cl _ _ _ _ hz hd
  · rintro h' ⟨g1, g2, ⟨lab', g3, g3'⟩, g4, g5⟩
    refine Tot.pure ⟨by dsimp only; omega, by rw [g2, hc1], ?_, h.nodes.size, lab', rfl, by dsimp only; omega, g3, ?_, ?_, ?_⟩
    · intro r hr; rw [g4 r (by omega) (by omega), hagree r hr]
    · intro r hr; rw [g3' r (by omega)]; exact if_neg (by omega)
    · intro r hr; cases hr; rw [g3' _ (by omega)]; exact if_pos rfl
    · intro j; dsimp only; rw [g5, hcopy]

/-! ### `build` -/

theorem slot_congrP {lg : Nat} {h h' : Heap T} {P : Nat → Prop} (hB : ∀ q, P q → h'.nodes[q]? = h.nodes[q]?)
    (hcl : ∀ (q : Nat) (x : Nd T) (d c : Nat), P q → h.nodes[q]? = some x → x.ch[d]? = some (some c) → P c) {i : Nat} :
    ∀ {q : Nat}, P q → slot lg h' (some q) i = slot lg h (some q) i ∧ ∀ r, slot lg h (some q) i = some r → P r := by
  induction i using Nat.strong_induction_on with
  | _ i ih =>
    intro q hq
    by_cases hi : i = 0
    · subst hi; rw [slot_zero, slot_zero]; exact ⟨rfl, fun r e => by cases e; exact hq⟩
    · rw [slot_pos _ _ _ hi, slot_pos _ _ _ hi]
      have hch : child h' (some q) (i % 2 ^ lg) = child h (some q) (i % 2 ^ lg) := by
        unfold child; rw [Option.bind_some, Option.bind_some, hB q hq]
      rw [hch]
      cases hc : child h (some q) (i % 2 ^ lg) with
      | none => rw [slot_none, slot_none]; exact ⟨rfl, fun r e => by cases e⟩
      | some c =>
        obtain ⟨q', x, e1, hx, hd⟩ := child_eq_some hc
        cases e1
        exact ih _ (down_lt lg hi) (hcl _ _ _ _ hq hx hd)

theorem val_congrP {lg : Nat} {h h' : Heap T} {P : Nat → Prop} (hB : ∀ q, P q → h'.nodes[q]? = h.nodes[q]?)
    (hcl : ∀ (q : Nat) (x : Nd T) (d c : Nat), P q → h.nodes[q]? = some x → x.ch[d]? = some (some c) → P c) {i q : Nat} (hq : P q) :
    val lg h' (some q) i = val lg h (some q) i := by
  obtain ⟨h1, h2⟩ := slot_congrP (lg := lg) hB hcl (i := i) hq
  unfold val
  rw [h1]
  cases e : slot lg h (some q) i with
  | none => rfl
  | some r => rw [Option.bind_some, Option.bind_some, hB r (h2 r e)]

/-- The offset of child `d`. -/
def off (lg d : Nat) : Nat := if d = 0 then 2 ^ lg else d

/-- The state while the children of `cur` are being built; `h0`, `lab0` are those at the start, `cnt` nodes have been added, `dn` tells the children that are done. -/
structure BI (lg : Nat) (init : Array T) (h0 : Heap T) (lab0 : Nat → Nat × Nat) (cur a p : Nat) (v : T) (cnt : Nat) (dn : Nat → Prop) (h : Heap T) : Prop where
  sz : h.nodes.size = h0.nodes.size + cnt
  cap : h.cap = h0.cap
  wf : ∃ lab, WF lg lab h ∧ ∀ q, q < h0.nodes.size → lab q = lab0 q
  fr : ∀ q, q < h0.nodes.size → q ≠ cur → h.nodes[q]? = h0.nodes[q]?
  up : ∀ (q : Nat) (x : Nd T) (d c : Nat), h0.nodes.size ≤ q ∨ q = cur → h.nodes[q]? = some x → x.ch[d]? = some (some c) → h0.nodes.size ≤ c
  nd : ∃ ch : Array (Option Nat), h.nodes[cur]? = some ⟨ch, v⟩ ∧ (∀ e, e < 2 ^ lg → ¬ dn e → ch[e]? = some none) ∧
    ∀ e, e < 2 ^ lg → dn e → ∀ j, val lg h (ch[e]?.join) j = init[a + off lg e * p + 2 ^ lg * p * j]?

theorem BI.mono {lg : Nat} {init : Array T} {h0 : Heap T} {lab0 : Nat → Nat × Nat} {cur a p : Nat} {v : T} {cnt : Nat} {dn dn' : Nat → Prop} {h : Heap T}
    (b : BI lg init h0 lab0 cur a p v cnt dn h) (hd : ∀ e, e < 2 ^ lg → (dn e ↔ dn' e)) : BI lg init h0 lab0 cur a p v cnt dn' h := by
  obtain ⟨ch, h1, h2, h3⟩ := b.nd
  exact ⟨b.sz, b.cap, b.wf, b.fr, b.up, ch, h1, fun e he hn => h2 e he (fun hc => hn ((hd e he).1 hc)), fun e he hn => h3 e he ((hd e he).2 hn)⟩

/-- The result of `dfs`. -/
structure Built (lg : Nat) (init : Array T) (h0 : Heap T) (lab0 : Nat → Nat × Nat) (cur a p : Nat) (h : Heap T) : Prop where
  sz : h.nodes.size = h0.nodes.size + (init.size - 1 - a) / p
  cap : h.cap = h0.cap
  wf : ∃ lab, WF lg lab h ∧ ∀ q, q < h0.nodes.size → lab q = lab0 q
  fr : ∀ q, q < h0.nodes.size → q ≠ cur → h.nodes[q]? = h0.nodes[q]?
  up : ∀ (q : Nat) (x : Nd T) (d c : Nat), h0.nodes.size ≤ q ∨ q = cur → h.nodes[q]? = some x → x.ch[d]? = some (some c) → h0.nodes.size ≤ c
  el : ∀ j, val lg h (some cur) j = init[a + p * j]?

/-- The precondition of `dfs`. -/
structure Ready (lg : Nat) (init : Array T) (h : Heap T) (lab : Nat → Nat × Nat) (cur a p : Nat) : Prop where
  pp : 0 < p
  lt : a < init.size
  wf : WF lg lab h
  nd : ∃ v, init[a]? = some v ∧ h.nodes[cur]? = some ⟨Array.replicate (2 ^ lg) none, v⟩
  lb : lab cur = (a, p)
  cap : h.nodes.size + (init.size - 1 - a) / p ≤ h.cap

theorem kid_tot {lg : Nat} {init : Array T} {h0 : Heap T} {lab0 : Nat → Nat × Nat} {cur a p : Nat} {v : T} {cnt : Nat} {dn : Nat → Prop} {h : Heap T}
    {rec : Heap T → Nat → Nat → M (Heap T)} {d : Nat} (hcur : cur < h0.nodes.size) (hp : 0 < p) (hl : lab0 cur = (a, p))
    (b : BI lg init h0 lab0 cur a p v cnt dn h) (hd : d < 2 ^ lg) (hnd : ¬ dn d) {nid : Nat} (hnid : nid = a + off lg d * p) (hlt : nid < init.size)
    (hrec : ∀ h lab c, Ready lg init h lab c nid (p <<< lg) → Tot (rec h c nid) (Built lg init h lab c nid (p <<< lg)))
    (hcap : h0.nodes.size + cnt + (init.size - 1 - nid) / (2 ^ lg * p) + 1 ≤ h0.cap) :
    Tot (addChild lg init h cur d nid >>= fun r => rec r.1 r.2 nid)
      (BI lg init h0 lab0 cur a p v (cnt + (init.size - 1 - nid) / (2 ^ lg * p) + 1) (fun e => dn e ∨ e = d)) := by
  obtain ⟨ch, n1, n2, n3⟩ := b.nd
  obtain ⟨lab, w, hlab⟩ := b.wf
  have hsh : p <<< lg = 2 ^ lg * p := by rw [Nat.shiftLeft_eq, Nat.mul_comm]
  obtain ⟨y, hy⟩ : ∃ y, init[nid]? = some y := ⟨_, Array.getElem?_eq_getElem hlt⟩
  have hcs : cur < h.nodes.size := by rw [b.sz]; omega
  have hchs : ch.size = 2 ^ lg := w.ar _ _ n1
  have hdc : d < ch.size := by omega
  have hcl : lab cur = (a, p) := by rw [hlab cur hcur, hl]
  obtain ⟨x, hx⟩ : ∃ x : Nd T, x = ⟨Array.replicate (2 ^ lg) none, y⟩ := ⟨_, rfl⟩
  have w1 := w.push (x := x) (l := labCh lg (lab cur) d) (by rw [hx]; simp) (by
    intro d' c' hd'
    rw [hx] at hd'
    dsimp only at hd'
    rw [Array.getElem?_replicate] at hd'
    split at hd' <;> simp at hd')
  obtain ⟨lab1, hlab1⟩ : ∃ l, l = (fun q => if q = h.nodes.size then labCh lg (lab cur) d else lab q) := ⟨_, rfl⟩
  rw [← hlab1] at w1
  have hl1 : ∀ q, q < h.nodes.size → lab1 q = lab q := by
    intro q hq; rw [hlab1]; exact if_neg (by omega)
  have hcur2 : cur < (h.nodes.push x).size := by simp; omega
  obtain ⟨h2, hh2⟩ : ∃ h2 : Heap T, h2 = { h with nodes := (h.nodes.push x).setIfInBounds cur ⟨ch.setIfInBounds d (some h.nodes.size), v⟩ } := ⟨_, rfl⟩
  have hn2 : ∀ q, h2.nodes[q]? = if q = cur then some ⟨ch.setIfInBounds d (some h.nodes.size), v⟩ else if q = h.nodes.size then some x else h.nodes[q]? := by
    intro q
    rw [hh2]; dsimp only
    rw [set_eq hcur2, Array.getElem?_push]
  have hsz2 : h2.nodes.size = h.nodes.size + 1 := by rw [hh2]; simp
  have hcap2 : h2.cap = h.cap := by rw [hh2]
  have w2 : WF lg lab1 h2 := by
    rw [hh2]
    refine w1.write (r := cur) hcur2 (by simpa using hchs) ?_
    intro d' c' hd'
    dsimp only at hd'
    rw [set_eq hdc] at hd'
    split at hd'
    next e =>
      simp only [Option.some.injEq] at hd'
      subst hd' e
      refine ⟨by simp, ?_⟩
      rw [hl1 cur hcs, hlab1]
      simp only [if_true]
    next e =>
      have := w.cl _ _ _ _ n1 hd'
      refine ⟨by simp; omega, ?_⟩
      rw [hl1 cur hcs, hl1 c' this]
      exact w.lb _ _ _ _ n1 hd'
  have hac : addChild lg init h cur d nid = .ok (h2, h.nodes.size) := by
    unfold addChild
    rw [rd_some hy, ok_bind]
    have : newNode lg h y = .ok ({ h with nodes := h.nodes.push x }, h.nodes.size) := by
      unfold newNode allocWith
      rw [if_pos (by rw [b.sz, b.cap]; exact Nat.lt_of_lt_of_le (by omega) (Nat.le_trans (Nat.succ_le_succ (Nat.le_add_right _ _)) hcap)), hx, Nat.one_shiftLeft]; rfl
    rw [this, ok_bind]
    dsimp only
    have hx2 : (h.nodes.push x)[cur]? = some ⟨ch, v⟩ := by rw [Array.getElem?_push, if_neg (by omega), n1]
    rw [rd_some hx2, ok_bind]
    dsimp only
    rw [wr_eq hdc, ok_bind]
    unfold store
    rw [wr_eq hcur2, ok_bind, hh2]; rfl
  rw [hac, ok_bind]
  dsimp only
  have hrd : Ready lg init h2 lab1 h.nodes.size nid (p <<< lg) := by
    refine ⟨by rw [hsh]; exact Nat.mul_pos (Nat.pow_pos (by decide)) hp, hlt, w2, ⟨y, hy, ?_⟩, ?_, ?_⟩
    · rw [hn2, if_neg (by omega), if_pos rfl, hx]
    · rw [hlab1]
      simp only [if_true]
      rw [hcl]
      unfold labCh
      dsimp only
      rw [hnid, hsh]; rfl
    · rw [hsz2, hcap2, b.sz, b.cap, hsh]; omega
  refine (hrec h2 lab1 h.nodes.size hrd).mono ?_
  intro h3 g
  obtain ⟨lab3, w3, hlab3⟩ := g.wf
  have gsz := g.sz
  rw [hsh, hsz2, b.sz] at gsz
  have hcur3 : h3.nodes[cur]? = some ⟨ch.setIfInBounds d (some h.nodes.size), v⟩ := by
    rw [g.fr cur (by omega) (by omega), hn2, if_pos rfl]
  refine ⟨by omega, by rw [g.cap, hcap2, b.cap], ⟨lab3, w3, fun q hq => ?_⟩, ?_, ?_, ch.setIfInBounds d (some h.nodes.size), hcur3, ?_, ?_⟩
  · have := b.sz
    rw [hlab3 q (by omega), hl1 q (by omega), hlab q hq]
  · intro q hq hne
    have := b.sz
    rw [g.fr q (by omega) (by omega), hn2, if_neg hne, if_neg (by omega), b.fr q hq hne]
  · intro q z d' c' hq hz hd'
    have hbs := b.sz
    by_cases hqc : q = cur
    · subst hqc
      rw [hcur3] at hz; cases hz
      dsimp only at hd'
      rw [set_eq hdc] at hd'
      split at hd'
      · simp only [Option.some.injEq] at hd'; omega
      · exact b.up _ _ _ _ (Or.inr rfl) n1 hd'
    · have hq' : h0.nodes.size ≤ q := hq.resolve_right hqc
      by_cases hqn : h2.nodes.size ≤ q ∨ q = h.nodes.size
      · have := g.up _ _ _ _ hqn hz hd'; omega
      · rw [not_or] at hqn
        rw [g.fr q (by omega) hqn.2, hn2, if_neg hqc, if_neg hqn.2] at hz
        exact b.up _ _ _ _ (Or.inl hq') hz hd'
  · intro e he hn
    rw [not_or] at hn
    rw [set_eq hdc, if_neg hn.2]
    exact n2 e he hn.1
  · intro e he hn j
    rw [set_eq hdc]
    by_cases hed : e = d
    · rw [if_pos hed, hed, ← hnid]
      simp only [Option.join_some]
      rw [g.el, hsh]
    · rw [if_neg hed]
      have hn := hn.resolve_right hed
      rw [← n3 e he hn j]
      cases hxx : ch[e]? with
      | none => simp [val_none]
      | some o =>
        cases o with
        | none => simp [val_none]
        | some c' =>
          simp only [Option.join_some]
          have hc0 : h0.nodes.size ≤ c' := b.up _ _ _ _ (Or.inr rfl) n1 hxx
          have hc1 : c' < h.nodes.size := w.cl _ _ _ _ n1 hxx
          refine val_congrP (P := fun q => h0.nodes.size ≤ q ∧ q < h.nodes.size) ?_ ?_ ⟨hc0, hc1⟩
          · rintro q ⟨hq1, hq2⟩
            rw [g.fr q (by omega) (by omega), hn2, if_neg (by omega), if_neg (by omega)]
          · rintro q z d' c'' ⟨hq1, hq2⟩ hz hd'
            exact ⟨b.up _ _ _ _ (Or.inl hq1) hz hd', w.cl _ _ _ _ hz hd'⟩

theorem hermite (K m : Nat) (hK : 0 < K) : ∑ e ∈ Finset.range K, (m + e) / K = m := by
  induction m with
  | zero =>
    refine Finset.sum_eq_zero fun e he => ?_
    rw [Nat.zero_add]
    exact Nat.div_eq_of_lt (Finset.mem_range.1 he)
  | succ m ih =>
    have h1 := Finset.sum_range_succ (fun e => (m + e) / K) K
    have h2 := Finset.sum_range_succ' (fun e => (m + e) / K) K
    rw [h1, ih, Nat.add_div_right _ hK] at h2
    simp only [Nat.add_zero] at h2
    have h3 : ∑ e ∈ Finset.range K, (m + 1 + e) / K = ∑ k ∈ Finset.range K, (m + (k + 1)) / K :=
      Finset.sum_congr rfl fun e _ => by rw [Nat.add_assoc, Nat.add_comm 1 e]
    rw [h3]; omega

/-- The number of nodes in the first children. -/
def cntTo (K m d : Nat) : Nat := ∑ e ∈ Finset.Ico 1 d, (m + K - e) / K

theorem cntTo_full (K m : Nat) (hK : 0 < K) : cntTo K m (K + 1) = m := by
  unfold cntTo
  rw [Finset.sum_Ico_eq_sum_range]
  simp only [Nat.add_sub_cancel]
  rw [← Finset.sum_range_reflect]
  conv_rhs => rw [← hermite K m hK]
  refine Finset.sum_congr rfl fun e he => ?_
  have := Finset.mem_range.1 he
  congr 1; omega

theorem cntTo_succ (K m d : Nat) (hd : 1 ≤ d) : cntTo K m (d + 1) = cntTo K m d + (m + K - d) / K := by
  unfold cntTo; exact Finset.sum_Ico_succ_top hd _

theorem cntTo_le (K m d d' : Nat) (h : d ≤ d') : cntTo K m d ≤ cntTo K m d' := by
  unfold cntTo
  exact Finset.sum_le_sum_of_subset (Finset.Ico_subset_Ico le_rfl h)

theorem cntTo_stop (K m d : Nat) (hd : 1 ≤ d) (hdk : d ≤ K + 1) (hK : 0 < K) (h : m < d) : cntTo K m d = m := by
  have h1 := cntTo_full K m hK
  unfold cntTo at *
  rw [← Finset.sum_Ico_consecutive _ hd hdk] at h1
  have : ∑ i ∈ Finset.Ico d (K + 1), (m + K - i) / K = 0 := by
    refine Finset.sum_eq_zero fun e he => Nat.div_eq_of_lt ?_
    have := Finset.mem_Ico.1 he
    omega
  omega

/-- The size of the subtree of a child. -/
theorem kid_count (n a p K o nid : Nat) (hp : 0 < p) (hK : 0 < K) (hnid : nid = a + o * p) (hlt : nid < n) :
    (n - 1 - nid) / (K * p) + 1 = ((n - 1 - a) / p + K - o) / K ∧ o ≤ (n - 1 - a) / p := by
  have h1 : n - 1 - nid = n - 1 - a - p * o := by rw [hnid, Nat.mul_comm p o]; omega
  have h2 : o ≤ (n - 1 - a) / p := by rw [Nat.le_div_iff_mul_le hp]; omega
  refine ⟨?_, h2⟩
  rw [h1, Nat.mul_comm K p, ← Nat.div_div_eq_div_mul, Nat.sub_mul_div, ← Nat.add_div_right _ hK]
  congr 1; omega

theorem buildDfs_tot {lg : Nat} {init : Array T} : ∀ {fuel : Nat} {h : Heap T} {lab : Nat → Nat × Nat} {cur a p : Nat},
    init.size - a < fuel → Ready lg init h lab cur a p → Tot (buildDfs lg init fuel h cur a p) (Built lg init h lab cur a p) := by
  intro fuel
  induction fuel with
  | zero => intro h lab cur a p hf; omega
  | succ fuel ih =>
    intro h lab cur a p hf r
    obtain ⟨v, hv, hn⟩ := r.nd
    have hcur : cur < h.nodes.size := (Array.getElem?_eq_some_iff.1 hn).1
    have hK : 0 < 2 ^ lg := Nat.pow_pos (by decide)
    have hp := r.pp
    have hal := r.lt
    obtain ⟨m, hm⟩ : ∃ m, m = (init.size - 1 - a) / p := ⟨_, rfl⟩
    have hcap := r.cap
    rw [← hm] at hcap
    rw [buildDfs]
    have hrec : ∀ nid, a < nid → ∀ h lab c, Ready lg init h lab c nid (p <<< lg) → Tot (buildDfs lg init fuel h c nid (p <<< lg)) (Built lg init h lab c nid (p <<< lg)) := by
      intro nid hnid h lab c hr
      exact ih (by have := r.lt; omega) hr
    have hfull := cntTo_full (2 ^ lg) m hK
    refine Tot.bind (P := fun (s : Heap T × Nat × Nat) => 1 ≤ s.2.1 ∧ s.2.1 ≤ 2 ^ lg ∧ s.2.2 = a + s.2.1 * p ∧ (s.2.1 < 2 ^ lg → init.size ≤ s.2.2) ∧
      BI lg init h lab cur a p v (cntTo (2 ^ lg) m s.2.1) (fun e => 1 ≤ e ∧ e < s.2.1) s.1) ?_ ?_
    · refine Tot.loop (P := fun (s : Heap T × Nat × Nat) => 1 ≤ s.2.1 ∧ s.2.1 ≤ 2 ^ lg ∧ s.2.2 = a + s.2.1 * p ∧
        BI lg init h lab cur a p v (cntTo (2 ^ lg) m s.2.1) (fun e => 1 ≤ e ∧ e < s.2.1) s.1) (fun s => 2 ^ lg - s.2.1) ?_ ?_ ?_
      · rintro ⟨h', d, nid⟩ ⟨h1, h2, h3, b⟩
        dsimp only at h1 h2 h3 b
        unfold buildStep
        dsimp only
        rw [Nat.one_shiftLeft]
        by_cases hd : d < 2 ^ lg
        · rw [if_pos hd]
          by_cases hlt : nid < init.size
          · rw [if_pos hlt]
            have hoff : off lg d = d := if_neg (by omega)
            have hnid : nid = a + off lg d * p := by rw [hoff, h3]
            obtain ⟨kc1, kc2⟩ := kid_count init.size a p (2 ^ lg) d nid hp hK (by rw [h3]) hlt
            rw [← hm] at kc1 kc2
            have hsucc := cntTo_succ (2 ^ lg) m d h1
            have hle := cntTo_le (2 ^ lg) m (d + 1) (2 ^ lg + 1) (by omega)
            have hgt : a < nid := by
              have : 0 < d * p := Nat.mul_pos (by omega) hp
              omega
            have hk := kid_tot (rec := fun h c nid => buildDfs lg init fuel h c nid (p <<< lg)) hcur hp r.lb b hd (by omega) hnid hlt (hrec nid hgt) (by omega)
            obtain ⟨h'', e1, b'⟩ := hk
            obtain ⟨⟨h5, c5⟩, e5, -⟩ : ∃ r, addChild lg init h' cur d nid = .ok r ∧ True := by
              cases hx : addChild lg init h' cur d nid with
              | error e => rw [hx] at e1; simp [bind, Except.bind] at e1
              | ok r => exact ⟨r, rfl, trivial⟩
            rw [e5, ok_bind] at e1
            dsimp only at e1
            rw [e5, ok_bind]
            dsimp only
            rw [e1, ok_bind]
            refine Tot.pure ⟨⟨by dsimp only; omega, by dsimp only; omega, by dsimp only; rw [h3]; ring, ?_⟩, by dsimp only; omega⟩
            dsimp only
            rw [hsucc]
            have : cntTo (2 ^ lg) m d + (init.size - 1 - nid) / (2 ^ lg * p) + 1 = cntTo (2 ^ lg) m d + (m + 2 ^ lg - d) / 2 ^ lg := by omega
            rw [this] at b'
            refine b'.mono fun e he => ?_
            omega
          · rw [if_neg hlt]
            exact Tot.pure ⟨h1, h2, h3, fun _ => by omega, b⟩
        · rw [if_neg hd]
          exact Tot.pure ⟨h1, h2, h3, fun hc => absurd hc hd, b⟩
      · refine ⟨le_rfl, hK, by dsimp only; omega, ?_⟩
        have h0 : cntTo (2 ^ lg) m 1 = 0 := by unfold cntTo; simp
        dsimp only
        rw [h0]
        refine ⟨rfl, rfl, ⟨lab, r.wf, fun _ _ => rfl⟩, fun _ _ _ => rfl, ?_, _, hn, ?_, ?_⟩
        · intro q x d c hq hx hd
          rcases hq with hq | hq
          · have := (Array.getElem?_eq_some_iff.1 hx).1; omega
          · subst hq
            rw [hn] at hx; cases hx
            dsimp only at hd
            rw [Array.getElem?_replicate] at hd
            split at hd <;> simp at hd
        · intro e he _
          rw [Array.getElem?_replicate, if_pos he]
        · intro e he hc; omega
      · dsimp only; rw [Nat.one_shiftLeft]; omega
    · rintro ⟨h', d, nid⟩ ⟨h1, h2, h3, h4, b⟩
      dsimp only at h1 h2 h3 h4 b
      unfold buildLast
      dsimp only
      rw [Nat.one_shiftLeft]
      -- the result from a finished state
      have fin : ∀ h'' dn, BI lg init h lab cur a p v m dn h'' → (∀ e, e < 2 ^ lg → ¬ dn e → init.size ≤ a + off lg e * p) → Built lg init h lab cur a p h'' := by
        intro h'' dn b hdn
        refine ⟨by rw [b.sz, hm], b.cap, b.wf, b.fr, b.up, ?_⟩
        obtain ⟨ch, n1, n2, n3⟩ := b.nd
        intro j
        by_cases hj : j = 0
        · subst hj
          rw [val_zero, n1, Nat.mul_zero, Nat.add_zero, hv]; rfl
        · rw [val_pos _ _ _ hj, child_some n1]
          have hjl : j % 2 ^ lg < 2 ^ lg := Nat.mod_lt _ hK
          have hla := lab_arith (2 ^ lg) a p j hj
          dsimp only
          by_cases hdj : dn (j % 2 ^ lg)
          · rw [n3 _ hjl hdj]
            unfold off
            rw [hla]
          · rw [n2 _ hjl hdj, Option.join_some, val_none]
            symm
            rw [Array.getElem?_eq_none_iff]
            have := hdn _ hjl hdj
            unfold off at this
            rw [← hla]
            exact Nat.le_trans this (Nat.le_add_right _ _)
      by_cases hd : d < 2 ^ lg
      · rw [if_pos hd]
        have hge := h4 hd
        have hmd : m < d := by
          rw [hm, Nat.div_lt_iff_lt_mul hp]
          omega
        rw [cntTo_stop (2 ^ lg) m d h1 (by omega) hK hmd] at b
        refine Tot.pure (fin _ _ b ?_)
        intro e he hn
        have : d * p ≤ off lg e * p := Nat.mul_le_mul_right _ (by unfold off; split <;> omega)
        omega
      · rw [if_neg hd]
        obtain rfl : d = 2 ^ lg := by omega
        have hoff : off lg 0 = 2 ^ lg := if_pos rfl
        by_cases hlt : nid < init.size
        · rw [if_pos hlt]
          obtain ⟨kc1, kc2⟩ := kid_count init.size a p (2 ^ lg) (2 ^ lg) nid hp hK (by rw [h3]) hlt
          rw [← hm] at kc1 kc2
          have hsucc := cntTo_succ (2 ^ lg) m (2 ^ lg) hK
          have hgt : a < nid := by
            have : 0 < 2 ^ lg * p := Nat.mul_pos hK hp
            omega
          have hk := kid_tot (rec := fun h c nid => buildDfs lg init fuel h c nid (p <<< lg)) (d := 0) hcur hp r.lb b hK (by omega) (by rw [hoff, h3]) hlt (hrec nid hgt) (by omega)
          refine hk.mono ?_
          intro h'' b'
          have : cntTo (2 ^ lg) m (2 ^ lg) + (init.size - 1 - nid) / (2 ^ lg * p) + 1 = m := by omega
          rw [this] at b'
          refine fin _ _ b' ?_
          intro e he hn
          omega
        · rw [if_neg hlt]
          have hmd : m < 2 ^ lg := by
            rw [hm, Nat.div_lt_iff_lt_mul hp]
            omega
          rw [cntTo_stop (2 ^ lg) m (2 ^ lg) hK (by omega) hK hmd] at b
          refine Tot.pure (fin _ _ b ?_)
          intro e he hn
          obtain rfl : e = 0 := by omega
          rw [hoff]; omega

theorem build_tot {lg : Nat} {init : Array T} {h : Heap T} {lab : Nat → Nat × Nat} (w : WF lg lab h) (hcap : h.nodes.size + init.size ≤ h.cap) :
    Tot (build lg h init) fun a => a.1.nodes.size = h.nodes.size + init.size ∧ a.1.cap = h.cap ∧
      (∀ q, q < h.nodes.size → a.1.nodes[q]? = h.nodes[q]?) ∧ ∃ lab', WF lg lab' a.1 ∧ (∀ q, q < h.nodes.size → lab' q = lab q) ∧
        ((init.size = 0 ∧ a.2 = none) ∨ ∃ r, a.2 = some r ∧ r < a.1.nodes.size ∧ lab' r = (0, 1) ∧ ∀ j, val lg a.1 (some r) j = init[j]?) := by
  unfold build
  by_cases h0 : init.size = 0
  · rw [if_pos h0]
    exact Tot.pure ⟨by simp [h0], rfl, fun _ _ => rfl, lab, w, fun _ _ => rfl, Or.inl ⟨h0, rfl⟩⟩
  · rw [if_neg h0]
    obtain ⟨y, hy⟩ : ∃ y, init[0]? = some y := ⟨_, Array.getElem?_eq_getElem (by omega)⟩
    rw [rd_some hy, ok_bind]
    obtain ⟨x, hx⟩ : ∃ x : Nd T, x = ⟨Array.replicate (2 ^ lg) none, y⟩ := ⟨_, rfl⟩
    obtain ⟨h1, hh1⟩ : ∃ h1 : Heap T, h1 = { h with nodes := h.nodes.push x } := ⟨_, rfl⟩
    have hn : newNode lg h y = .ok (h1, h.nodes.size) := by
      unfold newNode allocWith
      rw [if_pos (by omega), hh1, hx, Nat.one_shiftLeft]; rfl
    rw [hn, ok_bind]
    dsimp only
    have w1 := w.push (x := x) (l := (0, 1)) (by rw [hx]; simp) (by
      intro d' c' hd'
      rw [hx] at hd'
      dsimp only at hd'
      rw [Array.getElem?_replicate] at hd'
      split at hd' <;> simp at hd')
    obtain ⟨lab1, hlab1⟩ : ∃ l : Nat → Nat × Nat, l = (fun q => if q = h.nodes.size then (0, 1) else lab q) := ⟨_, rfl⟩
    rw [← hlab1, ← hh1] at w1
    have hsz : h1.nodes.size = h.nodes.size + 1 := by rw [hh1]; simp
    have hc1 : h1.cap = h.cap := by rw [hh1]
    have hr : Ready lg init h1 lab1 h.nodes.size 0 1 := by
      refine ⟨Nat.one_pos, by omega, w1, ⟨y, hy, ?_⟩, ?_, ?_⟩
      · rw [hh1, nodes_push, if_pos rfl, hx]
      · rw [hlab1]; exact if_pos rfl
      · rw [hsz, hc1, Nat.div_one]; omega
    refine Tot.bind (buildDfs_tot (by omega) hr) ?_
    intro h' g
    have gsz := g.sz
    rw [Nat.div_one, hsz] at gsz
    obtain ⟨lab', w', hl'⟩ := g.wf
    refine Tot.pure ⟨by dsimp only; omega, by rw [g.cap, hc1], ?_, lab', w', ?_, Or.inr ⟨h.nodes.size, rfl, by dsimp only; omega, ?_, ?_⟩⟩
    · intro q hq
      rw [g.fr q (by omega) (by omega), hh1, nodes_push, if_neg (by omega)]
    · intro q hq
      rw [hl' q (by omega), hlab1]; exact if_neg (by omega)
    · rw [hl' _ (by omega), hlab1]; exact if_pos rfl
    · intro j
      rw [g.el, Nat.zero_add, Nat.one_mul]

end PersistentArray
