import Verif.Spec.RangeCountDistinct
import Mathlib.Data.Finset.Image
import Mathlib.Order.Interval.Finset.Nat
import Mathlib.Algebra.BigOperators.Group.List.Basic
import Mathlib.Algebra.Group.Int.Defs

namespace RangeCountDistinct
open Cxx

/-! ## The previous equal element -/

/-- `p` is one more than the last index before `i` with the same value, or 0. -/
def IsPrv (a : Array Int) (i p : Nat) : Prop := (∀ j, j < i → at' 0 a j = at' 0 a i → j < p) ∧ (p = 0 ∨ p ≤ i ∧ at' 0 a (p - 1) = at' 0 a i)

theorem prv_tot (a : Array Int) : Tot (forUp 0 a.size ((fun _ => 0 : Int → Nat), Array.replicate a.size 0) (prvStep a)) (fun s => s.2.size = a.size ∧ ∀ i, i < a.size → IsPrv a i (at' 0 s.2 i)) := by
  refine (Tot.forUp (lo := 0) (hi := a.size) (P := fun k (s : (Int → Nat) × Array Nat) => s.2.size = a.size ∧ (∀ i, i < k → IsPrv a i (at' 0 s.2 i)) ∧
    ∀ x, (∀ j, j < k → at' 0 a j = x → j < s.1 x) ∧ (s.1 x = 0 ∨ s.1 x ≤ k ∧ at' 0 a (s.1 x - 1) = x)) (Nat.zero_le _) ?_ ?_).mono ?_
  · refine ⟨by simp, fun i hi => absurd hi (by omega), fun x => ⟨fun j hj => absurd hj (by omega), Or.inl rfl⟩⟩
  · rintro k ⟨f, prv⟩ - hk ⟨h1, h2, h3⟩
    dsimp only at h1 h2 h3
    unfold prvStep
    dsimp only
    rw [rd_at 0 hk, ok_bind, wr_eq (by omega), ok_bind]
    refine tot_ok.mpr ⟨by simpa using h1, ?_, ?_⟩
    · intro i hi
      dsimp only
      rw [at_set 0 (by omega)]
      by_cases c : k = i
      · rw [if_pos c, ← c]
        exact h3 _
      · rw [if_neg c]
        exact h2 i (by omega)
    · intro x
      dsimp only
      by_cases c : x = at' 0 a k
      · rw [if_pos c]
        exact ⟨fun j hj _ => hj, Or.inr ⟨le_refl _, by rw [c]; rfl⟩⟩
      · rw [if_neg c]
        refine ⟨?_, ?_⟩
        · intro j hj hx
          by_cases hjk : j = k
          · rw [hjk] at hx
            exact absurd hx.symm c
          · exact (h3 x).1 j (by omega) hx
        · rcases (h3 x).2 with h | ⟨h, h'⟩
          · exact Or.inl h
          · exact Or.inr ⟨by omega, h'⟩
  · rintro s ⟨h1, h2, -⟩
    exact ⟨h1, h2⟩

theorem IsPrv.le {a : Array Int} {i p : Nat} (h : IsPrv a i p) : p ≤ i := by
  rcases h.2 with h | h <;> omega

theorem IsPrv.iff {a : Array Int} {i p l : Nat} (h : IsPrv a i p) : p ≤ l ↔ ∀ j, l ≤ j → j < i → at' 0 a j ≠ at' 0 a i := by
  constructor
  · intro hp j h1 h2 h3
    have := h.1 j h2 h3
    omega
  · intro hh
    rcases h.2 with h' | ⟨h', h''⟩
    · omega
    · by_contra hc
      exact hh (p - 1) (by omega) (by omega) h''

theorem count_first {a : Array Int} {p : Nat → Nat} (hp : ∀ i, i < a.size → IsPrv a i (p i)) {l r : Nat} (hlr : l ≤ r) (hr : r ≤ a.size) :
    (List.range r).countP (fun i => decide (p i < l + 1)) = l + ((a.toList.drop l).take (r - l)).toFinset.card := by
  have e1 : (List.range r).countP (fun i => decide (p i < l + 1)) = ((Finset.range r).filter fun i => p i < l + 1).card := by
    rw [List.countP_eq_length_filter]
    rfl
  have e2 : (Finset.range r).filter (fun i => p i < l + 1) = Finset.range l ∪ (Finset.Ico l r).filter fun i => p i < l + 1 := by
    ext i
    simp only [Finset.mem_filter, Finset.mem_range, Finset.mem_union, Finset.mem_Ico]
    constructor
    · rintro ⟨h1, h2⟩
      by_cases c : i < l
      · exact Or.inl c
      · exact Or.inr ⟨⟨by omega, h1⟩, h2⟩
    · rintro (h | ⟨⟨h1, h2⟩, h3⟩)
      · have := (hp i (by omega)).le
        exact ⟨by omega, by omega⟩
      · exact ⟨h2, h3⟩
  rw [e1, e2, Finset.card_union_of_disjoint, Finset.card_range]
  · congr 1
    refine Finset.card_bij (fun i _ => at' 0 a i) ?_ ?_ ?_
    · intro i hi
      simp only [Finset.mem_filter, Finset.mem_Ico] at hi
      rw [List.mem_toFinset, List.mem_iff_getElem?]
      refine ⟨i - l, ?_⟩
      rw [List.getElem?_take, if_pos (by omega), List.getElem?_drop, show l + (i - l) = i by omega, Array.getElem?_toList]
      unfold at'
      rw [Array.getElem?_eq_getElem (by omega)]
      rfl
    · intro i hi j hj e
      simp only [Finset.mem_filter, Finset.mem_Ico] at hi hj
      have q1 := (hp i (by omega)).iff.mp (show p i ≤ l by omega)
      have q2 := (hp j (by omega)).iff.mp (show p j ≤ l by omega)
      by_contra hc
      rcases Nat.lt_or_ge i j with h | h
      · exact q2 i hi.1.1 h e
      · exact q1 j hj.1.1 (by omega) e.symm
    · intro x hx
      rw [List.mem_toFinset, List.mem_iff_getElem?] at hx
      obtain ⟨k, hk⟩ := hx
      have hkl : k < r - l := by
        by_contra hc
        rw [List.getElem?_take, if_neg hc] at hk
        cases hk
      rw [List.getElem?_take, if_pos hkl, List.getElem?_drop, Array.getElem?_toList] at hk
      have hex : ∃ j, l ≤ j ∧ j < r ∧ at' 0 a j = x := ⟨l + k, by omega, by omega, by unfold at'; rw [hk]; rfl⟩
      classical
      obtain ⟨f1, f2, f3⟩ := Nat.find_spec hex
      refine ⟨Nat.find hex, ?_, f3⟩
      simp only [Finset.mem_filter, Finset.mem_Ico]
      refine ⟨⟨f1, f2⟩, Nat.lt_succ_of_le ((hp _ (by omega)).iff.mpr ?_)⟩
      intro j j1 j2 j3
      exact Nat.find_min hex j2 ⟨j1, by omega, by rw [j3, f3]⟩
  · rw [Finset.disjoint_left]
    intro i h1 h2
    simp only [Finset.mem_filter, Finset.mem_Ico, Finset.mem_range] at h1 h2
    omega

/-! ## Bucket sort -/

section Bucket
variable {n : Nat} {qs : Array (Nat × Nat)}

/-- The right end of a query. -/
def key (qs : Array (Nat × Nat)) (i : Nat) : Nat := (at' (0, 0) qs i).2

/-- The number of the first `c` queries with right end `d`. -/
def E (qs : Array (Nat × Nat)) (d c : Nat) : Nat := (List.range c).countP fun i => decide (key qs i = d)

/-- The number of queries with right end below `d`. -/
def L (qs : Array (Nat × Nat)) (d : Nat) : Nat := (List.range qs.size).countP fun i => decide (key qs i < d)

theorem E_succ (d c : Nat) : E qs d (c + 1) = E qs d c + if key qs c = d then 1 else 0 := by
  unfold E
  rw [List.range_succ, List.countP_append]
  simp [List.countP_cons]

theorem E_mono (d : Nat) {c c' : Nat} (h : c ≤ c') : E qs d c ≤ E qs d c' := by
  induction c', h using Nat.le_induction with
  | base => exact le_refl _
  | succ c' _ ih =>
    rw [E_succ]
    omega

theorem L_succ (d : Nat) : L qs (d + 1) = L qs d + E qs d qs.size := by
  unfold L E
  generalize qs.size = m
  induction m with
  | zero => rfl
  | succ m ih =>
    rw [List.range_succ, List.countP_append, List.countP_append, List.countP_append, ih]
    simp only [List.countP_cons, List.countP_nil, Nat.zero_add, decide_eq_true_eq]
    split_ifs <;> omega

theorem L_zero : L qs 0 = 0 := by
  unfold L
  rw [List.countP_eq_zero]
  intro i _
  simp

theorem L_mono {d d' : Nat} (h : d ≤ d') : L qs d ≤ L qs d' := by
  induction d', h using Nat.le_induction with
  | base => exact le_refl _
  | succ d' _ ih =>
    rw [L_succ]
    omega

theorem L_all {d : Nat} (h : ∀ i, i < qs.size → key qs i < d) : L qs d = qs.size := by
  unfold L
  rw [List.countP_eq_length.mpr, List.length_range]
  intro i hi
  exact decide_eq_true (h i (List.mem_range.mp hi))

theorem L_le (d : Nat) : L qs d ≤ qs.size := by
  unfold L
  have := List.countP_le_length (p := fun i => decide (key qs i < d)) (l := List.range qs.size)
  rwa [List.length_range] at this

theorem count_tot (hq : ∀ i, i < qs.size → key qs i ≤ n) :
    Tot (forEach qs.toList (Array.replicate (n + 2) 0) countStep) (fun ix => ix.size = n + 2 ∧ ∀ d, at' 0 ix d = E qs d qs.size) := by
  refine (Tot.forEach (P := fun pre (ix : Array Nat) => ix.size = n + 2 ∧ ∀ d, at' 0 ix d = E qs d pre.length) ?_ ?_).mono ?_
  · refine ⟨by simp, fun d => ?_⟩
    unfold at' E
    rw [Array.getElem?_replicate]
    split <;> rfl
  · intro pre x post ix e h
    have hlen := congrArg List.length e
    rw [Array.length_toList, List.length_append, List.length_cons] at hlen
    have hx : at' (0, 0) qs pre.length = x := by
      unfold at'
      rw [← Array.getElem?_toList, e, List.getElem?_append_right (le_refl _)]
      simp
    have hk := hq pre.length (by omega)
    have hkx : key qs pre.length = x.2 := by unfold key; rw [hx]
    unfold countStep
    rw [rd_at 0 (by omega), ok_bind, wr_eq (by omega)]
    refine tot_ok.mpr ⟨by simpa using h.1, fun d => ?_⟩
    rw [at_set 0 (by omega), List.length_append, List.length_singleton, E_succ, hkx, h.2, h.2]
    split_ifs with c
    · rw [c]
    · rfl
  · intro ix h
    rwa [Array.length_toList] at h

theorem prefix_tot {ix : Array Nat} (h : ix.size = n + 2) (hd : ∀ d, at' 0 ix d = E qs d qs.size) :
    Tot (forUp 1 (n + 1) ix prefixStep) (fun ix => ix.size = n + 2 ∧ ∀ d, d ≤ n → at' 0 ix d = L qs (d + 1)) := by
  refine (Tot.forUp (lo := 1) (hi := n + 1) (P := fun k (ix : Array Nat) => ix.size = n + 2 ∧ (∀ d, d < k → at' 0 ix d = L qs (d + 1)) ∧ ∀ d, k ≤ d → at' 0 ix d = E qs d qs.size) (by omega) ?_ ?_).mono ?_
  · refine ⟨h, ?_, fun d _ => hd d⟩
    intro d hd'
    rw [hd, show d = 0 by omega, L_succ, L_zero, Nat.zero_add]
  · rintro k ix h1 h2 ⟨h3, h4, h5⟩
    unfold prefixStep
    rw [rd_at 0 (by omega), ok_bind, rd_at 0 (by omega), ok_bind, wr_eq (by omega)]
    refine tot_ok.mpr ⟨by simpa using h3, ?_, ?_⟩
    · intro d hdk
      rw [at_set 0 (by omega)]
      by_cases c : k = d
      · rw [if_pos c, h5 k (le_refl _), h4 (k - 1) (by omega), ← c, show k - 1 + 1 = k by omega, L_succ, Nat.add_comm]
      · rw [if_neg c]
        exact h4 d (by omega)
    · intro d hdk
      rw [at_set 0 (by omega), if_neg (by omega)]
      exact h5 d (by omega)
  · rintro ix ⟨h1, h2, -⟩
    exact ⟨h1, fun d hd => h2 d (by omega)⟩

theorem place_tot (hq : ∀ i, i < qs.size → key qs i ≤ n) {ix : Array Nat} (h : ix.size = n + 2) (hd : ∀ d, d ≤ n + 1 → at' 0 ix d = L qs (d + 1)) :
    Tot (forUp 0 qs.size (ix, Array.replicate qs.size 0) (placeStep qs)) (fun s => s.1.size = n + 2 ∧ s.2.size = qs.size ∧ (∀ d, d ≤ n + 1 → at' 0 s.1 d = L qs d) ∧
      (∀ d, d ≤ n → ∀ x, L qs d ≤ x → x < L qs (d + 1) → at' 0 s.2 x < qs.size ∧ key qs (at' 0 s.2 x) = d) ∧
      ∀ i, i < qs.size → ∃ x, L qs (key qs i) ≤ x ∧ x < L qs (key qs i + 1) ∧ at' 0 s.2 x = i) := by
  refine (Tot.forUp (lo := 0) (hi := qs.size) (P := fun c (s : Array Nat × Array Nat) => s.1.size = n + 2 ∧ s.2.size = qs.size ∧ (∀ d, d ≤ n + 1 → at' 0 s.1 d + E qs d c = L qs (d + 1)) ∧
      (∀ d, d ≤ n → ∀ x, at' 0 s.1 d ≤ x → x < L qs (d + 1) → at' 0 s.2 x < qs.size ∧ key qs (at' 0 s.2 x) = d) ∧
      ∀ i, i < c → ∃ x, at' 0 s.1 (key qs i) ≤ x ∧ x < L qs (key qs i + 1) ∧ at' 0 s.2 x = i) (Nat.zero_le _) ?_ ?_).mono ?_
  · refine ⟨h, by simp, fun d hd' => hd d hd', ?_, fun i hi => absurd hi (by omega)⟩
    intro d hd' x h1 h2
    dsimp only at h1
    rw [hd d (by omega)] at h1
    omega
  · rintro c ⟨ix, ord⟩ - hc ⟨h1, h2, h3, h4, h5⟩
    dsimp only at h1 h2 h3 h4 h5
    have hk := hq c hc
    have hk3 := h3 (key qs c) (by omega)
    have hE : E qs (key qs c) (c + 1) ≤ E qs (key qs c) qs.size := E_mono _ hc
    rw [E_succ, if_pos rfl] at hE
    have hL := L_succ (qs := qs) (key qs c)
    have hlow : ∀ d, d ≤ n → L qs d ≤ at' 0 ix d := by
      intro d hd'
      have e1 := h3 d (by omega)
      have e2 := E_mono (qs := qs) d (Nat.le_of_lt hc)
      have e3 := L_succ (qs := qs) d
      omega
    have hqs := L_le (qs := qs) (key qs c + 1)
    unfold placeStep
    rw [rd_at (0, 0) hc, ok_bind]
    have hkey : (at' (0, 0) qs c).2 = key qs c := rfl
    dsimp only
    rw [hkey, rd_at 0 (by omega), ok_bind, wr_eq (by omega), ok_bind, if_neg (by omega), wr_eq (by omega), ok_bind]
    have disj : ∀ d, d ≤ n → d ≠ key qs c → ∀ x, at' 0 ix d ≤ x → x < L qs (d + 1) → at' 0 ix (key qs c) - 1 ≠ x := by
      intro d hd' hne x x1 x2 he
      have := hlow d hd'
      rcases Nat.lt_or_gt_of_ne hne with hlt | hlt
      · have := L_mono (qs := qs) (show d + 1 ≤ key qs c from hlt)
        omega
      · have := L_mono (qs := qs) (show key qs c + 1 ≤ d from hlt)
        omega
    refine tot_ok.mpr ⟨by simpa using h1, by simpa using h2, ?_, ?_, ?_⟩
    · intro d hd'
      dsimp only
      rw [at_set 0 (by omega), E_succ]
      by_cases e : key qs c = d
      · rw [if_pos e, if_pos e, ← e]
        omega
      · rw [if_neg e, if_neg e]
        exact h3 d hd'
    · intro d hd' x x1 x2
      dsimp only at x1 ⊢
      rw [at_set 0 (by omega)] at x1
      rw [at_set 0 (by omega)]
      by_cases hx : at' 0 ix (key qs c) - 1 = x
      · rw [if_pos hx]
        refine ⟨hc, ?_⟩
        by_contra hne
        rw [if_neg hne] at x1
        exact disj d hd' (fun h' => hne h'.symm) x x1 x2 hx
      · rw [if_neg hx]
        refine h4 d hd' x ?_ x2
        by_cases e : key qs c = d
        · rw [if_pos e] at x1
          rw [← e]
          omega
        · rwa [if_neg e] at x1
    · intro i hi
      dsimp only
      by_cases hic : i = c
      · rw [hic]
        refine ⟨at' 0 ix (key qs c) - 1, ?_, by omega, ?_⟩
        · rw [at_set 0 (by omega), if_pos rfl]
        · rw [at_set 0 (by omega), if_pos rfl]
      · obtain ⟨x, x1, x2, x3⟩ := h5 i (by omega)
        refine ⟨x, ?_, x2, ?_⟩
        · rw [at_set 0 (by omega)]
          by_cases e : key qs c = key qs i
          · rw [if_pos e, e]
            omega
          · rw [if_neg e]
            exact x1
        · rw [at_set 0 (by omega), if_neg, x3]
          by_cases e : key qs c = key qs i
          · rw [e]
            rw [e] at hk3 hE hL
            omega
          · exact disj _ (hq i (by omega)) (fun h' => e h'.symm) x x1 x2
  · rintro ⟨ix', ord⟩ ⟨h1, h2, h3, h4, h5⟩
    dsimp only at h1 h2 h3 h4 h5
    have hix : ∀ d, d ≤ n + 1 → at' 0 ix' d = L qs d := by
      intro d hd'
      have := h3 d hd'
      have := L_succ (qs := qs) d
      omega
    refine ⟨h1, h2, hix, ?_, ?_⟩
    · intro d hd' x x1 x2
      exact h4 d hd' x (by rw [hix d (by omega)]; exact x1) x2
    · intro i hi
      obtain ⟨x, x1, x2, x3⟩ := h5 i hi
      rw [hix _ (by have := hq i hi; omega)] at x1
      exact ⟨x, x1, x2, x3⟩

end Bucket

/-! ## The sweep -/

theorem sum_take_set : ∀ (l : List Int) (p : Nat) (hp : p < l.length) (k : Nat), ((l.set p (l[p] + 1)).take k).sum = (l.take k).sum + if p < k then 1 else 0 := by
  intro l
  induction l with
  | nil =>
    intro p hp
    simp at hp
  | cons x l ih =>
    intro p hp k
    cases k with
    | zero => simp
    | succ k =>
      cases p with
      | zero =>
        simp
        omega
      | succ p =>
        have := ih p (by simpa using hp) k
        simp only [List.set_cons_succ, List.take_succ_cons, List.sum_cons, List.getElem_cons_succ, this, Nat.add_lt_add_iff_right]
        omega

theorem solve_tot {a : List Int} {qs : Array (Nat × Nat)} (hq : ∀ i, i < qs.size → (at' (0, 0) qs i).1 ≤ key qs i ∧ key qs i ≤ a.length) :
    Tot (solve ⟨a.toArray, qs⟩) (fun r => r.size = qs.size ∧ ∀ i, i < qs.size → at' 0 r i = (distinct a ((at' (0, 0) qs i).1, (at' (0, 0) qs i).2) : Int)) := by
  unfold solve
  dsimp only
  refine (prv_tot a.toArray).bind ?_
  rintro ⟨f, prv⟩ ⟨p1, p2⟩
  dsimp only at p1 p2 ⊢
  have hn : a.toArray.size = a.length := by simp
  rw [hn] at p1 p2 ⊢
  have hq2 : ∀ i, i < qs.size → key qs i ≤ a.length := fun i hi => (hq i hi).2
  refine (count_tot hq2).bind ?_
  rintro ix ⟨c1, c2⟩
  refine (prefix_tot c1 c2).bind ?_
  rintro ix1 ⟨d1, d2⟩
  rw [wr_eq (by omega), ok_bind]
  have hL : L qs (a.length + 1) = qs.size := L_all fun i hi => by have := hq2 i hi; omega
  have hL2 : L qs (a.length + 2) = qs.size := L_all fun i hi => by have := hq2 i hi; omega
  refine (place_tot (n := a.length) hq2 (ix := ix1.setIfInBounds (a.length + 1) qs.size) (by simpa using d1) ?_).bind ?_
  · intro d hd
    rw [at_set 0 (by omega)]
    by_cases c : a.length + 1 = d
    · rw [if_pos c, ← c, hL2]
    · rw [if_neg c]
      exact d2 d (by omega)
  rintro ⟨ix2, ord⟩ ⟨s1, s2, s3, s4, s5⟩
  dsimp only at s1 s2 s3 s4 s5 ⊢
  have right : ∀ r, r ≤ a.length → ∀ i, i < qs.size → key qs i = r →
      ((List.range r).countP (fun j => decide (at' 0 prv j < (at' (0, 0) qs i).1 + 1)) : Int) - (at' (0, 0) qs i).1 = (distinct a ((at' (0, 0) qs i).1, (at' (0, 0) qs i).2) : Int) := by
    intro r hr i hi hk
    have h1 := (hq i hi).1
    rw [count_first (a := a.toArray) (by simpa using p2) (by omega) (by simpa using hr)]
    unfold distinct
    have : (at' (0, 0) qs i).2 = r := hk
    rw [this]
    simp only [Int.toNat_natCast]
    rw [show ((r : Int) - ((at' (0, 0) qs i).1 : Int)).toNat = r - (at' (0, 0) qs i).1 by omega]
    push_cast
    omega
  refine (Tot.forUp (lo := 0) (hi := a.length + 1) (P := fun r (s : Array Int × Array Int) => s.1.size = a.length + 1 ∧ s.2.size = qs.size ∧
      (r ≤ a.length → ∀ k, k ≤ a.length + 1 → (s.1.toList.take k).sum = ((List.range r).countP (fun j => decide (at' 0 prv j < k)) : Int)) ∧
      ∀ i, i < qs.size → key qs i < r → at' 0 s.2 i = (distinct a ((at' (0, 0) qs i).1, (at' (0, 0) qs i).2) : Int)) (Nat.zero_le _) ?_ ?_).bind ?_
  · refine ⟨by simp, by simp, ?_, fun i _ h => absurd h (by omega)⟩
    intro _ k hk
    dsimp only
    rw [Array.toList_replicate, List.take_replicate, List.sum_replicate]
    simp
  · rintro r ⟨ft, ans⟩ - hr ⟨h1, h2, h3, h4⟩
    dsimp only at h1 h2 h3 h4
    unfold sweepStep
    dsimp only
    rw [rd_at 0 (by omega), ok_bind, rd_at 0 (by omega), ok_bind, s3 r (by omega), s3 (r + 1) (by omega)]
    refine Tot.bind (P := fun ans' : Array Int => ans'.size = qs.size ∧ ∀ i, i < qs.size → key qs i < r + 1 → at' 0 ans' i = (distinct a ((at' (0, 0) qs i).1, (at' (0, 0) qs i).2) : Int)) ?_ ?_
    · refine (Tot.forUp (lo := L qs r) (hi := L qs (r + 1)) (P := fun x (s : Array Int) => s.size = qs.size ∧
        (∀ i, i < qs.size → key qs i < r → at' 0 s i = (distinct a ((at' (0, 0) qs i).1, (at' (0, 0) qs i).2) : Int)) ∧
        ∀ y, L qs r ≤ y → y < x → at' 0 s (at' 0 ord y) = (distinct a ((at' (0, 0) qs (at' 0 ord y)).1, (at' (0, 0) qs (at' 0 ord y)).2) : Int)) (L_mono (Nat.le_succ r)) ?_ ?_).mono ?_
      · exact ⟨h2, h4, fun y y1 y2 => absurd y2 (by omega)⟩
      · rintro x s x1 x2 ⟨g1, g2, g3⟩
        obtain ⟨o1, o2⟩ := s4 r (by omega) x x1 x2
        have hxq := L_le (qs := qs) (r + 1)
        have hlr := (hq _ o1).1
        have o3 : (at' (0, 0) qs (at' 0 ord x)).2 = r := o2
        unfold answerStep ftSum
        rw [rd_at 0 (by omega), ok_bind, rd_at (0, 0) o1, ok_bind, decide_eq_true o3, check_true, ok_bind, decide_eq_true (by omega), check_true, ok_bind, pure_eq, ok_bind, wr_eq (by omega)]
        have hval : ((ft.toList.drop 0).take ((at' (0, 0) qs (at' 0 ord x)).1 + 1 - 0)).sum - ((at' (0, 0) qs (at' 0 ord x)).1 : Int) =
            (distinct a ((at' (0, 0) qs (at' 0 ord x)).1, (at' (0, 0) qs (at' 0 ord x)).2) : Int) := by
          rw [List.drop_zero, Nat.sub_zero, h3 (by omega) _ (by omega)]
          exact right r (by omega) _ o1 o2
        refine tot_ok.mpr ⟨by simpa using g1, ?_, ?_⟩
        · intro i hi hki
          rw [at_set 0 (by omega)]
          by_cases c : at' 0 ord x = i
          · rw [if_pos c, hval, c]
          · rw [if_neg c]
            exact g2 i hi hki
        · intro y y1 y2
          rw [at_set 0 (by omega)]
          by_cases c : at' 0 ord x = at' 0 ord y
          · rw [if_pos c, hval, c]
          · rw [if_neg c]
            refine g3 y y1 ?_
            by_contra hc
            exact c (by rw [show y = x by omega])
      · rintro s ⟨g1, g2, g3⟩
        refine ⟨g1, ?_⟩
        intro i hi hki
        by_cases c : key qs i < r
        · exact g2 i hi c
        · obtain ⟨x, x1, x2, x3⟩ := s5 i hi
          have : key qs i = r := by omega
          rw [this] at x1 x2
          have := g3 x x1 x2
          rwa [x3] at this
    · rintro ans' ⟨g1, g2⟩
      by_cases hrn : r < a.toArray.size
      · rw [if_pos hrn, rd_at 0 (by omega), ok_bind]
        have hp := p2 r (by omega)
        have hple := hp.le
        unfold ftAdd
        rw [decide_eq_true (by omega), check_true, ok_bind, rd_at 0 (by omega), ok_bind, wr_eq (by omega), ok_bind]
        refine tot_ok.mpr ⟨by simpa using h1, g1, ?_, g2⟩
        intro _ k hk
        dsimp only
        have hlt : at' 0 prv r < ft.toList.length := by rw [Array.length_toList]; omega
        have hget : at' 0 ft (at' 0 prv r) = ft.toList[at' 0 prv r] := by
          unfold at'
          rw [← Array.getElem?_toList]
          unfold at' at hlt
          rw [List.getElem?_eq_getElem hlt]
          rfl
        rw [Array.toList_setIfInBounds, hget, sum_take_set _ _ hlt, h3 (by omega) k hk, List.range_succ, List.countP_append]
        simp only [List.countP_cons, List.countP_nil, Nat.zero_add, decide_eq_true_eq]
        split_ifs <;> push_cast <;> omega
      · rw [if_neg hrn]
        exact tot_ok.mpr ⟨h1, g1, fun h => absurd h (by omega), g2⟩
  · rintro ⟨ft, ans⟩ ⟨h1, h2, -, h4⟩
    exact tot_ok.mpr ⟨h2, fun i hi => h4 i hi (by have := hq2 i hi; omega)⟩

/-! ## Histories -/

/-- Simulation. -/
structure Sim (a : List Int) (o : Obj) (t : List (Int × Int)) : Prop where
  ha : o.a = a.toArray
  hqs : o.qs.toList = t.map fun q => (q.1.toNat, q.2.toNat)
  ok : ∀ q ∈ t, 0 ≤ q.1 ∧ q.1 ≤ q.2 ∧ q.2 ≤ a.length

theorem init_sim (a : List Int) : Sim a (init a) [] := ⟨rfl, rfl, fun q hq => by cases hq⟩

theorem step_tot {a : List Int} {o : Obj} {t : List (Int × Int)} (h : Sim a o t) (i : Op) (hp : Pre a t i) : Tot (step o i) (fun r => Sim a r.1 (next t i) ∧ Ans a t i r.2) := by
  have hlen : o.qs.size = t.length := by
    have := congrArg List.length h.hqs
    simpa using this
  cases i with
  | addQuery l r =>
    unfold step addQuery
    dsimp only
    rw [h.ha, decide_eq_true (by have hp' : 0 ≤ l ∧ l ≤ r ∧ r ≤ (a.length : Int) := hp; simpa using hp'), check_true, ok_bind, pure_eq, ok_bind]
    refine tot_ok.mpr ⟨⟨rfl, ?_, ?_⟩, by show Out.id _ = Out.id _; rw [hlen]⟩
    · show (o.qs.push _).toList = (t ++ [(l, r)]).map _
      rw [Array.toList_push, h.hqs, List.map_append]
      rfl
    · intro q hq
      rcases List.mem_append.mp hq with hq | hq
      · exact h.ok q hq
      · rw [List.mem_singleton.mp hq]
        exact hp
  | solve =>
    have hat : ∀ i (hi : i < t.length), at' (0, 0) o.qs i = ((t[i]).1.toNat, (t[i]).2.toNat) := by
      intro i hi
      unfold at'
      rw [← Array.getElem?_toList, h.hqs, List.getElem?_map, List.getElem?_eq_getElem hi]
      rfl
    obtain ⟨oa, oqs⟩ := o
    have ha := h.ha
    dsimp only at ha hlen hat
    subst ha
    show Tot (solve ⟨a.toArray, oqs⟩ >>= fun r => (.ok (⟨a.toArray, oqs⟩, .ans r.toList) : M (Obj × Out))) _
    refine (solve_tot (a := a) (qs := oqs) ?_).bind ?_
    · intro i hi
      have hi' : i < t.length := by omega
      have := h.ok t[i] (List.getElem_mem hi')
      unfold key
      rw [hat i hi']
      dsimp only
      omega
    · rintro r ⟨r1, r2⟩
      refine tot_ok.mpr ⟨h, ?_⟩
      show Out.ans _ = Out.ans _
      congr 1
      apply List.ext_getElem
      · simp
        omega
      · intro i h1 h2
        have hi : i < t.length := by simpa using h2
        have hok := h.ok t[i] (List.getElem_mem hi)
        have e := r2 i (by omega)
        rw [hat i hi] at e
        rw [List.getElem_map, Array.getElem_toList]
        unfold at' at e
        rw [Array.getElem?_eq_getElem (by omega)] at e
        simp only [Option.getD_some] at e
        rw [e]
        congr 2
        ext
        · exact Int.toNat_of_nonneg hok.1
        · exact Int.toNat_of_nonneg (by omega)

end RangeCountDistinct
