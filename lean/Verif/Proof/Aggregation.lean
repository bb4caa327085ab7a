import Verif.Model.Aggregation
import Mathlib.Algebra.BigOperators.Group.List.Basic

/-! # Queue and deque aggregation: helper lemmas -/

namespace Aggregation
open Cxx

variable {T S : Type}

/-- Each value paired with the fold up to and including it. -/
def tagged (g : S → T → S) : S → List T → List (T × S)
  | _, [] => []
  | s, v :: vs => (v, g s v) :: tagged g (g s v) vs

theorem tagged_append (g : S → T → S) (s : S) (xs ys : List T) : tagged g s (xs ++ ys) = tagged g s xs ++ tagged g (xs.foldl g s) ys := by
  induction xs generalizing s with
  | nil => rfl
  | cons x xs ih => simp [tagged, ih]

theorem tagged_length (g : S → T → S) (s : S) (xs : List T) : (tagged g s xs).length = xs.length := by
  induction xs generalizing s with
  | nil => rfl
  | cons x xs ih => simp [tagged, ih]

theorem tagged_get (g : S → T → S) (s : S) (xs : List T) (i : Nat) :
    (tagged g s xs)[i]? = xs[i]?.map fun v => (v, (xs.take (i + 1)).foldl g s) := by
  induction xs generalizing s i with
  | nil => rfl
  | cons x xs ih =>
    cases i with
    | zero => simp [tagged]
    | succ i => simp [tagged, ih]

theorem tagged_fst (g : S → T → S) (s : S) (xs : List T) : (tagged g s xs).map Prod.fst = xs := by
  induction xs generalizing s with
  | nil => rfl
  | cons x xs ih => simp [tagged, ih]

theorem tagged_push (g : S → T → S) (s : S) (xs : List T) (v : T) :
    (tagged g s xs).toArray.push (v, g (xs.foldl g s) v) = (tagged g s (xs ++ [v])).toArray := by
  rw [tagged_append]; simp [tagged]

theorem tagged_pop (g : S → T → S) (s : S) (xs : List T) : (tagged g s xs).toArray.pop = (tagged g s xs.dropLast).toArray := by
  rcases List.eq_nil_or_concat xs with rfl | ⟨ys, v, rfl⟩
  · rfl
  · simp [tagged_append, tagged]

theorem tagged_back (g : S → T → S) (s : S) (xs : List T) :
    (match (tagged g s xs).toArray.back? with | none => s | some q => q.2) = xs.foldl g s := by
  rcases List.eq_nil_or_concat xs with rfl | ⟨ys, v, rfl⟩
  · rfl
  · simp [tagged_append, tagged]

theorem rd_tagged (g : S → T → S) (s : S) (xs : List T) {i : Nat} (h : i < xs.length) :
    rd (tagged g s xs).toArray i = .ok (xs[i], (xs.take (i + 1)).foldl g s) := by
  apply rd_some
  rw [List.getElem?_toArray, tagged_get]
  simp [h]

end Aggregation

namespace QueueAggregation
open Cxx Aggregation

variable {T S R : Type} (p : Params T S R)

/-- The two stacks hold `xs` (front part) and `ys` (back part). -/
def Rep (s : State T S) (xs ys : List T) : Prop :=
  s.stL = (tagged p.append p.e xs.reverse).toArray ∧ s.stR = (tagged p.append p.e ys).toArray

theorem top_tagged (xs : List T) : top p (tagged p.append p.e xs).toArray = xs.foldl p.append p.e := tagged_back _ _ _

variable {p} {s : State T S} {xs ys : List T}

theorem Rep.sizeL (h : Rep p s xs ys) : s.stL.size = xs.length := by rw [h.1]; simp [tagged_length]
theorem Rep.sizeR (h : Rep p s xs ys) : s.stR.size = ys.length := by rw [h.2]; simp [tagged_length]

theorem pushBack_rep (h : Rep p s xs ys) (v : T) : Rep p (pushBack p s v) xs (ys ++ [v]) := by
  refine ⟨h.1, ?_⟩
  show s.stR.push _ = _
  rw [h.2, top_tagged, tagged_push]

theorem popFront_tot (h : Rep p s xs ys) (hne : xs ++ ys ≠ []) :
    Tot (popFront p s) fun s' => ∃ xs' ys', Rep p s' xs' ys' ∧ xs' ++ ys' = (xs ++ ys).tail := by
  unfold popFront
  have hL := h.sizeL
  have hR := h.sizeR
  split
  next hs =>
    refine Tot.pure ⟨xs.tail, ys, ⟨?_, h.2⟩, ?_⟩
    · show s.stL.pop = _
      rw [h.1, tagged_pop, List.dropLast_reverse]
    · cases xs with
      | nil => exact absurd hL hs
      | cons x xs => rfl
  next hs =>
    have hx : xs = [] := by
      rw [← List.length_eq_zero_iff]; omega
    subst hx
    have hy : ys.length ≠ 0 := by
      rw [Ne, List.length_eq_zero_iff]; simpa using hne
    rw [decide_eq_true (by omega), check_true, ok_bind]
    refine Tot.bind (Tot.forDown (P := fun i (st : Array (T × S)) => st = (tagged p.append p.e (ys.drop i).reverse).toArray) (by omega) ?_ ?_) ?_
    · rw [h.1, hR]; simp
    · rintro i st h1 h2 rfl
      rw [h.2, rd_tagged _ _ _ (by omega), ok_bind]
      refine Tot.pure ?_
      rw [top_tagged, tagged_push]
      congr 2
      rw [List.drop_eq_getElem_cons (show i < ys.length by omega), List.reverse_cons]
    · rintro st rfl
      exact Tot.pure ⟨ys.tail, [], ⟨by simp, rfl⟩, by simp⟩

theorem front_eq (h : Rep p s xs ys) {v : T} (hv : (xs ++ ys).head? = some v) : front s = .ok v := by
  unfold front
  have hL := h.sizeL
  have hR := h.sizeR
  split
  next hs =>
    rw [h.1, rd_tagged _ _ _ (by simp [tagged_length]; omega), ok_bind]
    cases xs with
    | nil => exact absurd hL hs
    | cons x xs =>
      simp at hv
      subst hv
      simp [tagged_length]
  next hs =>
    have hx : xs = [] := by
      rw [← List.length_eq_zero_iff]; omega
    subst hx
    cases ys with
    | nil => simp at hv
    | cons y ys =>
      simp at hv
      subst hv
      rw [h.2, rd_tagged _ _ _ (by simp), ok_bind]
      simp

theorem back_eq (h : Rep p s xs ys) {v : T} (hv : (xs ++ ys).getLast? = some v) : back s = .ok v := by
  unfold back
  have hL := h.sizeL
  have hR := h.sizeR
  split
  next hs =>
    rw [h.2, rd_tagged _ _ _ (by simp [tagged_length]; omega), ok_bind]
    rcases List.eq_nil_or_concat ys with rfl | ⟨zs, y, rfl⟩
    · exact absurd hR hs
    · simp at hv
      subst hv
      simp [tagged_length]
  next hs =>
    have hy : ys = [] := by
      rw [← List.length_eq_zero_iff]; omega
    subst hy
    rcases List.eq_nil_or_concat xs with rfl | ⟨zs, y, rfl⟩
    · simp at hv
    · simp at hv
      subst hv
      rw [h.1, rd_tagged _ _ _ (by simp), ok_bind]
      simp

theorem get_eq (h : Rep p s xs ys) {i : Nat} {v : T} (hv : (xs ++ ys)[i]? = some v) : get s i = .ok v := by
  unfold get
  have hL := h.sizeL
  have hR := h.sizeR
  obtain ⟨hi, hv⟩ := List.getElem?_eq_some_iff.1 hv
  rw [List.length_append] at hi
  split
  next hs =>
    rw [h.1, rd_tagged _ _ _ (by simp [tagged_length]; omega), ok_bind]
    rw [List.getElem_append_left (by omega)] at hv
    rw [← hv]
    simp only [List.getElem_reverse, pure_eq]
    congr 2
    simp [tagged_length]
    omega
  next hs =>
    rw [h.2, rd_tagged _ _ _ (by omega), ok_bind]
    rw [List.getElem_append_right (by omega)] at hv
    rw [← hv]
    simp only [pure_eq, hL]

end QueueAggregation

namespace DequeAggregation
open Cxx Aggregation

variable {T : Type} [Monoid T]

/-- Left stack: `xs` from the inside out; right stack: `ys`. -/
def Rep (s : State T) (xs ys : List T) : Prop :=
  s.stL = (tagged (fun acc v => v * acc) 1 xs.reverse).toArray ∧ s.stR = (tagged (fun acc v => acc * v) 1 ys).toArray

variable {s : State T} {xs ys : List T}

theorem Rep.sizeL (h : Rep s xs ys) : s.stL.size = xs.length := by rw [h.1]; simp [tagged_length]
theorem Rep.sizeR (h : Rep s xs ys) : s.stR.size = ys.length := by rw [h.2]; simp [tagged_length]

theorem foldl_right (xs : List T) (a : T) : xs.foldl (fun acc v => acc * v) a = a * xs.prod := by
  induction xs generalizing a with
  | nil => simp
  | cons x xs ih => simp [ih, mul_assoc]

theorem foldl_left (xs : List T) (a : T) : xs.reverse.foldl (fun acc v => v * acc) a = xs.prod * a := by
  induction xs generalizing a with
  | nil => simp
  | cons x xs ih => simp [ih, mul_assoc]

theorem topR (ys : List T) : top 1 (tagged (fun acc v => acc * v) 1 ys).toArray = ys.foldl (fun acc v => acc * v) 1 := by
  rcases List.eq_nil_or_concat ys with rfl | ⟨ys, v, rfl⟩
  · rfl
  · simp [top, tagged_append, tagged]
theorem topL (xs : List T) : top 1 (tagged (fun acc v => v * acc) 1 xs).toArray = xs.foldl (fun acc v => v * acc) 1 := by
  rcases List.eq_nil_or_concat xs with rfl | ⟨ys, v, rfl⟩
  · rfl
  · simp [top, tagged_append, tagged]

theorem prod_eq (h : Rep s xs ys) : prod (· * ·) 1 s = (xs ++ ys).prod := by
  unfold prod
  rw [h.1, h.2, topL, topR, foldl_left, foldl_right, List.prod_append, mul_one, one_mul]

theorem pushBack_rep (h : Rep s xs ys) (v : T) : Rep (pushBack (· * ·) 1 s v) xs (ys ++ [v]) := by
  refine ⟨h.1, ?_⟩
  show s.stR.push _ = _
  rw [h.2, topR]
  exact tagged_push _ _ _ _

theorem pushFront_rep (h : Rep s xs ys) (v : T) : Rep (pushFront (· * ·) 1 s v) (v :: xs) ys := by
  refine ⟨?_, h.2⟩
  show s.stL.push _ = _
  rw [h.1, topL, List.reverse_cons]
  exact tagged_push _ _ _ _

/-- Recomputing the sums of a stack. -/
theorem resum_tot (g : T → T → T) (hg : ∀ x, g x 1 = x) (a : Array (T × T)) (ws : List T) (ha : a.toList.map Prod.fst = ws) :
    resum g a ws.length = .ok (tagged (fun acc v => g v acc) 1 ws).toArray := by
  rw [← tot_eq]
  have hsz : a.size = ws.length := by rw [← ha]; simp
  have hget : ∀ i : Nat, a[i]?.map Prod.fst = ws[i]? := by
    intro i; rw [← ha]; simp
  unfold resum
  split
  next h0 =>
    have : ws = [] := List.length_eq_zero_iff.1 h0
    subst this
    refine Tot.pure ?_
    have : a.toList = [] := by simpa using ha
    rw [← Array.toList_inj, this]; rfl
  next h0 =>
    rw [rd_eq (by omega), ok_bind, wr_eq (by omega), ok_bind]
    have h0' := hget 0
    rw [Array.getElem?_eq_getElem (by omega)] at h0'
    refine (Tot.forUp (P := fun i (b : Array (T × T)) => (∀ j : Nat, b[j]?.map Prod.fst = ws[j]?) ∧
      ∀ j : Nat, j < i → b[j]? = (tagged (fun acc v => g v acc) 1 ws)[j]?) (by omega) ⟨?_, ?_⟩ ?_).mono ?_
    · intro j
      rw [get?_set _ _ _ _ (by omega)]
      split
      next e => subst e; exact h0'
      · exact hget j
    · intro j hj
      have : j = 0 := by omega
      subst this
      rw [get?_set _ _ _ _ (by omega), if_pos rfl, tagged_get, ← h0']
      cases ws with
      | nil => simp at h0
      | cons w ws => simp at h0' ⊢; rw [h0', hg]
    · rintro i b h1 h2 ⟨h3, h4⟩
      have hb : b.size = ws.length := by
        have : ∀ j, b[j]?.isSome = ws[j]?.isSome := fun j => by rw [← h3 j, Option.isSome_map]
        apply Nat.le_antisymm
        · by_contra hc
          have := this ws.length
          simp at this; omega
        · by_contra hc
          have := this b.size
          simp at this; omega
      have hbi := h3 i
      rw [Array.getElem?_eq_getElem (by omega)] at hbi
      have hbp := h4 (i - 1) (by omega)
      rw [rd_eq (by omega), ok_bind]
      rw [rd_some (x := (ws[i - 1], (ws.take i).foldl (fun acc v => g v acc) 1)), ok_bind, wr_eq (by omega)]
      · refine Tot.pure ⟨?_, ?_⟩
        · intro j
          rw [get?_set _ _ _ _ (by omega)]
          split
          next e => subst e; exact hbi
          · exact h3 j
        · intro j hj
          rw [get?_set _ _ _ _ (by omega)]
          split
          next e =>
            subst e
            rw [tagged_get]
            simp only [h2, List.getElem?_eq_getElem, Option.map_some] at hbi ⊢
            injection hbi with hbi
            rw [hbi, List.take_succ_eq_append_getElem h2, List.foldl_append]
            rfl
          next e => exact h4 j (by omega)
      · rw [hbp, tagged_get, show i - 1 + 1 = i by omega]
        simp [show i - 1 < ws.length by omega]
    · rintro b ⟨h3, h4⟩
      apply Array.ext_getElem?
      intro j
      have e : (tagged (fun acc v => g v acc) 1 ws).toArray[j]? = (tagged (fun acc v => g v acc) 1 ws)[j]? := by simp
      rw [e]
      rcases Nat.lt_or_ge j ws.length with hj | hj
      · exact h4 j hj
      · have := h3 j
        simp [hj] at this
        rw [tagged_get]
        simp [hj, this]

theorem extract_fst (g : T → T → T) (zs : List T) (r n : Nat) (hn : n = zs.length) :
    ((tagged g 1 zs).toArray.extract r n).toList.map Prod.fst = zs.drop r := by
  rw [Array.toList_extract, List.extract_eq_take_drop, List.take_of_length_le (by simp [tagged_length]; omega), List.map_drop]
  show List.drop r ((tagged g 1 zs).map Prod.fst) = _
  rw [tagged_fst]

theorem popBack_tot (h : Rep s xs ys) (hne : xs ++ ys ≠ []) :
    Tot (popBack (· * ·) 1 s) fun s' => ∃ xs' ys', Rep s' xs' ys' ∧ xs' ++ ys' = (xs ++ ys).dropLast := by
  unfold popBack
  have hL := h.sizeL
  have hR := h.sizeR
  split
  next hs =>
    refine Tot.pure ⟨xs, ys.dropLast, ⟨h.1, ?_⟩, ?_⟩
    · show s.stR.pop = _
      rw [h.2, tagged_pop]
    · rw [List.dropLast_append_of_ne_nil]
      rintro rfl; exact hs hR
  next hs =>
    have hy : ys = [] := by
      rw [← List.length_eq_zero_iff]; omega
    subst hy
    simp only [List.append_nil] at hne ⊢
    have hx : xs.length ≠ 0 := by rwa [Ne, List.length_eq_zero_iff]
    rw [decide_eq_true (by omega), check_true, ok_bind]
    obtain ⟨r, hr⟩ : ∃ r, r = s.stL.size - s.stL.size / 2 := ⟨_, rfl⟩
    obtain ⟨zs, hzs⟩ : ∃ zs, zs = xs.reverse := ⟨_, rfl⟩
    have hzl : zs.length = xs.length := by simp [hzs]
    rw [← hr]
    have hs1 := h.1
    rw [← hzs] at hs1
    refine Tot.bind (Tot.forDown (P := fun i (s' : State T) => s'.stL = s.stL ∧
      s'.stR = (tagged (fun acc v => acc * v) 1 ((zs.take r).drop i).reverse).toArray) (by omega) ?_ ?_) ?_
    · refine ⟨rfl, ?_⟩
      rw [h.2]; simp
    · rintro i s' h1 h2 ⟨h3, h4⟩
      rw [h3, hs1, rd_tagged _ _ _ (by omega), ok_bind]
      refine Tot.pure ⟨by rw [← hs1]; exact h3, ?_⟩
      show s'.stR.push _ = _
      rw [h4, topR]
      dsimp only
      rw [tagged_push (fun acc v => acc * v)]
      congr 2
      have hlt : i < (zs.take r).length := by rw [List.length_take]; omega
      rw [List.drop_eq_getElem_cons hlt, List.reverse_cons, List.getElem_take]
    · rintro s' ⟨h3, h4⟩
      have hd : s.stL.size / 2 = (zs.drop r).length := by rw [List.length_drop]; omega
      rw [h3, hd, resum_tot (fun x acc => x * acc) mul_one _ (zs.drop r), ok_bind]
      · refine Tot.pure ⟨(zs.drop r).reverse, ((zs.take r).drop 1).reverse, ⟨?_, h4⟩, ?_⟩
        · simp
        · rw [← List.reverse_append]
          have e : xs.dropLast = (zs.drop 1).reverse := by simp [hzs]
          rw [e]
          congr 1
          conv_rhs => rw [← List.take_append_drop r zs]
          rw [List.drop_append_of_le_length]
          rw [List.length_take]; omega
      · rw [hs1]
        exact extract_fst _ _ _ _ (by simp [tagged_length])

theorem popFront_tot (h : Rep s xs ys) (hne : xs ++ ys ≠ []) :
    Tot (popFront (· * ·) 1 s) fun s' => ∃ xs' ys', Rep s' xs' ys' ∧ xs' ++ ys' = (xs ++ ys).tail := by
  unfold popFront
  have hL := h.sizeL
  have hR := h.sizeR
  split
  next hs =>
    refine Tot.pure ⟨xs.tail, ys, ⟨?_, h.2⟩, ?_⟩
    · show s.stL.pop = _
      rw [h.1, tagged_pop, List.dropLast_reverse]
    · cases xs with
      | nil => exact absurd hL hs
      | cons x xs => rfl
  next hs =>
    have hx : xs = [] := by
      rw [← List.length_eq_zero_iff]; omega
    subst hx
    simp only [List.nil_append] at hne ⊢
    have hy : ys.length ≠ 0 := by rwa [Ne, List.length_eq_zero_iff]
    rw [decide_eq_true (by omega), check_true, ok_bind]
    obtain ⟨r, hr⟩ : ∃ r, r = s.stR.size - s.stR.size / 2 := ⟨_, rfl⟩
    rw [← hr]
    have hs2 := h.2
    refine Tot.bind (Tot.forDown (P := fun i (s' : State T) => s'.stR = s.stR ∧
      s'.stL = (tagged (fun acc v => v * acc) 1 ((ys.take r).drop i).reverse).toArray) (by omega) ?_ ?_) ?_
    · refine ⟨rfl, ?_⟩
      rw [h.1]; simp
    · rintro i s' h1 h2 ⟨h3, h4⟩
      rw [h3, hs2, rd_tagged _ _ _ (by omega), ok_bind]
      refine Tot.pure ⟨by rw [← hs2]; exact h3, ?_⟩
      show s'.stL.push _ = _
      rw [h4, topL]
      dsimp only
      rw [tagged_push (fun acc v => v * acc)]
      congr 2
      have hlt : i < (ys.take r).length := by rw [List.length_take]; omega
      rw [List.drop_eq_getElem_cons hlt, List.reverse_cons, List.getElem_take]
    · rintro s' ⟨h3, h4⟩
      have hd : s.stR.size / 2 = (ys.drop r).length := by rw [List.length_drop]; omega
      rw [h3, hd, resum_tot (fun x acc => acc * x) one_mul _ (ys.drop r), ok_bind]
      · refine Tot.pure ⟨(ys.take r).drop 1, ys.drop r, ⟨h4, rfl⟩, ?_⟩
        rw [← List.drop_one]
        conv_rhs => rw [← List.take_append_drop r ys]
        rw [List.drop_append_of_le_length]
        rw [List.length_take]; omega
      · rw [hs2]
        exact extract_fst _ _ _ _ (by simp [tagged_length])

theorem front_eq (h : Rep s xs ys) {v : T} (hv : (xs ++ ys).head? = some v) : front s = .ok v := by
  unfold front
  have hL := h.sizeL
  have hR := h.sizeR
  split
  next hs =>
    rw [h.1, rd_tagged _ _ _ (by simp [tagged_length]; omega), ok_bind]
    cases xs with
    | nil => exact absurd hL hs
    | cons x xs =>
      simp at hv
      subst hv
      simp [tagged_length]
  next hs =>
    have hx : xs = [] := by
      rw [← List.length_eq_zero_iff]; omega
    subst hx
    cases ys with
    | nil => simp at hv
    | cons y ys =>
      simp at hv
      subst hv
      rw [h.2, rd_tagged _ _ _ (by simp), ok_bind]
      simp

theorem back_eq (h : Rep s xs ys) {v : T} (hv : (xs ++ ys).getLast? = some v) : back s = .ok v := by
  unfold back
  have hL := h.sizeL
  have hR := h.sizeR
  split
  next hs =>
    rw [h.2, rd_tagged _ _ _ (by simp [tagged_length]; omega), ok_bind]
    rcases List.eq_nil_or_concat ys with rfl | ⟨zs, y, rfl⟩
    · exact absurd hR hs
    · simp at hv
      subst hv
      simp [tagged_length]
  next hs =>
    have hy : ys = [] := by
      rw [← List.length_eq_zero_iff]; omega
    subst hy
    rcases List.eq_nil_or_concat xs with rfl | ⟨zs, y, rfl⟩
    · simp at hv
    · simp at hv
      subst hv
      rw [h.1, rd_tagged _ _ _ (by simp), ok_bind]
      simp

theorem get_eq (h : Rep s xs ys) {i : Nat} {v : T} (hv : (xs ++ ys)[i]? = some v) : get s i = .ok v := by
  unfold get
  have hL := h.sizeL
  have hR := h.sizeR
  obtain ⟨hi, hv⟩ := List.getElem?_eq_some_iff.1 hv
  rw [List.length_append] at hi
  split
  next hs =>
    rw [h.1, rd_tagged _ _ _ (by simp [tagged_length]; omega), ok_bind]
    rw [List.getElem_append_left (by omega)] at hv
    rw [← hv]
    simp only [List.getElem_reverse, pure_eq]
    congr 2
    simp [tagged_length]
    omega
  next hs =>
    rw [h.2, rd_tagged _ _ _ (by omega), ok_bind]
    rw [List.getElem_append_right (by omega)] at hv
    rw [← hv]
    simp only [pure_eq, hL]

end DequeAggregation
