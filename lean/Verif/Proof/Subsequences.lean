import Verif.Model.Dp
import Verif.Proof.GraphBasic
import Mathlib.Data.List.Sublists
import Mathlib.Data.Finset.Card
import Mathlib.Data.List.Dedup
import Mathlib.Data.Finset.Image
import Mathlib.Algebra.Ring.Basic
import Mathlib.Data.Nat.Cast.Basic
import Mathlib.Tactic.Abel
import Mathlib.Tactic.Push

/-! # Proofs about `library/dp/number_of_subsequences.hpp` -/

namespace Subsequences
open Cxx

variable {α : Type} [LinearOrder α]

/-- All distinct subsequences. -/
def S (l : List α) : Finset (List α) := l.sublists.toFinset

theorem mem_S {l t : List α} : t ∈ S l ↔ t.Sublist l := by
  simp [S]

theorem append_singleton_sublist {l1 l2 t : List α} {x : α} (hx : x ∉ l2) :
    (t ++ [x]).Sublist (l1 ++ x :: l2) ↔ t.Sublist l1 := by
  constructor
  · intro h
    have h' := List.reverse_sublist.2 h
    simp only [List.reverse_append, List.reverse_cons, List.reverse_nil, List.nil_append, List.singleton_append] at h'
    rw [List.append_assoc, List.singleton_append] at h'
    have : ∀ l2 : List α, x ∉ l2 → (x :: t.reverse).Sublist (l2 ++ x :: l1.reverse) → t.reverse.Sublist l1.reverse := by
      intro l2
      induction l2 with
      | nil =>
        intro _ h
        exact List.cons_sublist_cons.1 h
      | cons y l2 ih =>
        intro hy h
        rw [List.cons_append] at h
        cases h with
        | cons _ h => exact ih (fun hm => hy (List.mem_cons_of_mem _ hm)) h
        | cons_cons _ h => exact absurd List.mem_cons_self hy
    exact List.reverse_sublist.1 (this l2.reverse (by simpa using hx) h')
  · intro h
    exact List.Sublist.append h (List.singleton_sublist.2 (by simp))

theorem S_concat (l : List α) (x : α) : S (l ++ [x]) = S l ∪ (S l).image (· ++ [x]) := by
  ext t
  rw [Finset.mem_union, Finset.mem_image, mem_S]
  constructor
  · intro h
    obtain ⟨t1, t2, rfl, h1, h2⟩ := List.sublist_append_iff.1 h
    rcases List.sublist_singleton.1 h2 with rfl | rfl
    · exact Or.inl (mem_S.2 (by simpa using h1))
    · exact Or.inr ⟨t1, mem_S.2 h1, rfl⟩
  · rintro (h | ⟨t, h, rfl⟩)
    · exact (mem_S.1 h).trans (List.sublist_append_left _ _)
    · exact (mem_S.1 h).append_right _

theorem card_new {l : List α} {x : α} (h : x ∉ l) : (S (l ++ [x])).card = (S l).card + (S l).card := by
  rw [S_concat, Finset.card_union_of_disjoint, Finset.card_image_of_injective _ (List.append_left_injective _)]
  rw [Finset.disjoint_left]
  intro t ht hm
  obtain ⟨t', -, rfl⟩ := Finset.mem_image.1 hm
  exact h ((mem_S.1 ht).subset (by simp))

theorem card_old {l1 l2 : List α} {x : α} (h : x ∉ l2) :
    (S ((l1 ++ x :: l2) ++ [x])).card + (S l1).card = (S (l1 ++ x :: l2)).card + (S (l1 ++ x :: l2)).card := by
  have hint : S (l1 ++ x :: l2) ∩ (S (l1 ++ x :: l2)).image (· ++ [x]) = (S l1).image (· ++ [x]) := by
    ext t
    rw [Finset.mem_inter, Finset.mem_image, Finset.mem_image]
    constructor
    · rintro ⟨h1, t', -, rfl⟩
      exact ⟨t', mem_S.2 ((append_singleton_sublist h).1 (mem_S.1 h1)), rfl⟩
    · rintro ⟨t', h1, rfl⟩
      exact ⟨mem_S.2 ((append_singleton_sublist h).2 (mem_S.1 h1)), t', mem_S.2 ((mem_S.1 h1).trans (List.sublist_append_left _ _)), rfl⟩
  have h1 := Finset.card_union_add_card_inter (S (l1 ++ x :: l2)) ((S (l1 ++ x :: l2)).image (· ++ [x]))
  rw [hint, ← S_concat, Finset.card_image_of_injective _ (List.append_left_injective _), Finset.card_image_of_injective _ (List.append_left_injective _)] at h1
  exact h1

/-! ## `last` -/

/-- `l` is the previous occurrence of the value at `c`, or `-1`. -/
def Prev (a : List α) (c : Nat) (l : Int) : Prop :=
  (l = -1 ∧ ∀ j < c, a[j]? ≠ a[c]?) ∨ ∃ p : Nat, l = p ∧ p < c ∧ a[p]? = a[c]? ∧ ∀ j, p < j → j < c → a[j]? ≠ a[c]?

theorem le_trans' : ∀ a b c : α × Nat, le a b = true → le b c = true → le a c = true := by
  rintro ⟨a, i⟩ ⟨b, j⟩ ⟨c, k⟩ h1 h2
  simp only [le, decide_eq_true_eq] at *
  rcases h1 with h1 | ⟨rfl, h1⟩
  · rcases h2 with h2 | ⟨rfl, h2⟩
    · exact Or.inl (lt_trans h1 h2)
    · exact Or.inl h1
  · rcases h2 with h2 | ⟨rfl, h2⟩
    · exact Or.inl h2
    · exact Or.inr ⟨rfl, by omega⟩

theorem le_total' : ∀ a b : α × Nat, (le a b || le b a) = true := by
  rintro ⟨a, i⟩ ⟨b, j⟩
  simp only [le, Bool.or_eq_true, decide_eq_true_eq]
  rcases lt_trichotomy a b with h | rfl | h
  · exact Or.inl (Or.inl h)
  · rcases Nat.le_total i j with h | h
    · exact Or.inl (Or.inr ⟨rfl, h⟩)
    · exact Or.inr (Or.inr ⟨rfl, h⟩)
  · exact Or.inr (Or.inl h)

theorem sorted_size (a : Array α) : (sorted a).size = a.size := by simp [sorted]

theorem sorted_mem (a : Array α) {v : α} {c : Nat} : (v, c) ∈ (sorted a).toList ↔ a.toList[c]? = some v := by
  rw [sorted, List.toList_toArray, List.mem_mergeSort, List.mem_zipIdx_iff_getElem?]

theorem sorted_le (a : Array α) {k l : Nat} {x y : α × Nat} (hkl : k ≤ l) (hx : (sorted a)[k]? = some x) (hy : (sorted a)[l]? = some y) : le x y = true := by
  have h := List.pairwise_mergeSort (le := le (α := α)) le_trans' le_total' a.toList.zipIdx
  obtain ⟨h1, rfl⟩ := Array.getElem?_eq_some_iff.1 hx
  obtain ⟨h2, rfl⟩ := Array.getElem?_eq_some_iff.1 hy
  by_cases e : k = l
  · subst e
    have := le_total' (sorted a)[k] (sorted a)[k]
    simpa using this
  · exact List.pairwise_iff_getElem.1 h k l (by simpa [sorted] using h1) (by simpa [sorted] using h2) (by omega)

theorem sorted_nodup (a : Array α) {k l : Nat} {x y : α × Nat} (hkl : k ≠ l) (hx : (sorted a)[k]? = some x) (hy : (sorted a)[l]? = some y) : x.2 ≠ y.2 := by
  have h : (((sorted a).toList).map Prod.snd).Nodup := by
    rw [sorted, List.toList_toArray, ((List.mergeSort_perm _ _).map _).nodup_iff, List.zipIdx_map_snd]
    exact List.nodup_range'
  obtain ⟨h1, rfl⟩ := Array.getElem?_eq_some_iff.1 hx
  obtain ⟨h2, rfl⟩ := Array.getElem?_eq_some_iff.1 hy
  have := List.pairwise_iff_getElem.1 h
  intro e
  rcases Nat.lt_or_gt_of_ne hkl with g | g
  · exact this k l (by simpa using h1) (by simpa using h2) g (by simpa using e)
  · exact this l k (by simpa using h2) (by simpa using h1) g (by simpa using e.symm)

/-- What `last` holds for the `k`-th sorted pair. -/
def Want (s : Array (α × Nat)) (k : Nat) (c : Nat) (v : α) (l : Int) : Prop :=
  (l = -1 ∧ ∀ k', k' + 1 = k → ∀ x, s[k']? = some x → x.1 ≠ v) ∨ ∃ k' p, k' + 1 = k ∧ s[k']? = some (v, p) ∧ l = p

theorem want_prev (a : Array α) {k c : Nat} {v : α} {l : Int} (hk : (sorted a)[k]? = some (v, c)) (h : Want (sorted a) k c v l) : Prev a.toList c l := by
  have hc : a.toList[c]? = some v := (sorted_mem a).1 (Array.mem_toList_iff.2 (Array.mem_of_getElem? hk))
  have hpos : ∀ j : Nat, a.toList[j]? = some v → ∃ k' : Nat, (sorted a)[k']? = some (v, j) := by
    intro j hj
    have := Array.mem_toList_iff.1 ((sorted_mem a).2 hj)
    exact Array.getElem?_of_mem this
  rcases h with ⟨rfl, h⟩ | ⟨k', p, rfl, h1, rfl⟩
  · refine Or.inl ⟨rfl, fun j hj he => ?_⟩
    rw [hc] at he
    obtain ⟨k', hk'⟩ := hpos j he
    have hlt : k' < k := by
      by_contra hn
      have := sorted_le a (Nat.le_of_not_lt hn) hk hk'
      simp [le] at this
      omega
    have hks := (Array.getElem?_eq_some_iff.1 hk).1
    have hpe : (sorted a)[k - 1]? = some (sorted a)[k - 1] := Array.getElem?_eq_getElem (by omega)
    have h1 := sorted_le a (show k' ≤ k - 1 by omega) hk' hpe
    have h2 := sorted_le a (show k - 1 ≤ k by omega) hpe hk
    have h3 := h (k - 1) (by omega) _ hpe
    simp only [le, decide_eq_true_eq] at h1 h2
    rcases h1 with h1 | h1
    · rcases h2 with h2 | h2
      · exact absurd (lt_trans h1 h2) (lt_irrefl _)
      · exact h3 h2.1
    · exact h3 h1.1.symm
  · have hp : a.toList[p]? = some v := (sorted_mem a).1 (Array.mem_toList_iff.2 (Array.mem_of_getElem? h1))
    refine Or.inr ⟨p, rfl, ?_, by rw [hp, hc], fun j hj1 hj2 he => ?_⟩
    · have g1 := sorted_le a (Nat.le_succ k') h1 hk
      have g2 := sorted_nodup a (by omega) h1 hk
      simp [le] at g1 g2
      omega
    · rw [hc] at he
      obtain ⟨l, hl⟩ := hpos j he
      have g1 : k' < l := by
        by_contra hn
        have := sorted_le a (Nat.le_of_not_lt hn) hl h1
        simp [le] at this
        omega
      have g2 : l < k' + 1 := by
        by_contra hn
        have := sorted_le a (Nat.le_of_not_lt hn) hk hl
        simp [le] at this
        omega
      omega

/-- Invariant: the first `i` sorted pairs are finished and the others untouched. -/
structure Inv (s : Array (α × Nat)) (i : Nat) (last : Array Int) : Prop where
  size : last.size = s.size
  done : ∀ k v c, k < i → s[k]? = some (v, c) → ∃ l, last[c]? = some l ∧ Want s k c v l
  rest : ∀ k v c, i ≤ k → s[k]? = some (v, c) → last[c]? = some (-1)

theorem outer_tot (a : Array α) {i : Nat} {last : Array Int} (hi : i < a.size) (h : Inv (sorted a) i last)
    (hb : ∀ k x y, k + 1 = i → (sorted a)[k]? = some x → (sorted a)[i]? = some y → x.1 ≠ y.1) :
    Tot (outer (sorted a) (i, last)) fun r => ∃ t, r = some t ∧ i < t.1 ∧ t.1 ≤ a.size ∧ Inv (sorted a) t.1 t.2 ∧
      (∀ k x y, k + 1 = t.1 → (sorted a)[k]? = some x → (sorted a)[t.1]? = some y → x.1 ≠ y.1) := by
  have hsz := sorted_size a
  have hlt : ∀ {k : Nat} {v : α} {c : Nat}, (sorted a)[k]? = some (v, c) → c < a.size := by
    intro k v c hk
    have := (sorted_mem a).1 (Array.mem_toList_iff.2 (Array.mem_of_getElem? hk))
    obtain ⟨h1, -⟩ := List.getElem?_eq_some_iff.1 this
    simpa using h1
  rw [outer]
  dsimp only
  obtain ⟨⟨v, p0⟩, hv⟩ : ∃ e, (sorted a)[i]? = some e := ⟨_, Array.getElem?_eq_getElem (by omega)⟩
  rw [if_pos (by omega), rd_some hv, ok_bind]
  dsimp only
  refine Tot.bind (P := fun (t : Nat × Nat × Array Int) => i ≤ t.1 ∧ t.1 < a.size ∧ Inv (sorted a) (t.1 + 1) t.2.2 ∧ (sorted a)[t.1]? = some (v, t.2.1) ∧
      ∀ y, (sorted a)[t.1 + 1]? = some y → v ≠ y.1) ?_ ?_
  · refine Tot.loop (P := fun (t : Nat × Nat × Array Int) => i ≤ t.1 ∧ t.1 < a.size ∧ Inv (sorted a) (t.1 + 1) t.2.2 ∧ (sorted a)[t.1]? = some (v, t.2.1)) (fun t => a.size - 1 - t.1) ?_ ?_ (by dsimp only; omega)
    · rintro ⟨j, p, last'⟩ ⟨h1, h2, h3, h4⟩
      dsimp only at h1 h2 h3 h4
      rw [runStep]
      dsimp only
      by_cases hj : j + 1 < a.size
      · obtain ⟨⟨w, c⟩, hw⟩ : ∃ e, (sorted a)[j + 1]? = some e := ⟨_, Array.getElem?_eq_getElem (by omega)⟩
        rw [if_pos (by omega), rd_some hw, ok_bind]
        dsimp only
        have hs3 := h3.size
        have hc := hlt hw
        by_cases e : w = v
        · subst e
          rw [if_pos rfl, setLast, wr_eq (by omega), ok_bind]
          refine Tot.pure ⟨⟨by dsimp only; omega, hj, ⟨by simpa using hs3, ?_, ?_⟩, hw⟩, by dsimp only; omega⟩
          · intro k v' c' hk hk'
            dsimp only at hk ⊢
            by_cases ek : k = j + 1
            · subst ek
              rw [hw] at hk'
              cases hk'
              exact ⟨p, Array.getElem?_setIfInBounds_self_of_lt (by omega), Or.inr ⟨j, p, rfl, h4, rfl⟩⟩
            · have := sorted_nodup a ek hk' hw
              dsimp only at this
              rw [Array.getElem?_setIfInBounds_ne (Ne.symm this)]
              exact h3.done k v' c' (by omega) hk'
          · intro k v' c' hk hk'
            dsimp only at hk ⊢
            have := sorted_nodup a (show k ≠ j + 1 by omega) hk' hw
            dsimp only at this
            rw [Array.getElem?_setIfInBounds_ne (Ne.symm this)]
            exact h3.rest k v' c' (by omega) hk'
        · rw [if_neg e]
          refine Tot.pure ⟨h1, h2, h3, h4, fun y hy => ?_⟩
          rw [hw] at hy
          cases hy
          exact Ne.symm e
      · rw [if_neg (by omega)]
        refine Tot.pure ⟨h1, h2, h3, h4, fun y hy => ?_⟩
        have := (Array.getElem?_eq_some_iff.1 hy).1
        omega
    · refine ⟨le_refl _, hi, ⟨h.size, ?_, ?_⟩, hv⟩
      · intro k v' c' hk hk'
        dsimp only at hk ⊢
        by_cases ek : k = i
        · subst ek
          exact ⟨-1, h.rest k v' c' (le_refl _) hk', Or.inl ⟨rfl, fun k' hk'' x hx => hb k' x _ hk'' hx hk'⟩⟩
        · exact h.done k v' c' (by omega) hk'
      · intro k v' c' hk hk'
        dsimp only at hk ⊢
        exact h.rest k v' c' (by omega) hk'
  · rintro ⟨j, p, last'⟩ ⟨h1, h2, h3, h4, h5⟩
    dsimp only at h1 h2 h3 h4 h5
    refine Tot.pure ⟨_, rfl, by dsimp only; omega, by dsimp only; omega, h3, ?_⟩
    intro k x y hk hx hy
    dsimp only at hk hy
    have : k = j := by omega
    subst this
    rw [h4] at hx
    cases hx
    exact h5 y hy

theorem last_tot (a : Array α) : Tot (loop (outer (sorted a)) a.size (0, Array.replicate a.size (-1))) fun r => r.2.size = a.size ∧ ∀ c < a.size, ∃ l, r.2[c]? = some l ∧ Prev a.toList c l := by
  have hsz := sorted_size a
  have hlt : ∀ {k : Nat} {v : α} {c : Nat}, (sorted a)[k]? = some (v, c) → c < a.size := by
    intro k v c hk
    have := (sorted_mem a).1 (Array.mem_toList_iff.2 (Array.mem_of_getElem? hk))
    obtain ⟨h1, -⟩ := List.getElem?_eq_some_iff.1 this
    simpa using h1
  refine Tot.loop (P := fun (t : Nat × Array Int) => t.1 ≤ a.size ∧ Inv (sorted a) t.1 t.2 ∧
      (∀ k x y, k + 1 = t.1 → (sorted a)[k]? = some x → (sorted a)[t.1]? = some y → x.1 ≠ y.1)) (fun t => a.size - t.1) ?_ ?_ (by dsimp only; omega)
  · rintro ⟨i, last⟩ ⟨h1, h2, h3⟩
    dsimp only at h1 h2 h3
    by_cases hi : i < a.size
    · refine (outer_tot a hi h2 h3).mono ?_
      rintro r ⟨t, rfl, k1, k2, k3, k4⟩
      exact ⟨⟨k2, k3, k4⟩, by dsimp only; omega⟩
    · rw [outer]
      dsimp only
      rw [if_neg (by omega)]
      refine Tot.pure ⟨by rw [h2.size, hsz], fun c hc => ?_⟩
      have hce : a.toList[c]? = some a[c] := by simp [hc]
      obtain ⟨k, hk⟩ := Array.getElem?_of_mem (Array.mem_toList_iff.1 ((sorted_mem a).2 hce))
      have hks := (Array.getElem?_eq_some_iff.1 hk).1
      obtain ⟨l, g1, g2⟩ := h2.done k _ c (by omega) hk
      exact ⟨l, g1, want_prev a hk g2⟩
  · refine ⟨Nat.zero_le _, ⟨by simp [hsz], fun k _ _ h => absurd h (Nat.not_lt_zero _), fun k v c _ hk => ?_⟩, fun k _ _ h => by dsimp only at h; omega⟩
    have := hlt hk
    simp [this]

/-! ## The count -/

theorem run_tot {R : Type} [CommRing R] (a : Array α) : Tot (run R a) fun r => r = (((S a.toList).erase []).card : R) := by
  rw [run]
  refine Tot.bind (last_tot a) ?_
  rintro ⟨z, last⟩ ⟨hls, hl⟩
  dsimp only at hls hl ⊢
  rw [wr_eq (by simp), ok_bind]
  refine Tot.bind (P := fun (sdp : Array R) => sdp[a.size + 1]? = some (((S a.toList).card : Nat) : R)) ?_ ?_
  · refine Tot.mono (P := fun (sdp : Array R) => sdp.size = a.size + 2 ∧ sdp[0]? = some 0 ∧ ∀ k ≤ a.size, sdp[k + 1]? = some (((S (a.toList.take k)).card : Nat) : R)) ?_ ?_
    · refine Tot.forUp (P := fun i (sdp : Array R) => sdp.size = a.size + 2 ∧ sdp[0]? = some 0 ∧ ∀ k ≤ i, sdp[k + 1]? = some (((S (a.toList.take k)).card : Nat) : R)) (Nat.zero_le _) ?_ ?_
      · refine ⟨by simp, by simp, fun k hk => ?_⟩
        have : k = 0 := by omega
        subst this
        simp [S]
      · rintro i sdp - hi ⟨h1, h2, h3⟩
        obtain ⟨l, g1, g2⟩ := hl i hi
        rw [dpStep, rd_some (h3 i (le_refl _)), ok_bind, rd_some g1, ok_bind]
        have htake : a.toList.take (i + 1) = a.toList.take i ++ [a[i]] := by
          rw [List.take_succ_eq_append_getElem (by simpa using hi)]
          simp
        have hai : a.toList[i]? = some a[i] := by simp [hi]
        have key : ∃ y, sdp[(l + 1).toNat]? = some y ∧ 0 ≤ l + 1 ∧
            (((S (a.toList.take i)).card : Nat) : R) + (((S (a.toList.take i)).card : Nat) : R) - y = (((S (a.toList.take (i + 1))).card : Nat) : R) := by
          rcases g2 with ⟨rfl, g⟩ | ⟨p, rfl, gp, g, g'⟩
          · refine ⟨0, by simpa using h2, by omega, ?_⟩
            rw [htake, card_new, Nat.cast_add, sub_zero]
            intro hm
            obtain ⟨j, hj⟩ := List.getElem?_of_mem hm
            rw [List.getElem?_take] at hj
            split at hj
            · exact g j (by omega) (by rw [hj, hai])
            · cases hj
          · refine ⟨_, by rw [show ((p : Int) + 1).toNat = p + 1 by omega]; exact h3 p (by omega), by omega, ?_⟩
            have hpe : a.toList[p]? = some a[i] := by rw [g, hai]
            have hsplit : a.toList.take i = a.toList.take p ++ a[i] :: (a.toList.take i).drop (p + 1) := by
              have e1 : (a.toList.take i).take p = a.toList.take p := by rw [List.take_take, Nat.min_eq_left (by omega)]
              have e2 := List.take_append_drop p (a.toList.take i)
              rw [e1] at e2
              have hlen : p < (a.toList.take i).length := by
                rw [List.length_take]
                simp
                omega
              rw [List.drop_eq_getElem_cons hlen] at e2
              refine e2.symm.trans ?_
              congr 2
              obtain ⟨q1, q2⟩ := List.getElem?_eq_some_iff.1 hpe
              rw [← q2]
              simp
            have hnot : a[i] ∉ (a.toList.take i).drop (p + 1) := by
              intro hm
              obtain ⟨j, hj⟩ := List.getElem?_of_mem hm
              rw [List.getElem?_drop, List.getElem?_take] at hj
              split at hj
              · exact g' (p + 1 + j) (by omega) (by omega) (by rw [hj, hai])
              · cases hj
            have := card_old (l1 := a.toList.take p) hnot
            rw [← hsplit, ← htake] at this
            rw [← Nat.cast_add, ← this, Nat.cast_add]
            abel
        obtain ⟨y, k1, k2, k3⟩ := key
        rw [if_neg (by omega), rd_some k1, ok_bind, wr_eq (by omega), k3]
        refine Tot.pure ⟨by simpa using h1, ?_, fun k hk => ?_⟩
        · rw [Array.getElem?_setIfInBounds_ne (by omega)]
          exact h2
        · by_cases e : k = i + 1
          · subst e
            rw [Array.getElem?_setIfInBounds_self_of_lt (by omega)]
          · rw [Array.getElem?_setIfInBounds_ne (by omega)]
            exact h3 k (by omega)
    · rintro sdp ⟨h1, h2, h3⟩
      have := h3 a.size (le_refl _)
      rwa [List.take_of_length_le (by simp)] at this
  · intro sdp h
    rw [rd_some h, ok_bind]
    refine Tot.pure ?_
    have : ([] : List α) ∈ S a.toList := mem_S.2 (List.nil_sublist _)
    rw [← Finset.card_erase_add_one this, Nat.cast_add, Nat.cast_one, add_sub_cancel_right]

end Subsequences
