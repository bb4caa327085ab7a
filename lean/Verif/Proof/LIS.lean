import Verif.Model.Dp
import Verif.Proof.GraphBasic
import Mathlib.Data.List.Basic
import Mathlib.Order.Lattice

/-! # Proofs about `library/dp/longest_increasing_subsequence.hpp` -/

namespace LIS
open Cxx Graph

variable {α : Type}

/-- What the proof needs of the comparator. -/
structure Cmp (R : α → α → Bool) : Prop where
  trans : ∀ x y z, R x y = true → R y z = true → R x z = true
  better : ∀ e x y, R e x = false → R e y = true → R x y = true

/-- `j` may follow `i` in a subsequence. -/
def Next (R : α → α → Bool) (a : Array α) (i j : Nat) : Prop := i < j ∧ ∃ x y, a[i]? = some x ∧ a[j]? = some y ∧ R x y = true

theorem Next.trans {R : α → α → Bool} (hR : Cmp R) {a : Array α} {i j k : Nat} (h1 : Next R a i j) (h2 : Next R a j k) : Next R a i k := by
  obtain ⟨g1, x, y, hx, hy, hxy⟩ := h1
  obtain ⟨g2, y', z, hy', hz, hyz⟩ := h2
  rw [hy] at hy'
  cases hy'
  exact ⟨by omega, x, z, hx, hz, hR.trans _ _ _ hxy hyz⟩

/-- Invariant after `i` elements; `p j` is the position of element `j`. -/
structure Inv (R : α → α → Bool) (a : Array α) (i : Nat) (p : Nat → Nat) (s : State α) : Prop where
  sized : s.dp.size ≤ i
  sizep : s.pd.size = a.size
  sizei : s.id.size = a.size
  sorted : s.dp.toList.Pairwise fun x y => R x y = true
  id : ∀ k < s.dp.size, ∃ j : Nat, j < i ∧ s.id[k]? = some (j : Int) ∧ p j = k ∧ a[j]? = s.dp[k]?
  pd0 : ∀ j < i, p j = 0 → s.pd[j]? = some (-1)
  pd1 : ∀ j < i, 0 < p j → ∃ j' : Nat, s.pd[j]? = some (j' : Int) ∧ p j' + 1 = p j ∧ Next R a j' j
  pdn : ∀ j, i ≤ j → j < a.size → s.pd[j]? = some (-1)
  opt : ∀ c j, (c ++ [j]).Pairwise (Next R a) → j < i → ∃ x e, a[j]? = some x ∧ s.dp[c.length]? = some e ∧ ∀ y, R x y = true → R e y = true

theorem lb_spec {R : α → α → Bool} (hR : Cmp R) {dp : List α} (hs : dp.Pairwise fun x y => R x y = true) (x : α) :
    lowerBound R dp x ≤ dp.length ∧ (∀ k e, k < lowerBound R dp x → dp[k]? = some e → R e x = true) ∧
      (∀ k e, lowerBound R dp x ≤ k → dp[k]? = some e → R e x = false) := by
  unfold lowerBound
  refine ⟨List.findIdx_le_length, fun k e hk he => ?_, fun k e hk he => ?_⟩
  · have h1 := List.not_of_lt_findIdx hk
    obtain ⟨hkl, rfl⟩ := List.getElem?_eq_some_iff.1 he
    simpa using h1
  · obtain ⟨hkl, rfl⟩ := List.getElem?_eq_some_iff.1 he
    have hlt : dp.findIdx (fun e => !R e x) < dp.length := lt_of_le_of_lt hk hkl
    have h1 := List.findIdx_getElem (w := hlt)
    have h2 : R dp[dp.findIdx fun e => !R e x] x = false := by simpa using h1
    by_cases e : dp.findIdx (fun e => !R e x) = k
    · subst e
      exact h2
    · have h3 := List.pairwise_iff_getElem.1 hs _ _ hlt hkl (by omega)
      by_contra h4
      rw [Bool.not_eq_false] at h4
      rw [hR.trans _ _ _ h3 h4] at h2
      cases h2

theorem step_tot {R : α → α → Bool} (hR : Cmp R) {a : Array α} {i : Nat} (hi : i < a.size) {p : Nat → Nat} {s : State α} (h : Inv R a i p s) :
    Tot (step R a i s) fun t => ∃ p', Inv R a (i + 1) p' t := by
  obtain ⟨dp, pd, id⟩ := s
  have hz1 := h.sized
  have hz2 := h.sizep
  have hz3 := h.sizei
  dsimp only at hz1 hz2 hz3
  obtain ⟨x, hx⟩ : ∃ x, a[i]? = some x := ⟨_, Array.getElem?_eq_getElem hi⟩
  rw [step, rd_some hx, ok_bind]
  dsimp only
  obtain ⟨hl1, hl2, hl3⟩ := lb_spec hR h.sorted x
  obtain ⟨pos, hpos⟩ : ∃ pos, pos = lowerBound R dp.toList x := ⟨_, rfl⟩
  dsimp only at hl1 hl2 hl3
  rw [← hpos] at hl1 hl2 hl3 ⊢
  rw [Array.length_toList] at hl1
  simp only [Array.getElem?_toList] at hl2 hl3
  rw [wr_eq (by omega), ok_bind]
  -- the entry of `pd`
  have hpd : ∃ pd', setPd i pos (id.setIfInBounds pos (i : Int)) pd = .ok pd' ∧ pd'.size = a.size ∧ (∀ j, j ≠ i → pd'[j]? = pd[j]?) ∧
      (pos = 0 → pd'[i]? = some (-1)) ∧ (0 < pos → ∃ j' : Nat, pd'[i]? = some (j' : Int) ∧ j' < i ∧ p j' + 1 = pos ∧ a[j']? = dp[pos - 1]?) := by
    rw [setPd]
    by_cases h1 : 1 ≤ pos
    · obtain ⟨j, hj1, hj2, hj3, hj4⟩ := h.id (pos - 1) (by dsimp only; omega)
      dsimp only at hj2 hj4
      rw [if_pos h1, rd_some (x := (j : Int)) (by rw [Array.getElem?_setIfInBounds_ne (by omega)]; exact hj2), ok_bind, wr_eq (by omega)]
      refine ⟨_, rfl, by simpa using hz2, fun j hj => ?_, fun e => by omega, fun _ => ⟨j, ?_, hj1, by omega, hj4⟩⟩
      · rw [Array.getElem?_setIfInBounds_ne (Ne.symm hj)]
      · rw [Array.getElem?_setIfInBounds_self_of_lt (by omega)]
    · rw [if_neg h1]
      exact ⟨pd, rfl, hz2, fun _ _ => rfl, fun _ => h.pdn i (by omega) hi, fun e => by omega⟩
  obtain ⟨pd', hp1, hp2, hp3, hp4, hp5⟩ := hpd
  rw [hp1, ok_bind]
  -- the new dp
  obtain ⟨dp', hd1, hd2⟩ : ∃ dp', (if pos = dp.size then (pure ⟨dp.push x, pd', id.setIfInBounds pos (i : Int)⟩ : M (State α))
      else do
        let dp ← wr dp pos x
        return ⟨dp, pd', id.setIfInBounds pos (i : Int)⟩) = .ok ⟨dp', pd', id.setIfInBounds pos (i : Int)⟩ ∧
      ((pos = dp.size ∧ dp' = dp.push x) ∨ (pos < dp.size ∧ dp' = dp.setIfInBounds pos x)) := by
    by_cases h1 : pos = dp.size
    · exact ⟨dp.push x, by rw [if_pos h1]; rfl, Or.inl ⟨h1, rfl⟩⟩
    · exact ⟨dp.setIfInBounds pos x, by rw [if_neg h1, wr_eq (by omega)]; rfl, Or.inr ⟨by omega, rfl⟩⟩
  rw [hd1]
  have hget : ∀ k, dp'[k]? = if k = pos then some x else dp[k]? := by
    intro k
    rcases hd2 with ⟨e1, e2⟩ | ⟨e1, e2⟩
    · rw [e2, Array.getElem?_push, e1]
    · rw [e2, Array.getElem?_setIfInBounds]
      by_cases hk : k = pos
      · subst hk
        simp [e1]
      · rw [if_neg hk, if_neg (Ne.symm hk)]
  have hsize : dp'.size ≤ dp.size + 1 ∧ dp.size ≤ dp'.size ∧ pos < dp'.size := by
    rcases hd2 with ⟨e1, e2⟩ | ⟨e1, e2⟩
    · rw [e2, Array.size_push]; omega
    · rw [e2, Array.size_setIfInBounds]; omega
  have hltd : ∀ k, k < dp'.size → k ≠ pos → k < dp.size := by
    intro k hk hne
    by_contra hn
    have := hget k
    rw [if_neg hne, Array.getElem?_eq_none (xs := dp) (by omega), Array.getElem?_eq_none_iff] at this
    omega
  refine Tot.pure ⟨fun j => if j = i then pos else p j, ?_⟩
  refine ⟨by dsimp only; omega, hp2, by simpa using hz3, ?_, ?_, ?_, ?_, ?_, ?_⟩
  · dsimp only
    rw [List.pairwise_iff_getElem]
    intro k l hk hl hkl
    rw [Array.length_toList] at hk hl
    have ek : dp'[k]? = some dp'.toList[k] := by rw [Array.getElem?_eq_getElem hk]; simp
    have el : dp'[l]? = some dp'.toList[l] := by rw [Array.getElem?_eq_getElem hl]; simp
    have hold : ∀ (k l : Nat) (u v : α), k < l → dp[k]? = some u → dp[l]? = some v → R u v = true := by
      intro k l u v hkl hu hv
      obtain ⟨hk', rfl⟩ := Array.getElem?_eq_some_iff.1 hu
      obtain ⟨hl', rfl⟩ := Array.getElem?_eq_some_iff.1 hv
      exact List.pairwise_iff_getElem.1 h.sorted k l (by simpa using hk') (by simpa using hl') hkl
    rw [hget] at ek el
    by_cases e1 : k = pos
    · rw [if_pos e1] at ek
      rw [if_neg (by omega)] at el
      have hlt := hltd l hl (by omega)
      have hpe : dp[pos]? = some dp[pos] := Array.getElem?_eq_getElem (by omega)
      have := hl3 pos _ (le_refl _) hpe
      rw [← Option.some.inj ek]
      exact hR.better _ _ _ this (hold pos l _ _ (by omega) hpe el)
    · rw [if_neg e1] at ek
      by_cases e2 : l = pos
      · rw [if_pos e2] at el
        rw [← Option.some.inj el]
        exact hl2 k _ (by omega) ek
      · rw [if_neg e2] at el
        exact hold k l _ _ hkl ek el
  · intro k hk
    dsimp only at hk ⊢
    by_cases e : k = pos
    · subst e
      refine ⟨i, by omega, ?_, by rw [if_pos rfl], ?_⟩
      · rw [Array.getElem?_setIfInBounds_self_of_lt (by omega)]
      · rw [hget, if_pos rfl, hx]
    · obtain ⟨j, hj1, hj2, hj3, hj4⟩ := h.id k (hltd k hk e)
      refine ⟨j, by omega, ?_, by rw [if_neg (by omega)]; exact hj3, ?_⟩
      · rw [Array.getElem?_setIfInBounds_ne (Ne.symm e)]
        exact hj2
      · rw [hget, if_neg e]
        exact hj4
  · intro j hj hpj
    dsimp only at hpj ⊢
    by_cases e : j = i
    · subst e
      rw [if_pos rfl] at hpj
      exact hp4 hpj
    · rw [if_neg e] at hpj
      rw [hp3 j e]
      exact h.pd0 j (by omega) hpj
  · intro j hj hpj
    dsimp only at hpj ⊢
    by_cases e : j = i
    · subst e
      rw [if_pos rfl] at hpj
      obtain ⟨j', g1, g2, g3, g4⟩ := hp5 hpj
      refine ⟨j', g1, by rw [if_neg (by omega), if_pos rfl]; exact g3, g2, ?_⟩
      have hpe : dp[pos - 1]? = some dp[pos - 1] := Array.getElem?_eq_getElem (by omega)
      exact ⟨dp[pos - 1], x, by rw [g4, hpe], hx, hl2 (pos - 1) _ (by omega) hpe⟩
    · rw [if_neg e] at hpj
      obtain ⟨j', g1, g2, g3⟩ := h.pd1 j (by omega) hpj
      refine ⟨j', by rw [hp3 j e]; exact g1, ?_, g3⟩
      have := g3.1
      rw [if_neg (by omega), if_neg e]
      exact g2
  · intro j hj1 hj2
    dsimp only
    rw [hp3 j (by omega)]
    exact h.pdn j (by omega) hj2
  · intro c j hc hj
    dsimp only
    by_cases e : j = i
    · subst e
      refine ⟨x, ?_⟩
      have hcl : c.length ≤ pos := by
        rcases List.eq_nil_or_concat' c with rfl | ⟨c', j', rfl⟩
        · simp
        · have hj' : Next R a j' j := by
            rw [List.pairwise_append] at hc
            exact hc.2.2 j' (by simp) j (by simp)
          obtain ⟨x', e', g1, g2, g3⟩ := h.opt c' j' ((List.pairwise_append.1 hc).1) hj'.1
          obtain ⟨_, y1, y2, k1, k2, k3⟩ := hj'
          rw [g1] at k1
          cases k1
          rw [hx] at k2
          cases k2
          dsimp only at g2
          have hRe := g3 x k3
          by_contra hn
          rw [List.length_append, List.length_singleton] at hn
          rw [hl3 c'.length e' (by omega) g2] at hRe
          cases hRe
      by_cases e1 : c.length = pos
      · exact ⟨x, hx, by rw [hget, if_pos e1], fun y hy => hy⟩
      · have hpe : dp[c.length]? = some dp[c.length] := Array.getElem?_eq_getElem (by omega)
        refine ⟨dp[c.length], hx, by rw [hget, if_neg e1, hpe], fun y hy => ?_⟩
        exact hR.trans _ _ _ (hl2 c.length _ (by omega) hpe) hy
    · obtain ⟨x', e', g1, g2, g3⟩ := h.opt c j hc (by omega)
      dsimp only at g2
      by_cases e1 : c.length = pos
      · refine ⟨x', x, g1, by rw [hget, if_pos e1], fun y hy => ?_⟩
        exact hR.better _ _ _ (hl3 c.length e' (by omega) g2) (g3 y hy)
      · exact ⟨x', e', g1, by rw [hget, if_neg e1]; exact g2, g3⟩

/-- The result is a longest subsequence. -/
def Longest (R : α → α → Bool) (a : Array α) (ans : List Nat) : Prop :=
  ans.Pairwise (Next R a) ∧ (∀ i ∈ ans, i < a.size) ∧ ∀ c : List Nat, c.Pairwise (Next R a) → (∀ i ∈ c, i < a.size) → c.length ≤ ans.length

theorem solve_tot {R : α → α → Bool} (hR : Cmp R) (a : Array α) : Tot (solve R a) fun ans => Longest R a ans.toList := by
  rw [solve]
  by_cases ha : a.size = 0
  · rw [if_pos ha]
    refine Tot.pure ⟨by simp, by simp, fun c _ hc => ?_⟩
    cases c with
    | nil => simp
    | cons i c =>
      have := hc i (by simp)
      omega
  · rw [if_neg ha]
    refine Tot.bind (P := fun (s : State α) => ∃ p, Inv R a a.size p s) ?_ ?_
    · refine Tot.forUp (P := fun i (s : State α) => ∃ p, Inv R a i p s) (Nat.zero_le _) ⟨fun _ => 0, ?_⟩ ?_
      · refine ⟨by simp, by simp, by simp, by simp, by simp, by simp, by simp, fun j _ hj => by simp [hj], by simp⟩
      · rintro i s - hi ⟨p, h⟩
        exact step_tot hR hi h
    · rintro ⟨dp, pd, id⟩ ⟨p, h⟩
      dsimp only
      obtain ⟨x0, e0, -, hd0, -⟩ := h.opt [] 0 (by simp) (by omega)
      dsimp only at hd0
      have hpos : 0 < dp.size := by
        by_contra hn
        rw [Array.getElem?_eq_none (by simp only [List.length_nil]; omega)] at hd0
        cases hd0
      rw [if_neg (by omega)]
      obtain ⟨j0, hj1, hj2, hj3, -⟩ := h.id (dp.size - 1) (by dsimp only; omega)
      dsimp only at hj2
      rw [rd_some hj2, ok_bind]
      have hz2 := h.sizep
      dsimp only at hz2
      refine Tot.bind (P := fun (r : Int × Nat × Array Nat) => r.2.2.size = dp.size ∧ r.2.2.toList.Pairwise (Next R a) ∧ ∀ i ∈ r.2.2.toList, i < a.size) ?_ ?_
      · refine Tot.loop (P := fun (r : Int × Nat × Array Nat) => r.2.2.size = dp.size ∧ (r.2.2.toList.drop r.2.1).Pairwise (Next R a) ∧ (∀ i ∈ r.2.2.toList.drop r.2.1, i < a.size) ∧
          ((r.1 = -1 ∧ r.2.1 = 0) ∨ ∃ j : Nat, r.1 = j ∧ j < a.size ∧ r.2.1 = p j + 1 ∧ r.2.1 ≤ dp.size ∧ ∀ k ∈ r.2.2.toList.drop r.2.1, Next R a j k)) (fun r => r.2.1) ?_ ?_ (le_refl _)
        · rintro ⟨cur, len, ans⟩ ⟨k1, k2, k3, k4⟩
          dsimp only at k1 k2 k3 k4
          rw [backStep]
          dsimp only
          rcases k4 with ⟨rfl, rfl⟩ | ⟨j, rfl, k5, k6, k7, k8⟩
          · rw [if_neg (by omega)]
            exact Tot.pure ⟨k1, by simpa using k2, by simpa using k3⟩
          · rw [if_pos (by omega), if_neg (by omega), Int.toNat_natCast, wr_eq (by omega), ok_bind]
            have hdrop : (ans.setIfInBounds (len - 1) j).toList.drop (len - 1) = j :: ans.toList.drop len := by
              rw [Array.toList_setIfInBounds, List.drop_eq_getElem_cons (by simp; omega)]
              congr 1
              · simp
              · rw [List.drop_set_of_lt (by omega)]
                congr 1
                omega
            have hpw : (j :: ans.toList.drop len).Pairwise (Next R a) := List.pairwise_cons.2 ⟨k8, k2⟩
            have hmem : ∀ i ∈ j :: ans.toList.drop len, i < a.size := by
              intro i hi
              simp only [List.mem_cons] at hi
              rcases hi with rfl | hi
              · exact k5
              · exact k3 i hi
            by_cases hp0 : p j = 0
            · rw [rd_some (h.pd0 j k5 hp0), ok_bind]
              refine Tot.pure ⟨⟨by simpa using k1, ?_, ?_, Or.inl ⟨rfl, by dsimp only; omega⟩⟩, by dsimp only; omega⟩
              · dsimp only; rw [hdrop]; exact hpw
              · dsimp only; rw [hdrop]; exact hmem
            · obtain ⟨j', g1, g2, g3⟩ := h.pd1 j k5 (by omega)
              rw [rd_some g1, ok_bind]
              refine Tot.pure ⟨⟨by simpa using k1, ?_, ?_, Or.inr ⟨j', rfl, ?_, by dsimp only; omega, by dsimp only; omega, ?_⟩⟩, by dsimp only; omega⟩
              · dsimp only; rw [hdrop]; exact hpw
              · dsimp only; rw [hdrop]; exact hmem
              · have := g3.1
                omega
              · dsimp only
                rw [hdrop]
                intro k hk
                simp only [List.mem_cons] at hk
                rcases hk with rfl | hk
                · exact g3
                · exact g3.trans hR (k8 k hk)
        · refine ⟨by simp, by simp, by simp, Or.inr ⟨j0, rfl, hj1, by dsimp only; omega, le_refl _, by simp⟩⟩
      · rintro r ⟨k1, k2, k3⟩
        refine Tot.pure ⟨k2, k3, fun c hc hcm => ?_⟩
        rcases List.eq_nil_or_concat' c with rfl | ⟨c', j', rfl⟩
        · simp
        · obtain ⟨x', e', -, g2, -⟩ := h.opt c' j' hc (hcm j' (by simp))
          dsimp only at g2
          obtain ⟨hlt, -⟩ := Array.getElem?_eq_some_iff.1 g2
          have : r.2.2.toList.length = dp.size := by rw [← k1]; simp
          rw [List.length_append, List.length_singleton, this]
          exact hlt

variable [LinearOrder α]

theorem cmp_lt : Cmp fun x y : α => decide (x < y) :=
  ⟨fun x y z h1 h2 => by simp at *; exact lt_trans h1 h2, fun e x y h1 h2 => by simp at *; exact lt_of_le_of_lt h1 h2⟩
theorem cmp_le : Cmp fun x y : α => decide (x ≤ y) :=
  ⟨fun x y z h1 h2 => by simp at *; exact le_trans h1 h2, fun e x y h1 h2 => by simp at *; exact le_trans h1.le h2⟩
theorem cmp_ge : Cmp fun x y : α => decide (x ≥ y) :=
  ⟨fun x y z h1 h2 => by simp at *; exact le_trans h2 h1, fun e x y h1 h2 => by simp at *; exact le_trans h2 h1.le⟩
theorem cmp_gt : Cmp fun x y : α => decide (x > y) :=
  ⟨fun x y z h1 h2 => by simp at *; exact lt_trans h2 h1, fun e x y h1 h2 => by simp at *; exact lt_of_lt_of_le h2 h1⟩

end LIS
