import Verif.Proof.TwoEdge

/-!
# C124: two-edge-connected components
-/

namespace TwoEdge.Props
open Cxx Cut

/-- Building succeeds. -/
theorem make_ok (n : Nat) (es : List (Nat × Nat)) (h : ∀ e ∈ es, e.1 < n ∧ e.2 < n) : ∃ p, make n es = .ok p := by
  obtain ⟨p, hp, -⟩ := make_tot h
  exact ⟨p, hp⟩

theorem built_of {n : Nat} {es : List (Nat × Nat)} {p : LowLink.Obj × St} (h : ∀ e ∈ es, e.1 < n ∧ e.2 < n) (hp : make n es = .ok p) :
    ∃ v, LowLink.Built n es p.1 v ∧ Inv n v n p.2 := by
  obtain ⟨p', hp', hv⟩ := make_tot h
  rw [hp] at hp'
  cases hp'
  exact hv

/-- `operator[]` numbers the vertices by `0, …, component_num() - 1`; two vertices have the same number iff no removal of a single edge separates them;
`component_num()` is the number of these classes. -/
theorem component_ids {n : Nat} {es : List (Nat × Nat)} {p : LowLink.Obj × St} (h : ∀ e ∈ es, e.1 < n ∧ e.2 < n) (hp : make n es = .ok p) :
    ∃ (c : Nat → Nat) (m : Nat), (∀ x, x < n → get p.1 p.2 x = .ok (c x : Int) ∧ c x < m) ∧ componentNum p.1 p.2 = .ok m ∧
      (∀ x y, x < n → y < n → (c x = c y ↔ ∀ i, Reach es (· ≠ i) x y)) ∧
      CompCount n (fun _ => True) (fun x y => ∀ i, Reach es (· ≠ i) x y) m := by
  obtain ⟨v, B, I⟩ := built_of h hp
  have cv : ∀ x, x < n → ((at' (-1) p.2.comp x).toNat : Int) = at' (-1) p.2.comp x ∧ (at' (-1) p.2.comp x).toNat < p.2.num := by
    intro x hx
    have l1 := I.lt x hx (B.lt x hx)
    have l2 := (I.vis x hx).mpr (B.lt x hx)
    exact ⟨by omega, by omega⟩
  refine ⟨fun x => (at' (-1) p.2.comp x).toNat, p.2.num, ?_, ?_, ?_, count B I⟩
  · intro x hx
    obtain ⟨h1, h2⟩ := cv x hx
    refine ⟨?_, h2⟩
    unfold get
    rw [B.built]
    dsimp only
    rw [h1]
    exact rd_at (-1) (by rw [I.sz]; exact hx)
  · unfold componentNum
    rw [B.built]
    rfl
  · intro x y hx hy
    have h1 := (cv x hx).1
    have h2 := (cv y hy).1
    have h3 := comp_iff B I hx hy
    unfold Same at h3
    rw [← h3]
    dsimp only
    omega

/-- `groups()[k]` lists the vertices with number `k` in increasing order. -/
theorem groups_ok {n : Nat} {es : List (Nat × Nat)} {p : LowLink.Obj × St} (h : ∀ e ∈ es, e.1 < n ∧ e.2 < n) (hp : make n es = .ok p) :
    ∃ r m, groups p.1 p.2 = .ok r ∧ componentNum p.1 p.2 = .ok m ∧ r.size = m ∧
      ∀ (k : Nat) l, r[k]? = some l → l.Pairwise (· < ·) ∧ ∀ x, x ∈ l ↔ x < n ∧ get p.1 p.2 x = .ok (k : Int) := by
  obtain ⟨v, B, I⟩ := built_of h hp
  obtain ⟨r, h1, h2, h3⟩ := groups_tot B I
  refine ⟨r, p.2.num, h1, ?_, h2, ?_⟩
  · unfold componentNum
    rw [B.built]
    rfl
  · intro k l hk
    have hk' : k < p.2.num := by
      rw [← h2]
      by_contra hc
      rw [Array.getElem?_eq_none (by omega)] at hk
      cases hk
    have e : l = (List.range n).filter fun x => at' (-1) p.2.comp x = k := by
      rw [← h3 k hk']
      unfold at'
      rw [hk]
      rfl
    subst e
    refine ⟨List.Pairwise.filter _ List.pairwise_lt_range, ?_⟩
    intro x
    rw [List.mem_filter, List.mem_range]
    refine and_congr_right fun hx => ?_
    have : get p.1 p.2 x = .ok (at' (-1) p.2.comp x) := by
      unfold get
      rw [B.built]
      exact rd_at (-1) (by rw [I.sz]; exact hx)
    rw [this]
    simp

/-- `reduced_forest()[k]` lists, without repetition, the bridges that leave component `k` with the component at their other end. -/
theorem reduced_forest {n : Nat} {es : List (Nat × Nat)} {p : LowLink.Obj × St} (h : ∀ e ∈ es, e.1 < n ∧ e.2 < n) (hp : make n es = .ok p) :
    ∃ r m, reducedForest p.1 p.2 = .ok r ∧ componentNum p.1 p.2 = .ok m ∧ r.size = m ∧
      ∀ (k : Nat) l, r[k]? = some l → l.Nodup ∧
        ∀ k' i : Nat, (k', i) ∈ l ↔ ∃ x y, Inc es x y i ∧ IsBridge es i ∧ get p.1 p.2 x = .ok (k : Int) ∧ get p.1 p.2 y = .ok (k' : Int) := by
  obtain ⟨v, B, I⟩ := built_of h hp
  obtain ⟨r, h1, h2, h3⟩ := reduced_tot B I
  have hg : ∀ x, x < n → get p.1 p.2 x = .ok (at' (-1) p.2.comp x) := by
    intro x hx
    unfold get
    rw [B.built]
    exact rd_at (-1) (by rw [I.sz]; exact hx)
  refine ⟨r, p.2.num, h1, ?_, h2, ?_⟩
  · unfold componentNum
    rw [B.built]
    rfl
  · intro k l hk
    have hk' : k < p.2.num := by
      rw [← h2]
      by_contra hc
      rw [Array.getElem?_eq_none (by omega)] at hk
      cases hk
    have e : l = at' [] r k := by
      unfold at'
      rw [hk]
      rfl
    subst e
    refine ⟨(h3 k hk').1, ?_⟩
    intro k' i
    rw [(h3 k hk').2 k' i]
    constructor
    · rintro ⟨x, y, e1, e2, e3, e4⟩
      obtain ⟨hx, hy⟩ := B.graph.bnd _ _ _ e1
      exact ⟨x, y, e1, (comp_ne_iff B I e1).mp (by omega), by rw [hg x hx, e2], by rw [hg y hy, e3]⟩
    · rintro ⟨x, y, e1, e2, e3, e4⟩
      obtain ⟨hx, hy⟩ := B.graph.bnd _ _ _ e1
      rw [hg x hx] at e3
      rw [hg y hy] at e4
      injection e3 with e3
      injection e4 with e4
      have := (comp_ne_iff B I e1).mpr e2
      exact ⟨x, y, e1, e3, e4, by omega⟩

/-- Two triangles joined by a bridge, and a vertex of its own. -/
example : (∀ e ∈ [(0, 1), (1, 2), (2, 0), (2, 3), (3, 4), (4, 5), (5, 3)], e.1 < 7 ∧ e.2 < 7) ∧
    (do let p ← make 7 [(0, 1), (1, 2), (2, 0), (2, 3), (3, 4), (4, 5), (5, 3)]; groups p.1 p.2) = .ok #[[0, 1, 2], [3, 4, 5], [6]] ∧
    (do let p ← make 7 [(0, 1), (1, 2), (2, 0), (2, 3), (3, 4), (4, 5), (5, 3)]; reducedForest p.1 p.2) = .ok #[[(1, 3)], [(0, 3)], []] := by
  refine ⟨by decide, by decide +kernel, by decide +kernel⟩

end TwoEdge.Props
