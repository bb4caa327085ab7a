import Verif.Proof.Forest
import Verif.Cxx

/-! # Depth first traversals of forests -/

namespace Tree
open Cxx Graph

namespace Forest

/-- Number of vertices. -/
def size (F : Forest) : Nat := F.pre.length

@[simp] theorem size_nil : size .nil = 0 := rfl

@[simp] theorem size_cons (v : Nat) (ch rest : Forest) : size (.cons v ch rest) = ch.size + rest.size + 1 := by simp [size, pre]

/-- Number of levels. -/
def height : Forest → Nat
  | nil => 0
  | cons _ ch rest => max (ch.height + 1) rest.height

theorem height_le (F : Forest) : F.height ≤ F.size := by
  induction F with
  | nil => simp [height]
  | cons v ch rest ih1 ih2 => simp only [height, size_cons]; omega

end Forest

/-! ### Loops over the children -/

theorem kids_cons {q : Nat → Bool} {l R : List Nat} {v : Nat} (h : l.filter q = v :: R) :
    ∃ a b, l = a ++ v :: b ∧ (∀ x ∈ a, q x = false) ∧ q v = true ∧ b.filter q = R := by
  induction l with
  | nil => simp at h
  | cons y l ih =>
    rw [List.filter_cons] at h
    split at h
    · rename_i hy
      simp only [List.cons.injEq] at h
      obtain ⟨rfl, h⟩ := h
      exact ⟨[], l, rfl, by simp, hy, h⟩
    · rename_i hy
      obtain ⟨a, b, rfl, h1, h2, h3⟩ := ih h
      refine ⟨y :: a, b, rfl, ?_, h2, h3⟩
      intro x hx
      rcases List.mem_cons.1 hx with rfl | hx
      · simpa using hy
      · exact h1 x hx

theorem forEach_skip {σ : Type} {q : Nat → Bool} {f : σ → Nat → M σ} (hskip : ∀ s x, q x = false → f s x = .ok s) (a l : List Nat) (ha : ∀ x ∈ a, q x = false) (s : σ) :
    forEach (a ++ l) s f = forEach l s f := by
  induction a with
  | nil => rfl
  | cons x a ih =>
    rw [List.cons_append, forEach, hskip s x (ha x (by simp)), ok_bind]
    exact ih fun y hy => ha y (by simp [hy])

theorem kids_nil {σ : Type} {q : Nat → Bool} {f : σ → Nat → M σ} (hskip : ∀ s x, q x = false → f s x = .ok s) {l : List Nat} (h : l.filter q = []) (s : σ) :
    forEach l s f = .ok s := by
  have := forEach_skip hskip l [] (by simpa using h) s
  rw [List.append_nil] at this
  rw [this]; rfl

theorem kids_tot {σ : Type} {q : Nat → Bool} {f : σ → Nat → M σ} (hskip : ∀ s x, q x = false → f s x = .ok s) {l R : List Nat} {v : Nat} (h : l.filter q = v :: R) {s : σ}
    {Q : σ → Prop} (hv : Tot (f s v) fun s' => ∀ b, (∀ x ∈ b, x ∈ l) → b.filter q = R → Tot (forEach b s' f) Q) : Tot (forEach l s f) Q := by
  obtain ⟨a, b, rfl, h1, -, h3⟩ := kids_cons h
  rw [forEach_skip hskip a _ h1, forEach]
  refine Tot.bind hv fun s' hs' => ?_
  exact hs' b (fun x hx => by simp [hx]) h3

/-! ### Paths from the root -/

theorem rpath_root (r : Nat) (F : Forest) : rpath r F r = [r] := if_pos rfl

theorem rpath_ne {r x : Nat} (F : Forest) (h : x ≠ r) : rpath r F x = r :: F.path x := if_neg h

theorem root_mem (r : Nat) (F : Forest) (x : Nat) : r ∈ rpath r F x := by
  unfold rpath; split <;> simp

theorem rpath_sub {r : Nat} {F : Forest} {a x : Nat} (h : a ∈ rpath r F x) : a = r ∨ a ∈ F.pre := by
  unfold rpath at h
  split at h
  · simp at h; exact Or.inl h
  · rcases List.mem_cons.1 h with h | h
    · exact Or.inl h
    · exact Or.inr (Forest.path_sub h)

theorem rpath_self {r : Nat} {F : Forest} {x : Nat} (h : x = r ∨ x ∈ F.pre) : x ∈ rpath r F x := by
  unfold rpath
  split
  · rename_i e; simp [e]
  · rename_i e
    exact List.mem_cons_of_mem _ (Forest.mem_path_self (h.resolve_left e))

theorem rpath_prefix {r : Nat} {F : Forest} (hn : (r :: F.pre).Nodup) {a x : Nat} (h : a ∈ rpath r F x) : rpath r F a <+: rpath r F x := by
  obtain ⟨h1, h2⟩ := List.nodup_cons.1 hn
  unfold rpath at h ⊢
  by_cases hx : x = r
  · rw [if_pos hx] at h ⊢
    simp at h
    rw [if_pos h]
  · rw [if_neg hx] at h ⊢
    by_cases ha : a = r
    · rw [if_pos ha]
      exact ⟨_, rfl⟩
    · rw [if_neg ha]
      exact List.cons_prefix_cons.2 ⟨rfl, Forest.path_prefix h2 ((List.mem_cons.1 h).resolve_left ha)⟩

theorem rpath_last {r : Nat} {F : Forest} {x : Nat} (h : x = r ∨ x ∈ F.pre) : (rpath r F x).getLast? = some x := by
  unfold rpath
  split
  · rename_i e; simp [e]
  · rename_i e
    rw [List.getLast?_cons, Forest.path_last (h.resolve_left e)]; rfl

theorem rpath_trans {r : Nat} {F : Forest} (hn : (r :: F.pre).Nodup) {a b x : Nat} (h1 : a ∈ rpath r F b) (h2 : b ∈ rpath r F x) : a ∈ rpath r F x :=
  (rpath_prefix hn h2).subset h1

/-- The depth, the root having depth 0. -/
def depth (r : Nat) (F : Forest) (x : Nat) : Nat := (rpath r F x).length - 1

theorem rpath_length (r : Nat) (F : Forest) (x : Nat) : (rpath r F x).length = depth r F x + 1 := by
  have : rpath r F x ≠ [] := List.ne_nil_of_mem (root_mem r F x)
  have := List.length_pos_of_ne_nil this
  unfold depth
  omega

theorem depth_le {r : Nat} {F : Forest} (hn : (r :: F.pre).Nodup) {a x : Nat} (h : a ∈ rpath r F x) : depth r F a ≤ depth r F x := by
  have := (rpath_prefix hn h).length_le
  rw [rpath_length, rpath_length] at this
  omega

theorem anc_eq {r : Nat} {F : Forest} (hn : (r :: F.pre).Nodup) {a x : Nat} (hx : x = r ∨ x ∈ F.pre) (h : a ∈ rpath r F x) (hd : depth r F x ≤ depth r F a) : a = x := by
  have h1 := rpath_prefix hn h
  have h2 : rpath r F a = rpath r F x := h1.eq_of_length_le (by rw [rpath_length, rpath_length]; omega)
  have h3 := rpath_last hx
  rw [← h2, rpath_last (rpath_sub h)] at h3
  simpa using h3

theorem rpath_cons_left {p v : Nat} {ch rest : Forest} (hn : (p :: (Forest.cons v ch rest).pre).Nodup) {x : Nat} (hx : x = v ∨ x ∈ ch.pre) :
    rpath p (.cons v ch rest) x = p :: rpath v ch x := by
  rw [Forest.pre, List.nodup_cons, List.nodup_cons, List.mem_cons, List.mem_append, List.mem_append] at hn
  have hxp : x ≠ p := by rintro rfl; rcases hx with rfl | hx <;> tauto
  rw [rpath_ne _ hxp, Forest.path]
  congr 1
  unfold rpath
  by_cases hv : x = v
  · rw [if_pos hv, if_pos hv]
  · rw [if_neg hv, if_neg hv, if_pos (hx.resolve_left hv)]

theorem rpath_cons_right {p v : Nat} {ch rest : Forest} (hn : (p :: (Forest.cons v ch rest).pre).Nodup) {x : Nat} (hx : x = p ∨ x ∈ rest.pre) :
    rpath p (.cons v ch rest) x = rpath p rest x := by
  rw [Forest.pre, List.nodup_cons, List.nodup_cons, List.mem_cons, List.mem_append, List.mem_append, List.nodup_append] at hn
  unfold rpath
  by_cases hp : x = p
  · rw [if_pos hp, if_pos hp]
  · rw [if_neg hp, if_neg hp, Forest.path]
    have hxr := hx.resolve_left hp
    have h1 : x ≠ v := by rintro rfl; tauto
    have h2 : x ∉ ch.pre := fun hm => hn.2.2.2.2 x hm x hxr rfl
    rw [if_neg h1, if_neg h2]

/-! ### Euler tours -/

/-- The vertices met after entering `p`: each child on entry, `p` again after each child. -/
def tour : Forest → Nat → List Nat
  | .nil, _ => []
  | .cons v ch rest, p => v :: (tour ch v ++ p :: tour rest p)

theorem tour_length (F : Forest) (p : Nat) : (tour F p).length = 2 * F.size := by
  induction F generalizing p with
  | nil => rfl
  | cons v ch rest ih1 ih2 =>
    simp only [tour, List.length_cons, List.length_append, ih1, ih2, Forest.size_cons]
    omega

theorem tour_mem {F : Forest} {p x : Nat} (h : x ∈ p :: tour F p) : x = p ∨ x ∈ F.pre := by
  induction F generalizing p with
  | nil => simpa [tour, Forest.pre] using h
  | cons v ch rest ih1 ih2 =>
    rw [tour, ← List.cons_append, List.mem_cons, List.mem_append] at h
    rw [Forest.pre, List.mem_cons, List.mem_append]
    rcases h with h | h | h
    · exact Or.inl h
    · have := ih1 h; tauto
    · have := ih2 h; tauto

/-- Between two positions of the tour the lowest common ancestor is met, and only its descendants. -/
theorem tour_lca (F : Forest) : ∀ (p : Nat), (p :: F.pre).Nodup → ∀ (i j x y : Nat), i ≤ j → (p :: tour F p)[i]? = some x → (p :: tour F p)[j]? = some y →
    ∃ w, (∀ a, a ∈ rpath p F w ↔ a ∈ rpath p F x ∧ a ∈ rpath p F y) ∧ (∃ k, i ≤ k ∧ k ≤ j ∧ (p :: tour F p)[k]? = some w) ∧
      ∀ k z, i ≤ k → k ≤ j → (p :: tour F p)[k]? = some z → w ∈ rpath p F z := by
  induction F with
  | nil =>
    intro p hn i j x y hij hi hj
    have hi0 : i = 0 := by cases i <;> simp [tour] at hi ⊢
    have hj0 : j = 0 := by cases j <;> simp [tour] at hj ⊢
    subst hi0; subst hj0
    simp at hi hj
    subst hi; subst hj
    refine ⟨p, by simp, ⟨0, by simp⟩, fun k z _ hk hz => ?_⟩
    have hk0 : k = 0 := by omega
    subst hk0
    simp at hz
    subst hz
    exact root_mem _ _ _
  | cons v ch rest ih1 ih2 =>
    intro p hn i j x y hij hi hj
    have hn' := hn
    rw [Forest.pre, List.nodup_cons, List.nodup_cons, List.mem_cons, List.mem_append, List.mem_append, List.nodup_append] at hn'
    obtain ⟨m1, m2, m3, m4, m5⟩ := hn'
    have n1 : (v :: ch.pre).Nodup := List.nodup_cons.2 ⟨fun h => m2 (Or.inl h), m3⟩
    have n2 : (p :: rest.pre).Nodup := List.nodup_cons.2 ⟨fun h => m1 (Or.inr (Or.inr h)), m4⟩
    obtain ⟨A, hA⟩ : ∃ A, A = v :: tour ch v := ⟨_, rfl⟩
    obtain ⟨B, hB⟩ : ∃ B, B = p :: tour rest p := ⟨_, rfl⟩
    have hL : p :: tour (.cons v ch rest) p = p :: (A ++ B) := by rw [hA, hB, tour]; simp
    have getA : ∀ k, 1 ≤ k → k ≤ A.length → (p :: tour (.cons v ch rest) p)[k]? = A[k - 1]? := by
      intro k h1 h2
      rw [hL]
      obtain ⟨k, rfl⟩ : ∃ k', k = k' + 1 := ⟨k - 1, by omega⟩
      rw [List.getElem?_cons_succ, List.getElem?_append_left (by omega)]; rfl
    have getB : ∀ k, A.length < k → (p :: tour (.cons v ch rest) p)[k]? = B[k - 1 - A.length]? := by
      intro k h1
      rw [hL]
      obtain ⟨k, rfl⟩ : ∃ k', k = k' + 1 := ⟨k - 1, by omega⟩
      rw [List.getElem?_cons_succ, List.getElem?_append_right (by omega)]; rfl
    have rA : ∀ z, z ∈ A → rpath p (.cons v ch rest) z = p :: rpath v ch z := fun z hz => rpath_cons_left hn (tour_mem (by rw [← hA]; exact hz))
    have rB : ∀ z, z ∈ B → rpath p (.cons v ch rest) z = rpath p rest z := fun z hz => rpath_cons_right hn (tour_mem (by rw [← hB]; exact hz))
    rcases Nat.eq_zero_or_pos i with rfl | hi0
    · simp at hi
      subst hi
      refine ⟨p, fun a => ?_, ⟨0, by simp⟩, fun k z _ _ _ => root_mem _ _ _⟩
      rw [rpath_root, List.mem_singleton]
      exact ⟨fun h => h ▸ ⟨rfl, root_mem _ _ _⟩, fun h => h.1⟩
    by_cases hjA : j ≤ A.length
    · rw [getA i hi0 (by omega)] at hi
      rw [getA j (by omega) hjA] at hj
      obtain ⟨w, w1, ⟨k, k1, k2, k3⟩, w2⟩ := ih1 v n1 (i - 1) (j - 1) x y (by omega) (hA ▸ hi) (hA ▸ hj)
      rw [← hA] at k3
      refine ⟨w, fun a => ?_, ⟨k + 1, by omega, by omega, ?_⟩, fun k z h1 h2 hz => ?_⟩
      · rw [rA w (List.mem_of_getElem? k3), rA x (List.mem_of_getElem? hi), rA y (List.mem_of_getElem? hj), List.mem_cons, List.mem_cons, List.mem_cons, w1]
        tauto
      · rw [getA (k + 1) (by omega) (by omega)]
        exact k3
      · rw [getA k (by omega) (by omega)] at hz
        rw [rA z (List.mem_of_getElem? hz)]
        exact List.mem_cons_of_mem _ (w2 (k - 1) z (by omega) (by omega) (hA ▸ hz))
    · by_cases hiA : i ≤ A.length
      · rw [getA i hi0 hiA] at hi
        rw [getB j (by omega)] at hj
        refine ⟨p, fun a => ?_, ⟨A.length + 1, by omega, by omega, ?_⟩, fun k z _ _ _ => root_mem _ _ _⟩
        · rw [rpath_root, List.mem_singleton, rA x (List.mem_of_getElem? hi), rB y (List.mem_of_getElem? hj), List.mem_cons]
          constructor
          · rintro rfl
            exact ⟨Or.inl rfl, root_mem _ _ _⟩
          · rintro ⟨h | h, h'⟩
            · exact h
            · rcases rpath_sub h' with h' | h'
              · exact h'
              · rcases rpath_sub h with h | h
                · subst h; exact absurd (Or.inr h') m2
                · exact absurd rfl (m5 a h a h')
        · rw [getB _ (by omega), hB]; simp
      · rw [getB i (by omega)] at hi
        rw [getB j (by omega)] at hj
        obtain ⟨w, w1, ⟨k, k1, k2, k3⟩, w2⟩ := ih2 p n2 (i - 1 - A.length) (j - 1 - A.length) x y (by omega) (hB ▸ hi) (hB ▸ hj)
        rw [← hB] at k3
        refine ⟨w, fun a => ?_, ⟨k + 1 + A.length, by omega, by omega, ?_⟩, fun k z h1 h2 hz => ?_⟩
        · rw [rB w (List.mem_of_getElem? k3), rB x (List.mem_of_getElem? hi), rB y (List.mem_of_getElem? hj), w1]
        · rw [getB _ (by omega), show k + 1 + A.length - 1 - A.length = k by omega]
          exact k3
        · rw [getB k (by omega)] at hz
          rw [rB z (List.mem_of_getElem? hz)]
          exact w2 (k - 1 - A.length) z (by omega) (by omega) (hB ▸ hz)

/-! ### Translation of the specification -/

variable {g : Array (List Nat)} {r : Nat} {F : Forest}

theorem Rooted.anc_iff (hg : IsTree g) (h : Rooted g r F) {a x : Nat} (hx : x < g.size) : Anc g r a x ↔ a ∈ rpath r F x := by
  constructor
  · rintro ⟨p, hp, ha⟩
    rw [(h.path_iff hg hx).1 hp] at ha
    exact ha
  · intro ha
    exact ⟨_, h.isPath hx, ha⟩

theorem Rooted.depth_iff (hg : IsTree g) (h : Rooted g r F) {x d : Nat} (hx : x < g.size) : Dist g r x d ↔ depth r F x = d := by
  constructor
  · rintro ⟨p, hp, ha⟩
    rw [(h.path_iff hg hx).1 hp, rpath_length] at ha
    omega
  · rintro rfl
    exact ⟨_, h.isPath hx, rpath_length _ _ _⟩

theorem Rooted.mem_lt (h : Rooted g r F) {a x : Nat} (ha : a ∈ rpath r F x) : a < g.size := (h.lt_iff a).2 (rpath_sub ha)

theorem Rooted.lca_iff (hg : IsTree g) (h : Rooted g r F) {u v w : Nat} (hu : u < g.size) (hv : v < g.size) (hw : w < g.size) :
    IsLCA g r u v w ↔ ∀ a, a ∈ rpath r F w ↔ a ∈ rpath r F u ∧ a ∈ rpath r F v := by
  constructor
  · rintro ⟨h1, h2, h3⟩ a
    rw [h.anc_iff hg hu] at h1
    rw [h.anc_iff hg hv] at h2
    constructor
    · intro ha
      exact ⟨rpath_trans h.nodup ha h1, rpath_trans h.nodup ha h2⟩
    · rintro ⟨ha, hb⟩
      have := h3 a ((h.anc_iff hg hu).2 ha) ((h.anc_iff hg hv).2 hb)
      rwa [h.anc_iff hg hw] at this
  · intro hh
    have := (hh w).1 (rpath_self ((h.lt_iff w).1 hw))
    refine ⟨(h.anc_iff hg hu).2 this.1, (h.anc_iff hg hv).2 this.2, fun a ha hb => ?_⟩
    rw [h.anc_iff hg hu] at ha
    rw [h.anc_iff hg hv] at hb
    rw [h.anc_iff hg hw]
    exact (hh a).2 ⟨ha, hb⟩

/-- The path between two vertices goes through their lowest common ancestor. -/
theorem Rooted.dist_of_lca (hg : IsTree g) (h : Rooted g r F) {u v w : Nat} (hu : u < g.size) (hv : v < g.size)
    (hh : ∀ a, a ∈ rpath r F w ↔ a ∈ rpath r F u ∧ a ∈ rpath r F v) (hw : w < g.size) :
    Dist g u v (depth r F u + depth r F v - 2 * depth r F w) ∧ depth r F w ≤ depth r F u ∧ depth r F w ≤ depth r F v ∧
    ∃ s t, rpath r F u = rpath r F w ++ s ∧ rpath r F v = rpath r F w ++ t ∧ IsPath g u v (s.reverse ++ w :: t) := by
  have hww := (hh w).1 (rpath_self ((h.lt_iff w).1 hw))
  obtain ⟨s, hs⟩ := rpath_prefix h.nodup hww.1
  obtain ⟨t, ht⟩ := rpath_prefix h.nodup hww.2
  have hpu := h.isPath hu
  have hpv := h.isPath hv
  have hpw := h.isPath hw
  have hlw := hpw.last
  have hnu := hpu.nodup
  have hnv := hpv.nodup
  rw [← hs, List.nodup_append] at hnu
  rw [← ht, List.nodup_append] at hnv
  have hwm : w ∈ rpath r F w := rpath_self ((h.lt_iff w).1 hw)
  have hcu := hpu.chain
  have hcv := hpv.chain
  rw [← hs, List.isChain_append] at hcu
  rw [← ht, List.isChain_append] at hcv
  have hP : IsPath g u v (s.reverse ++ w :: t) := by
    refine ⟨?_, ?_, ?_, ?_⟩
    · have := hpu.last
      rw [← hs, List.getLast?_append, hlw] at this
      rw [List.head?_append, List.head?_reverse]
      cases hl : s.getLast? with
      | none => rw [hl] at this; simpa using this
      | some z => rw [hl] at this; simpa using this
    · have := hpv.last
      rw [← ht, List.getLast?_append, hlw] at this
      rw [List.getLast?_append, List.getLast?_cons]
      cases hl : t.getLast? with
      | none => rw [hl] at this; simpa using this
      | some z => rw [hl] at this; simpa using this
    · rw [List.nodup_append, List.nodup_cons]
      refine ⟨List.nodup_reverse.2 hnu.2.1, ⟨fun hm => hnv.2.2 w hwm w hm rfl, hnv.2.1⟩, ?_⟩
      intro a ha b hb e
      subst e
      rw [List.mem_reverse] at ha
      have haw : a ∉ rpath r F w := fun hm => hnu.2.2 a hm a ha rfl
      rcases List.mem_cons.1 hb with rfl | hb
      · exact haw hwm
      · exact haw ((hh a).2 ⟨by rw [← hs]; simp [ha], by rw [← ht]; simp [hb]⟩)
    · rw [List.isChain_append, List.isChain_cons]
      refine ⟨?_, ⟨fun y hy => hcv.2.2 w hlw y hy, hcv.2.1⟩, ?_⟩
      · rw [List.isChain_reverse]
        exact List.IsChain.imp (fun a b hab => hg.symm _ _ hab) hcu.2.1
      · intro x hx y hy
        simp at hy
        subst hy
        rw [List.getLast?_reverse] at hx
        exact hg.symm _ _ (hcu.2.2 w hlw x hx)
  have l1 := congrArg List.length hs
  have l2 := congrArg List.length ht
  rw [List.length_append, rpath_length, rpath_length] at l1 l2
  refine ⟨⟨_, hP, ?_⟩, by omega, by omega, s, t, hs.symm, ht.symm, hP⟩
  simp only [List.length_append, List.length_reverse, List.length_cons]
  omega

theorem Rooted.parent_of (hg : IsTree g) (h : Rooted g r F) {q u : Nat} (hu : u < g.size) (hq : q < g.size) (he : rpath r F u = rpath r F q ++ [u]) : Parent g r q u := by
  have hc := (h.isPath hu).chain
  rw [he, List.isChain_append] at hc
  refine ⟨hc.2.2 q (h.isPath hq).last u (by simp), (h.anc_iff hg hu).2 ?_⟩
  rw [he]
  exact List.mem_append_left _ (rpath_self ((h.lt_iff q).1 hq))

end Tree
