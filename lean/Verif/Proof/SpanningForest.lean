import Verif.Spec.SpanningForest
import Mathlib.Data.Finset.Card
import Mathlib.Order.Interval.Finset.Nat
import Mathlib.Algebra.BigOperators.Group.List.Basic
import Mathlib.Algebra.Order.Ring.Int
import Verif.Proof.UnionFind

/-! # Spanning forests: the counting argument -/

namespace SpanningForest

theorem conn_refl {es : List Edge} (x : Nat) : Conn es x x := .refl _
theorem conn_symm {es : List Edge} {x y : Nat} (h : Conn es x y) : Conn es y x := .symm _ _ h
theorem conn_trans {es : List Edge} {x y z : Nat} (h : Conn es x y) (h' : Conn es y z) : Conn es x z := .trans _ _ _ h h'
theorem conn_edge {es : List Edge} {e : Edge} (h : e ∈ es) : Conn es e.1 e.2.1 := .rel _ _ ⟨e.2.2, h⟩

/-- Connections carry over if all edges do. -/
theorem conn_of {es es' : List Edge} (h : ∀ e ∈ es, Conn es' e.1 e.2.1) {x y : Nat} (hc : Conn es x y) : Conn es' x y := by
  induction hc with
  | rel a b h' => obtain ⟨w, hw⟩ := h'; exact h _ hw
  | refl => exact conn_refl _
  | symm _ _ _ ih => exact conn_symm ih
  | trans _ _ _ _ _ ih1 ih2 => exact conn_trans ih1 ih2

theorem conn_mono {es es' : List Edge} (h : ∀ e ∈ es, e ∈ es') {x y : Nat} (hc : Conn es x y) : Conn es' x y := conn_of (fun e he => conn_edge (h e he)) hc

theorem conn_nil {x y : Nat} : Conn [] x y ↔ x = y := by
  constructor
  · intro h
    induction h with
    | rel a b h => obtain ⟨w, hw⟩ := h; simp at hw
    | refl => rfl
    | symm _ _ _ ih => exact ih.symm
    | trans _ _ _ _ _ ih1 ih2 => exact ih1.trans ih2
  · rintro rfl; exact conn_refl _

theorem conn_cons {es : List Edge} {e : Edge} {x y : Nat} : Conn (e :: es) x y ↔ Conn es x y ∨ (Conn es x e.1 ∧ Conn es e.2.1 y) ∨ (Conn es x e.2.1 ∧ Conn es e.1 y) := by
  unfold Conn
  rw [← UnionFind.eqvGen_cons]
  have : (fun a b => ∃ w, (a, b, w) ∈ e :: es) = fun a b => (a = e.1 ∧ b = e.2.1) ∨ ∃ w, (a, b, w) ∈ es := by
    funext a b
    apply propext
    constructor
    · rintro ⟨w, hw⟩
      rcases List.mem_cons.1 hw with rfl | h
      · exact Or.inl ⟨rfl, rfl⟩
      · exact Or.inr ⟨w, h⟩
    · rintro (⟨rfl, rfl⟩ | ⟨w, hw⟩)
      · exact ⟨e.2.2, by simp⟩
      · exact ⟨w, List.mem_cons_of_mem _ hw⟩
  rw [this]

theorem conn_perm {es es' : List Edge} (h : es.Perm es') {x y : Nat} : Conn es x y ↔ Conn es' x y :=
  ⟨conn_mono fun _ he => h.mem_iff.1 he, conn_mono fun _ he => h.mem_iff.2 he⟩

theorem conn_redundant {es : List Edge} {e : Edge} (h : Conn es e.1 e.2.1) {x y : Nat} : Conn (e :: es) x y ↔ Conn es x y := by
  constructor
  · refine conn_of fun e' he' => ?_
    rcases List.mem_cons.1 he' with rfl | he'
    · exact h
    · exact conn_edge he'
  · exact conn_mono fun _ he => List.mem_cons_of_mem _ he

theorem conn_append_congr {a b r : List Edge} (h : ∀ x y, Conn a x y ↔ Conn b x y) {x y : Nat} : Conn (a ++ r) x y ↔ Conn (b ++ r) x y := by
  have key : ∀ {a b : List Edge}, (∀ x y, Conn a x y → Conn b x y) → ∀ {x y}, Conn (a ++ r) x y → Conn (b ++ r) x y := by
    intro a b h x y
    refine conn_of fun e he => ?_
    rcases List.mem_append.1 he with he | he
    · exact conn_mono (fun _ he => List.mem_append_left _ he) (h _ _ (conn_edge he))
    · exact conn_edge (List.mem_append_right _ he)
  exact ⟨key fun x y => (h x y).1, key fun x y => (h x y).2⟩

open Classical in
/-- The least vertices of the components. -/
noncomputable def mins (n : Nat) (es : List Edge) : Finset Nat := (Finset.range n).filter fun v => ∀ w, w < v → ¬ Conn es v w

theorem mem_mins {n : Nat} {es : List Edge} {v : Nat} : v ∈ mins n es ↔ v < n ∧ ∀ w, w < v → ¬ Conn es v w := by
  simp only [mins, Finset.mem_filter, Finset.mem_range]

/-- The number of components. -/
noncomputable def comps (n : Nat) (es : List Edge) : Nat := (mins n es).card

theorem comps_nil (n : Nat) : comps n [] = n := by
  unfold comps
  rw [show mins n [] = Finset.range n from ?_, Finset.card_range]
  ext v
  rw [mem_mins, Finset.mem_range]
  refine ⟨fun h => h.1, fun h => ⟨h, fun w hw hc => ?_⟩⟩
  have := conn_nil.1 hc
  omega

theorem comps_anti {n : Nat} {es es' : List Edge} (h : ∀ x y, Conn es x y → Conn es' x y) : comps n es' ≤ comps n es := by
  refine Finset.card_le_card fun v hv => ?_
  rw [mem_mins] at hv ⊢
  exact ⟨hv.1, fun w hw hc => hv.2 w hw (h _ _ hc)⟩

theorem comps_congr {n : Nat} {es es' : List Edge} (h : ∀ x y, Conn es x y ↔ Conn es' x y) : comps n es = comps n es' :=
  le_antisymm (comps_anti fun x y => (h x y).2) (comps_anti fun x y => (h x y).1)

theorem exists_min {es : List Edge} (x : Nat) : ∃ a, a ≤ x ∧ Conn es x a ∧ ∀ w, Conn es x w → a ≤ w := by
  classical
  have hex : ∃ a, Conn es x a := ⟨x, conn_refl x⟩
  refine ⟨Nat.find hex, Nat.find_min' hex (conn_refl x), Nat.find_spec hex, fun w hw => Nat.find_min' hex hw⟩

theorem comps_cons {n : Nat} {es : List Edge} {e : Edge} (hu : e.1 < n) (hv : e.2.1 < n) (h : ¬ Conn es e.1 e.2.1) : comps n (e :: es) + 1 = comps n es := by
  obtain ⟨a, a1, a2, a3⟩ := exists_min (es := es) e.1
  obtain ⟨b, b1, b2, b3⟩ := exists_min (es := es) e.2.1
  have hab : a ≠ b := by
    rintro rfl
    exact h (conn_trans a2 (conn_symm b2))
  have hset : mins n (e :: es) = (mins n es).erase (max a b) := by
    ext x
    rw [Finset.mem_erase, mem_mins, mem_mins]
    constructor
    · rintro ⟨h1, h2⟩
      refine ⟨?_, h1, fun w hw hc => h2 w hw (conn_mono (fun _ he => List.mem_cons_of_mem _ he) hc)⟩
      rintro rfl
      rcases Nat.lt_or_ge a b with hlt | hge
      · rw [max_eq_right hlt.le] at h2
        exact h2 a hlt (conn_cons.2 (Or.inr (Or.inr ⟨conn_symm b2, a2⟩)))
      · rw [max_eq_left hge] at h2
        exact h2 b (by omega) (conn_cons.2 (Or.inr (Or.inl ⟨conn_symm a2, b2⟩)))
    · rintro ⟨h1, h2, h3⟩
      refine ⟨h2, fun w hw hc => ?_⟩
      rcases conn_cons.1 hc with hc | ⟨c1, c2⟩ | ⟨c1, c2⟩
      · exact h3 w hw hc
      · have hxa : x = a := by
          have h4 : a ≤ x := a3 x (conn_symm c1)
          by_contra hne
          exact h3 a (by omega) (conn_trans c1 a2)
        have := b3 w c2
        rw [max_eq_left (by omega)] at h1
        exact h1 hxa
      · have hxb : x = b := by
          have h4 : b ≤ x := b3 x (conn_symm c1)
          by_contra hne
          exact h3 b (by omega) (conn_trans c1 b2)
        have := a3 w c2
        rw [max_eq_right (by omega)] at h1
        exact h1 hxb
  unfold comps
  rw [hset, Finset.card_erase_add_one]
  rw [mem_mins]
  rcases Nat.lt_or_ge a b with hlt | hge
  · rw [max_eq_right hlt.le]
    exact ⟨by omega, fun w hw hc => by have := b3 w (conn_trans b2 hc); omega⟩
  · rw [max_eq_left hge]
    exact ⟨by omega, fun w hw hc => by have := a3 w (conn_trans a2 hc); omega⟩

/-- All endpoints are vertices. -/
def Valid (n : Nat) (es : List Edge) : Prop := ∀ e ∈ es, e.1 < n ∧ e.2.1 < n

theorem comps_ge {n : Nat} {es : List Edge} (hv : Valid n es) : n ≤ comps n es + es.length := by
  induction es with
  | nil => rw [comps_nil]; simp
  | cons e es ih =>
    have hv' : Valid n es := fun e' he' => hv e' (List.mem_cons_of_mem _ he')
    have := ih hv'
    obtain ⟨h1, h2⟩ := hv e (by simp)
    by_cases hc : Conn es e.1 e.2.1
    · rw [comps_congr fun x y => conn_redundant hc, List.length_cons]; omega
    · have := comps_cons h1 h2 hc
      rw [List.length_cons]; omega

theorem acyclic_sub {es es' : List Edge} (h : es.Subperm es') (ha : Acyclic es') : Acyclic es := by
  intro e he hc
  exact ha e (h.subset he) (conn_mono (fun e' he' => (h.erase e).subset he') hc)

theorem comps_acyclic {n : Nat} {es : List Edge} (hv : Valid n es) (ha : Acyclic es) : comps n es + es.length = n := by
  induction es with
  | nil => rw [comps_nil]; simp
  | cons e es ih =>
    have hv' : Valid n es := fun e' he' => hv e' (List.mem_cons_of_mem _ he')
    have := ih hv' (acyclic_sub (List.sublist_cons_self e es).subperm ha)
    obtain ⟨h1, h2⟩ := hv e (by simp)
    have hc : ¬ Conn es e.1 e.2.1 := by
      have := ha e (by simp)
      rwa [List.erase_cons_head] at this
    have := comps_cons h1 h2 hc
    rw [List.length_cons]; omega

theorem acyclic_of_comps {n : Nat} {es : List Edge} (hv : Valid n es) (h : comps n es + es.length = n) : Acyclic es := by
  intro e he hc
  have hp : es.Perm (e :: es.erase e) := List.perm_cons_erase he
  have h1 : comps n es = comps n (es.erase e) := comps_congr fun x y => by rw [conn_perm hp, conn_redundant hc]
  have h2 := comps_ge (n := n) (es := es.erase e) (fun e' he' => hv e' (List.mem_of_mem_erase he'))
  have h3 := List.length_erase_add_one he
  omega

theorem exists_list_max {l : List Int} (h : l ≠ []) : ∃ x ∈ l, ∀ y ∈ l, y ≤ x := by
  induction l with
  | nil => exact absurd rfl h
  | cons a l ih =>
    by_cases hl : l = []
    · subst hl
      exact ⟨a, by simp, by simp⟩
    · obtain ⟨x, h1, h2⟩ := ih hl
      rcases le_total a x with h3 | h3
      · exact ⟨x, List.mem_cons_of_mem _ h1, fun y hy => by rcases List.mem_cons.1 hy with rfl | hy; exact h3; exact h2 y hy⟩
      · exact ⟨a, by simp, fun y hy => by rcases List.mem_cons.1 hy with rfl | hy; exact le_rfl; exact (h2 y hy).trans h3⟩

/-- If `F` has at least as many elements below every bound as `T`, its sum is not larger. -/
theorem sum_le_of_counts : ∀ (k : Nat) (F T : List Int), F.length = k → T.length = k → (∀ t, T.countP (fun x => decide (x ≤ t)) ≤ F.countP (fun x => decide (x ≤ t))) → F.sum ≤ T.sum := by
  intro k
  induction k with
  | zero =>
    intro F T hF hT _
    rw [List.length_eq_zero_iff.1 hF, List.length_eq_zero_iff.1 hT]
  | succ k ih =>
    intro F T hF hT hc
    obtain ⟨x, hx1, hx2⟩ := exists_list_max (l := F) (by rintro rfl; simp at hF)
    obtain ⟨y, hy1, hy2⟩ := exists_list_max (l := T) (by rintro rfl; simp at hT)
    have pF := List.perm_cons_erase hx1
    have pT := List.perm_cons_erase hy1
    have lF := pF.length_eq
    have lT := pT.length_eq
    simp only [List.length_cons] at lF lT
    have hxy : x ≤ y := by
      have h1 : T.countP (fun z => decide (z ≤ y)) = T.length := List.countP_eq_length.2 fun z hz => by simpa using hy2 z hz
      have h2 := hc y
      have h3 : F.countP (fun z => decide (z ≤ y)) = F.length := le_antisymm List.countP_le_length (by omega)
      have := List.countP_eq_length.1 h3 x hx1
      simpa using this
    have := ih (F.erase x) (T.erase y) (by omega) (by omega) (by
      intro t
      have cF := pF.countP_eq (fun z => decide (z ≤ t))
      have cT := pT.countP_eq (fun z => decide (z ≤ t))
      have hct := hc t
      rw [List.countP_cons] at cF cT
      by_cases hxt : x ≤ t
      · have h1 : (F.erase x).countP (fun z => decide (z ≤ t)) = (F.erase x).length :=
          List.countP_eq_length.2 fun z hz => by simpa using (hx2 z (List.mem_of_mem_erase hz)).trans hxt
        rw [h1]
        exact List.countP_le_length.trans (by omega)
      · simp only [hxt, decide_false, Bool.false_eq_true, if_false] at cF
        omega)
    rw [pF.sum_eq, pT.sum_eq, List.sum_cons, List.sum_cons]
    omega

/-- The edges of key at most `t`. -/
def below (key : Int → Int) (t : Int) (es : List Edge) : List Edge := es.filter fun e => decide (key e.2.2 ≤ t)

/-- `F` connects the same vertices as `E`, at every threshold. -/
def Thr (key : Int → Int) (E F : List Edge) : Prop := ∀ t x y, Conn (below key t F) x y ↔ Conn (below key t E) x y

theorem below_all {key : Int → Int} {es : List Edge} {t : Int} (h : ∀ e ∈ es, key e.2.2 ≤ t) : below key t es = es := by
  unfold below
  rw [List.filter_eq_self]
  intro e he
  simpa using h e he

theorem exists_bound (key : Int → Int) (es : List Edge) : ∃ t, ∀ e ∈ es, key e.2.2 ≤ t := by
  induction es with
  | nil => exact ⟨0, by simp⟩
  | cons e es ih =>
    obtain ⟨t, ht⟩ := ih
    refine ⟨max t (key e.2.2), fun e' he' => ?_⟩
    rcases List.mem_cons.1 he' with rfl | he'
    · exact le_max_right _ _
    · exact (ht e' he').trans (le_max_left _ _)

theorem Thr.conn {key : Int → Int} {E F : List Edge} (h : Thr key E F) (x y : Nat) : Conn F x y ↔ Conn E x y := by
  obtain ⟨t, ht⟩ := exists_bound key (F ++ E)
  have := h t x y
  rwa [below_all fun e he => ht e (List.mem_append_left _ he), below_all fun e he => ht e (List.mem_append_right _ he)] at this

theorem Thr.trans {key : Int → Int} {E F G : List Edge} (h : Thr key E F) (h' : Thr key F G) : Thr key E G := fun t x y => (h' t x y).trans (h t x y)

theorem Thr.append {key : Int → Int} {E F : List Edge} (h : Thr key E F) (r : List Edge) : Thr key (E ++ r) (F ++ r) := by
  intro t x y
  unfold below
  rw [List.filter_append, List.filter_append]
  exact conn_append_congr fun x y => h t x y

theorem Thr.perm {key : Int → Int} {E F : List Edge} (h : E.Perm F) : Thr key E F := fun t _ _ => (conn_perm (h.filter _)).symm

/-- A forest that is spanning at every threshold is minimal. -/
theorem Thr.min {key : Int → Int} {n : Nat} {E F T : List Edge} (hE : Valid n E) (hFE : F.Subperm E) (hF : Acyclic F) (h : Thr key E F) (hT : Spans E T) :
    (F.map fun e => key e.2.2).sum ≤ (T.map fun e => key e.2.2).sum := by
  obtain ⟨hT1, hT2, hT3⟩ := hT
  have vF : Valid n F := fun e he => hE e (hFE.subset he)
  have vT : Valid n T := fun e he => hE e (hT1.subset he)
  have c1 := comps_acyclic vF hF
  have c2 := comps_acyclic vT hT2
  have c3 : comps n F = comps n T := comps_congr fun x y => by rw [h.conn, hT3]
  refine sum_le_of_counts F.length _ _ (by simp) (by simp; omega) fun t => ?_
  rw [List.countP_map, List.countP_map, List.countP_eq_length_filter, List.countP_eq_length_filter]
  have d1 := comps_acyclic (n := n) (es := below key t T) (fun e he => vT e (List.mem_of_mem_filter he)) (acyclic_sub (List.filter_sublist).subperm hT2)
  have d2 := comps_acyclic (n := n) (es := below key t F) (fun e he => vF e (List.mem_of_mem_filter he)) (acyclic_sub (List.filter_sublist).subperm hF)
  have d3 : comps n (below key t F) ≤ comps n (below key t T) := by
    refine comps_anti fun x y hc => (h t x y).2 (conn_mono (fun e he => ?_) hc)
    unfold below at he ⊢
    rw [List.mem_filter] at he ⊢
    exact ⟨hT1.subset he.1, he.2⟩
  show (below key t T).length ≤ (below key t F).length
  omega

end SpanningForest
