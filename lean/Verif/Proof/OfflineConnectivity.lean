import Verif.Spec.OfflineConnectivity
import Verif.Proof.ComponentSum
import Mathlib.Tactic.Ring
import Mathlib.Tactic.Tauto

namespace OfflineConnectivity
open Cxx

variable {Q σ α : Type}

/-! ## The history -/

theorem emplace_perm (key : Nat × Nat) (t : Nat) : ∀ xs, (emplace key t xs).Perm ((key, t) :: xs)
  | [] => List.Perm.refl _
  | x :: xs => by
    unfold emplace
    split
    · exact List.Perm.refl _
    · exact ((emplace_perm key t xs).cons x).trans (List.Perm.swap _ _ _)

theorem pluck_some (key : Nat × Nat) : ∀ (xs : List ((Nat × Nat) × Nat)) (c : Nat), c < xs.countP (fun x => x.1 = key) →
    ∃ t ys, pluck key c xs = some (t, ys) ∧ xs.Perm ((key, t) :: ys)
  | [], c, h => by simp at h
  | x :: xs, c, h => by
    unfold pluck
    by_cases hx : x.1 = key
    · by_cases hc : c = 0
      · rw [if_pos ⟨hx, hc⟩]
        exact ⟨_, _, rfl, by rw [← hx]⟩
      · rw [if_neg (by tauto), if_pos hx]
        obtain ⟨t, ys, e, hp⟩ := pluck_some key xs (c - 1) (by rw [List.countP_cons] at h; simp only [hx, decide_true, if_true] at h; omega)
        rw [e]
        exact ⟨t, x :: ys, rfl, (hp.cons x).trans (List.Perm.swap _ _ _)⟩
    · rw [if_neg (by tauto), if_neg hx]
      obtain ⟨t, ys, e, hp⟩ := pluck_some key xs c (by rw [List.countP_cons] at h; simpa [hx] using h)
      rw [e]
      exact ⟨t, x :: ys, rfl, (hp.cons x).trans (List.Perm.swap _ _ _)⟩

theorem minmax_eq {a b u v : Nat} : minmax a b = minmax u v ↔ (a, b) = (u, v) ∨ (a, b) = (v, u) := by
  unfold minmax
  split <;> split <;> simp only [Prod.mk.injEq] <;> omega

theorem minmax_minmax (u v : Nat) : minmax (minmax u v).1 (minmax u v).2 = minmax u v := by
  unfold minmax
  split <;> simp <;> omega

/-- The edge without its direction. -/
def mm (e : Nat × Nat) : Nat × Nat := minmax e.1 e.2

theorem mm_lt {n : Nat} {u v : Nat} (hu : u < n) (hv : v < n) : (minmax u v).1 < n ∧ (minmax u v).2 < n := by
  unfold minmax; split <;> exact ⟨by assumption, by assumption⟩

/-- What the members say about the queries asked so far (`S`) and the current graph `E`. -/
structure Inv (n : Nat) (s : State Q) (E : List (Nat × Nat)) (S : List (List (Nat × Nat) × Q)) : Prop where
  qs : s.queries = S.map Prod.snd
  act : (s.active.map Prod.fst).Perm (E.map mm)
  hist : ∀ j x, S[j]? = some x → ∀ e, e ∈ x.1.map mm ↔
    (∃ r ∈ s.ranges, minmax r.1 r.2.1 = e ∧ r.2.2.1 ≤ j ∧ j < r.2.2.2) ∨ (∃ t, (e, t) ∈ s.active ∧ t ≤ j)
  rle : ∀ r ∈ s.ranges, r.2.2.2 ≤ S.length ∧ r.1 < n ∧ r.2.1 < n
  ale : ∀ a ∈ s.active, a.2 ≤ S.length ∧ minmax a.1.1 a.1.2 = a.1 ∧ a.1.1 < n ∧ a.1.2 < n

theorem inv_init (n : Nat) : Inv n (init Q) [] [] := by
  refine ⟨rfl, List.Perm.refl _, ?_, ?_, ?_⟩ <;> simp [init]

theorem step_tot {n : Nat} {ok : Q → Prop} {s : State Q} {E : List (Nat × Nat)} {S : List (List (Nat × Nat) × Q)}
    (h : Inv n s E S) : ∀ (ops : List (Op Q)), Valid n ok E ops →
    Tot (ops.foldlM step s) fun s' => ∃ E', Inv n s' E' (S ++ asked E ops) := by
  intro ops
  induction ops generalizing s E S with
  | nil => intro _; exact ⟨s, rfl, E, by simpa [asked] using h⟩
  | cons op ops ih =>
    intro hv
    obtain ⟨hp, hv⟩ := hv
    rw [List.foldlM_cons]
    have hlen : s.queries.length = S.length := by rw [h.qs, List.length_map]
    cases op with
    | add u v =>
      simp only at hp
      simp only [step, pure_eq, ok_bind]
      refine ih (E := edges E (.add u v : Op Q)) (S := S) ?_ hv
      have hpm := emplace_perm (minmax u v) s.queries.length s.active
      refine ⟨h.qs, ?_, ?_, h.rle, ?_⟩
      · exact (hpm.map _).trans (h.act.cons _)
      · intro j x hx e
        rw [h.hist j x hx e]
        have hj : j < S.length := (List.getElem?_eq_some_iff.mp hx).1
        simp only [addQuery, hpm.mem_iff, List.mem_cons, Prod.mk.injEq]
        constructor
        · rintro (h | ⟨t, ht, hl⟩)
          · exact .inl h
          · exact .inr ⟨t, .inr ht, hl⟩
        · rintro (h | ⟨t, ⟨-, rfl⟩ | ht, hl⟩)
          · exact .inl h
          · omega
          · exact .inr ⟨t, ht, hl⟩
      · intro a ha
        simp only [addQuery, hpm.mem_iff, List.mem_cons] at ha
        rcases ha with rfl | ha
        · exact ⟨hlen.le, minmax_minmax u v, mm_lt hp.1 hp.2⟩
        · exact h.ale a ha
    | del u v c =>
      simp only at hp
      obtain ⟨e0, l1, l2, -, he0, hE, hE'⟩ := List.exists_of_eraseP (p := fun e => decide (e = (u, v) ∨ e = (v, u))) (l := E)
        (a := if (u, v) ∈ E then (u, v) else (v, u)) (by split <;> tauto) (by split <;> simp)
      have he0 : mm e0 = minmax u v := minmax_eq.mpr (by simpa using he0)
      have hmem : minmax u v ∈ s.active.map Prod.fst := by
        rw [h.act.mem_iff, hE, ← he0]; simp
      have hcnt : 0 < s.active.countP (fun x => x.1 = minmax u v) := by
        rw [List.countP_pos_iff]
        obtain ⟨a, ha, e⟩ := List.mem_map.mp hmem
        exact ⟨a, ha, by simpa using e⟩
      obtain ⟨t, ys, e, hpm⟩ := pluck_some (minmax u v) s.active _ (Nat.mod_lt c hcnt)
      simp only [step, delQuery, e, pure_eq, ok_bind]
      refine ih (E := edges E (.del u v c : Op Q)) (S := S) ?_ hv
      have hin := h.ale _ (hpm.mem_iff.mpr List.mem_cons_self)
      have hvs : u < n ∧ v < n := by
        have := hin.2.2
        unfold minmax at this
        split at this
        · exact ⟨this.2, this.1⟩
        · exact this
      refine ⟨h.qs, ?_, ?_, ?_, ?_⟩
      · have := (hpm.map Prod.fst).symm.trans h.act
        simp only [edges]
        rw [hE']
        rw [hE] at this
        simp only [List.map_cons, List.map_append, he0] at this ⊢
        exact (this.trans List.perm_middle).cons_inv
      · intro j x hx e
        rw [h.hist j x hx e]
        have hj : j < S.length := (List.getElem?_eq_some_iff.mp hx).1
        simp only [hpm.mem_iff, List.mem_cons, Prod.mk.injEq, List.mem_append, List.not_mem_nil, or_false]
        constructor
        · rintro (⟨r, hr, h⟩ | ⟨t', ⟨rfl, rfl⟩ | ht, hl⟩)
          · exact .inl ⟨r, .inl hr, h⟩
          · exact .inl ⟨_, .inr rfl, rfl, hl, by dsimp only; omega⟩
          · exact .inr ⟨t', ht, hl⟩
        · rintro (⟨r, hr | rfl, h⟩ | ⟨t', ht, hl⟩)
          · exact .inl ⟨r, hr, h⟩
          · exact .inr ⟨t, .inl ⟨h.1.symm, rfl⟩, h.2.1⟩
          · exact .inr ⟨t', .inr ht, hl⟩
      · intro r hr
        rcases List.mem_append.mp hr with hr | hr
        · exact h.rle r hr
        · rw [List.mem_singleton] at hr
          subst hr
          exact ⟨hlen.le, hvs⟩
      · intro a ha
        exact h.ale a (hpm.mem_iff.mpr (List.mem_cons_of_mem _ ha))
    | query x =>
      simp only [step, pure_eq, ok_bind]
      have : Inv n (query s x) E (S ++ [(E, x)]) := by
        refine ⟨by simp [query, h.qs], h.act, ?_, ?_, ?_⟩
        · intro j y hy e
          by_cases hj : j < S.length
          · rw [List.getElem?_append_left hj] at hy
            exact h.hist j y hy e
          · have : j = S.length ∧ (E, x) = y := by
              have := (List.getElem?_eq_some_iff.mp hy).1
              rw [List.length_append, List.length_singleton] at this
              have hj : j = S.length := by omega
              subst hj
              simpa using hy
            obtain ⟨rfl, rfl⟩ := this
            rw [← h.act.mem_iff]
            simp only [query, List.mem_map]
            constructor
            · rintro ⟨a, ha, rfl⟩
              exact .inr ⟨a.2, ha, (h.ale a ha).1⟩
            · rintro (⟨r, hr, -, -, hl⟩ | ⟨t, ht, -⟩)
              · have := (h.rle r hr).1; omega
              · exact ⟨_, ht, rfl⟩
        · intro r hr
          have := h.rle r hr
          rw [List.length_append]
          exact ⟨by omega, this.2⟩
        · intro a ha
          have := h.ale a ha
          rw [List.length_append]
          exact ⟨by omega, this.2⟩
      have := ih this hv
      simpa [asked, edges] using this

/-- After `answer` has closed the active edges. -/
structure Closed (n : Nat) (s : State Q) (S : List (List (Nat × Nat) × Q)) : Prop where
  qs : s.queries = S.map Prod.snd
  hist : ∀ j x, S[j]? = some x → ∀ e, e ∈ x.1.map mm ↔
    ∃ r ∈ s.ranges, minmax r.1 r.2.1 = e ∧ r.2.2.1 ≤ j ∧ j < r.2.2.2
  rle : ∀ r ∈ s.ranges, r.2.2.2 ≤ S.length ∧ r.1 < n ∧ r.2.1 < n

/-- The first loop of `answer`. -/
def close (s : State Q) : State Q :=
  { s with active := [], ranges := s.ranges ++ s.active.map fun x => (x.1.1, x.1.2, x.2, s.queries.length) }

theorem close_closed {n : Nat} {s : State Q} {E : List (Nat × Nat)} {S : List (List (Nat × Nat) × Q)} (h : Inv n s E S) :
    Closed n (close s) S := by
  have hlen : s.queries.length = S.length := by rw [h.qs, List.length_map]
  refine ⟨h.qs, ?_, ?_⟩
  · intro j x hx e
    rw [h.hist j x hx e]
    have hj : j < S.length := (List.getElem?_eq_some_iff.mp hx).1
    simp only [close, List.mem_append, List.mem_map]
    constructor
    · rintro (⟨r, hr, h⟩ | ⟨t, ht, hl⟩)
      · exact ⟨r, .inl hr, h⟩
      · exact ⟨_, .inr ⟨_, ht, rfl⟩, (h.ale _ ht).2.1, hl, by dsimp only; omega⟩
    · rintro ⟨r, hr | ⟨a, ha, rfl⟩, h1, h2, h3⟩
      · exact .inl ⟨r, hr, h1, h2, h3⟩
      · dsimp only at h1 h2
        rw [(h.ale a ha).2.1] at h1
        subst h1
        exact .inr ⟨a.2, ha, h2⟩
  · intro r hr
    rcases List.mem_append.mp hr with hr | hr
    · exact h.rle r hr
    · obtain ⟨a, ha, rfl⟩ := List.mem_map.mp hr
      exact ⟨hlen.le, (h.ale a ha).2.2⟩

/-! ## The table -/

/-- The edge `e` is stored at an ancestor of node `p`. -/
def Cov (seg : Array (List (Nat × Nat))) (p : Nat) (e : Nat × Nat) : Prop := ∃ h, 1 ≤ p / 2 ^ h ∧ e ∈ at' [] seg (p / 2 ^ h)

theorem anc_iff {q x h p : Nat} (h1 : q ≤ x * 2 ^ h) (h2 : (x + 1) * 2 ^ h ≤ 2 * q) (hp : q ≤ p) (hp' : p < 2 * q) :
    (∃ h', p / 2 ^ h' = x) ↔ p / 2 ^ h = x := by
  refine ⟨?_, fun h => ⟨_, h⟩⟩
  rintro ⟨h', e⟩
  have hpos := Nat.two_pow_pos h'
  have e1 : x * 2 ^ h' ≤ p := by rw [← e]; exact Nat.div_mul_le_self _ _
  have e2 : p < (x + 1) * 2 ^ h' := by rw [← e]; exact Nat.lt_mul_of_div_lt (Nat.lt_succ_self _) hpos
  rcases lt_trichotomy h h' with hl | rfl | hl
  · obtain ⟨d, rfl⟩ : ∃ d, h' = h + 1 + d := ⟨h' - h - 1, by omega⟩
    have : x * 2 ^ (h + 1) ≤ x * 2 ^ (h + 1 + d) := Nat.mul_le_mul_left _ (Nat.pow_le_pow_right (by norm_num) (by omega))
    have e3 : x * 2 ^ (h + 1) = 2 * (x * 2 ^ h) := by ring
    omega
  · exact e
  · obtain ⟨d, rfl⟩ : ∃ d, h = h' + 1 + d := ⟨h - h' - 1, by omega⟩
    have : (x + 1) * 2 ^ (h' + 1) ≤ (x + 1) * 2 ^ (h' + 1 + d) := Nat.mul_le_mul_left _ (Nat.pow_le_pow_right (by norm_num) (by omega))
    have e3 : (x + 1) * 2 ^ (h' + 1) = 2 * ((x + 1) * 2 ^ h') := by ring
    omega

theorem push_tot {seg : Array (List (Nat × Nat))} {k : Nat} (hk : k < seg.size) (h1 : 1 ≤ k) (e : Nat × Nat) :
    Tot (push seg k e) fun seg' => seg'.size = seg.size ∧
      (∀ p e', Cov seg' p e' ↔ Cov seg p e' ∨ (e' = e ∧ ∃ h, p / 2 ^ h = k)) ∧
      ∀ i, ∀ e' ∈ at' [] seg' i, e' = e ∨ e' ∈ at' [] seg i := by
  unfold push
  rw [rd_at [] hk, ok_bind, wr_eq hk]
  refine Tot.pure ⟨by simp, ?_, ?_⟩
  · intro p e'
    unfold Cov
    simp only [at_set [] hk]
    constructor
    · rintro ⟨h, hh, hm⟩
      split at hm
      · rcases List.mem_append.mp hm with hm | hm
        · exact .inl ⟨h, hh, by simp_all⟩
        · exact .inr ⟨by simpa using hm, h, by simp_all⟩
      · exact .inl ⟨h, hh, hm⟩
    · rintro (⟨h, hh, hm⟩ | ⟨rfl, h, hh⟩)
      · refine ⟨h, hh, ?_⟩
        split
        · simp_all
        · exact hm
      · refine ⟨h, by omega, ?_⟩
        rw [if_pos (by omega)]
        simp
  · intro i e' he
    rw [at_set [] hk] at he
    split at he
    · simp_all; tauto
    · exact .inr he

/-- The loop that distributes one edge. -/
theorem seg_tot {q L R : Nat} {seg : Array (List (Nat × Nat))} (hs : seg.size = 2 * q) (hL : q ≤ L) (hR : R ≤ 2 * q) (hq : 1 ≤ q)
    (e : Nat × Nat) :
    Tot (loop (segStep e) R (seg, L, R)) fun r => r.1.size = 2 * q ∧
      (∀ p, q ≤ p → p < 2 * q → ∀ e', Cov r.1 p e' ↔ Cov seg p e' ∨ (e' = e ∧ L ≤ p ∧ p < R)) ∧
      ∀ i, ∀ e' ∈ at' [] r.1 i, e' = e ∨ e' ∈ at' [] seg i := by
  refine Tot.loop (P := fun s : Array (List (Nat × Nat)) × Nat × Nat => s.1.size = 2 * q ∧
      (∃ h, q ≤ s.2.1 * 2 ^ h ∧ s.2.2 * 2 ^ h ≤ 2 * q ∧ ∀ p, q ≤ p → p < 2 * q →
        (s.2.1 ≤ p / 2 ^ h → p / 2 ^ h < s.2.2 → L ≤ p ∧ p < R) ∧ ∀ e', Cov s.1 p e' ↔ Cov seg p e' ∨
        (e' = e ∧ (L ≤ p ∧ p < R) ∧ ¬ (s.2.1 ≤ p / 2 ^ h ∧ p / 2 ^ h < s.2.2))) ∧
      ∀ i, ∀ e' ∈ at' [] s.1 i, e' = e ∨ e' ∈ at' [] seg i) (fun s => s.2.2) ?_ ?_ le_rfl
  · rintro ⟨sg, l, r⟩ ⟨hsz, ⟨h, hl, hr, hcov⟩, hin⟩
    dsimp only at hsz hl hr hcov hin
    unfold segStep
    by_cases hlr : l < r
    · rw [if_pos hlr]
      have hpos := Nat.two_pow_pos h
      have hl1 : 1 ≤ l := by
        by_contra hn
        have : l = 0 := by omega
        subst this; omega
      have hr2 : r ≤ 2 * q := (Nat.le_mul_of_pos_right r hpos).trans hr
      -- the left end
      refine Tot.bind (P := fun s : Array (List (Nat × Nat)) × Nat => s.1.size = 2 * q ∧ s.2 % 2 = 0 ∧ l ≤ s.2 ∧ s.2 ≤ l + 1 ∧
        (∀ p, q ≤ p → p < 2 * q → ∀ e', Cov s.1 p e' ↔ Cov seg p e' ∨
          (e' = e ∧ (L ≤ p ∧ p < R) ∧ ¬ (s.2 ≤ p / 2 ^ h ∧ p / 2 ^ h < r))) ∧
        ∀ i, ∀ e' ∈ at' [] s.1 i, e' = e ∨ e' ∈ at' [] seg i) ?_ ?_
      · by_cases hodd : l % 2 = 1
        · rw [if_pos hodd]
          refine Tot.bind (push_tot (by rw [hsz]; omega) hl1 e) fun sg' ⟨h1, h2, h3⟩ => Tot.pure ⟨h1.trans hsz, by dsimp only; omega, by dsimp only; omega, le_rfl, ?_, ?_⟩
          · intro p hp hp' e'
            dsimp only
            rw [h2, (hcov p hp hp').2 e', anc_iff (q := q) (h := h) hl ((Nat.mul_le_mul_right _ hlr).trans hr) hp hp']
            have := (hcov p hp hp').1
            constructor
            · rintro ((hc | ⟨he, hL', hn⟩) | ⟨he, hz⟩)
              · exact .inl hc
              · exact .inr ⟨he, hL', by omega⟩
              · exact .inr ⟨he, this (by omega) (by omega), by omega⟩
            · rintro (hc | ⟨he, hL', hn⟩)
              · exact .inl (.inl hc)
              · by_cases hz : p / 2 ^ h = l
                · exact .inr ⟨he, hz⟩
                · exact .inl (.inr ⟨he, hL', by omega⟩)
          · intro i e' he'
            rcases h3 i e' he' with h | h
            · exact .inl h
            · exact hin i e' h
        · rw [if_neg hodd]
          exact Tot.pure ⟨hsz, by dsimp only; omega, le_rfl, by dsimp only; omega, fun p hp hp' e' => (hcov p hp hp').2 e', hin⟩
      · rintro ⟨sg1, l1⟩ ⟨hsz1, he1, hl1a, hl1b, hcov1, hin1⟩
        dsimp only at hsz1 he1 hl1a hl1b hcov1 hin1 ⊢
        refine Tot.bind (P := fun s : Array (List (Nat × Nat)) × Nat => s.1.size = 2 * q ∧ s.2 % 2 = 0 ∧ l1 ≤ s.2 ∧ s.2 ≤ r ∧
          (∀ p, q ≤ p → p < 2 * q → ∀ e', Cov s.1 p e' ↔ Cov seg p e' ∨
            (e' = e ∧ (L ≤ p ∧ p < R) ∧ ¬ (l1 ≤ p / 2 ^ h ∧ p / 2 ^ h < s.2))) ∧
          ∀ i, ∀ e' ∈ at' [] s.1 i, e' = e ∨ e' ∈ at' [] seg i) ?_ ?_
        · by_cases hodd : r % 2 = 1
          · rw [if_pos hodd]
            refine Tot.bind (push_tot (by rw [hsz1]; omega) (by omega) e) fun sg' ⟨h1, h2, h3⟩ =>
              Tot.pure ⟨h1.trans hsz1, by dsimp only; omega, by dsimp only; omega, by dsimp only; omega, ?_, ?_⟩
            · intro p hp hp' e'
              dsimp only
              rw [h2, hcov1 p hp hp' e', anc_iff (q := q) (h := h) (hl.trans (Nat.mul_le_mul_right _ (by omega)))
                (by rw [Nat.sub_add_cancel (by omega)]; exact hr) hp hp']
              have := (hcov p hp hp').1
              constructor
              · rintro ((hc | ⟨he, hL', hn⟩) | ⟨he, hz⟩)
                · exact .inl hc
                · exact .inr ⟨he, hL', by omega⟩
                · exact .inr ⟨he, this (by omega) (by omega), by omega⟩
              · rintro (hc | ⟨he, hL', hn⟩)
                · exact .inl (.inl hc)
                · by_cases hz : p / 2 ^ h = r - 1
                  · exact .inr ⟨he, hz⟩
                  · exact .inl (.inr ⟨he, hL', by omega⟩)
            · intro i e' he'
              rcases h3 i e' he' with h | h
              · exact .inl h
              · exact hin1 i e' h
          · rw [if_neg hodd]
            exact Tot.pure ⟨hsz1, by dsimp only; omega, by dsimp only; omega, le_rfl, hcov1, hin1⟩
        · rintro ⟨sg2, r2⟩ ⟨hsz2, he2, hr2a, hr2b, hcov2, hin2⟩
          dsimp only at hsz2 he2 hr2a hr2b hcov2 hin2 ⊢
          refine Tot.pure ⟨⟨hsz2, ⟨h + 1, ?_, ?_, ?_⟩, hin2⟩, by dsimp only; omega⟩
          · dsimp only
            have : l1 / 2 * 2 ^ (h + 1) = l1 * 2 ^ h := by
              rw [Nat.pow_succ', ← Nat.mul_assoc, Nat.div_mul_cancel (Nat.dvd_of_mod_eq_zero he1)]
            rw [this]
            exact hl.trans (Nat.mul_le_mul_right _ hl1a)
          · dsimp only
            have : r2 / 2 * 2 ^ (h + 1) = r2 * 2 ^ h := by
              rw [Nat.pow_succ', ← Nat.mul_assoc, Nat.div_mul_cancel (Nat.dvd_of_mod_eq_zero he2)]
            rw [this]
            exact (Nat.mul_le_mul_right _ hr2b).trans hr
          · intro p hp hp'
            have hz : p / 2 ^ (h + 1) = p / 2 ^ h / 2 := by rw [Nat.pow_succ, Nat.div_div_eq_div_mul]
            dsimp only
            rw [hz]
            refine ⟨fun h1 h2 => (hcov p hp hp').1 (by omega) (by omega), fun e' => ?_⟩
            rw [hcov2 p hp hp' e']
            have : (l1 ≤ p / 2 ^ h ∧ p / 2 ^ h < r2) ↔ (l1 / 2 ≤ p / 2 ^ h / 2 ∧ p / 2 ^ h / 2 < r2 / 2) := by omega
            rw [this]
    · rw [if_neg hlr]
      refine Tot.pure ⟨hsz, fun p hp hp' e' => ?_, hin⟩
      rw [(hcov p hp hp').2 e']
      have : ¬ (l ≤ p / 2 ^ h ∧ p / 2 ^ h < r) := by omega
      simp only [this, not_false_eq_true, and_true]
  · refine ⟨hs, ⟨0, ?_, ?_, ?_⟩, fun i e' h => .inr h⟩
    · simpa using hL
    · simpa using hR
    · intro p hp hp'
      simp only [pow_zero, Nat.div_one]
      refine ⟨fun h1 h2 => ⟨h1, h2⟩, fun e' => ?_⟩
      tauto

theorem build_tot {q : Nat} (hq : 1 ≤ q) (ranges : List (Nat × Nat × Nat × Nat)) (hr : ∀ r ∈ ranges, r.2.2.2 ≤ q) :
    Tot (build q ranges) fun seg => seg.size = 2 * q ∧
      (∀ j, j < q → ∀ e, Cov seg (q + j) e ↔ ∃ r ∈ ranges, (r.1, r.2.1) = e ∧ r.2.2.1 ≤ j ∧ j < r.2.2.2) ∧
      ∀ i, ∀ e ∈ at' [] seg i, ∃ r ∈ ranges, (r.1, r.2.1) = e := by
  refine Tot.forEach (P := fun (pre : List (Nat × Nat × Nat × Nat)) (seg : Array (List (Nat × Nat))) => seg.size = 2 * q ∧
      (∀ j, j < q → ∀ e, Cov seg (q + j) e ↔ ∃ r ∈ pre, (r.1, r.2.1) = e ∧ r.2.2.1 ≤ j ∧ j < r.2.2.2) ∧
      ∀ i, ∀ e ∈ at' [] seg i, ∃ r ∈ pre, (r.1, r.2.1) = e) ?_ ?_
  · have h0 : ∀ i, at' [] (Array.replicate (2 * q) ([] : List (Nat × Nat))) i = [] := by
      intro i
      simp only [at', Array.getElem?_replicate]
      split <;> rfl
    refine ⟨by simp, fun j hj e => ?_, fun i e he => ?_⟩
    · simp [Cov, h0]
    · simp [h0] at he
  · rintro pre ⟨u, v, l, r⟩ post seg he ⟨hsz, hc, hin⟩
    have hrq := hr (u, v, l, r) (by rw [he]; simp)
    dsimp only at hrq ⊢
    refine Tot.bind (seg_tot (L := l + q) (R := r + q) hsz (by omega) (by omega) hq (u, v)) fun s ⟨h1, h2, h3⟩ => Tot.pure ⟨h1, ?_, ?_⟩
    · intro j hj e
      rw [h2 (q + j) (by omega) (by omega), hc j hj e]
      simp only [List.mem_append, List.mem_singleton]
      constructor
      · rintro (⟨x, hx, hh⟩ | ⟨rfl, hh⟩)
        · exact ⟨x, .inl hx, hh⟩
        · exact ⟨_, .inr rfl, rfl, by dsimp only; omega, by dsimp only; omega⟩
      · rintro ⟨x, hx | rfl, hh⟩
        · exact .inl ⟨x, hx, hh⟩
        · dsimp only at hh
          exact .inr ⟨hh.1.symm, by omega, by omega⟩
    · intro i e he'
      rcases h3 i e he' with rfl | h
      · exact ⟨_, List.mem_append_right _ (List.mem_singleton.mpr rfl), rfl⟩
      · obtain ⟨x, hx, e⟩ := hin i e h
        exact ⟨x, List.mem_append_left _ hx, e⟩

/-! ## The search -/

/-- What `answer` needs of the union-find: `I s A` says that the object `s` represents the edges `A`. -/
structure Undoable (U : UF Q σ α) (I : σ → List (Nat × Nat) → Prop) (n : Nat) : Prop where
  merge : ∀ s A u v, I s A → u < n → v < n → Tot (U.merge s u v) fun r => I r.1 ((u, v) :: A) ∧
    (r.2 = true → U.undo r.1 = .ok s) ∧ (r.2 = false → r.1 = s)

theorem mergeAll_tot {U : UF Q σ α} {I : σ → List (Nat × Nat) → Prop} {n : Nat} (hU : Undoable U I n) {s : σ} {A : List (Nat × Nat)}
    (hI : I s A) (es : List (Nat × Nat)) (hes : ∀ e ∈ es, e.1 < n ∧ e.2 < n) :
    Tot (mergeAll U es s) fun r => I r.1 (es.reverse ++ A) ∧ ∀ i, forN (fun _ uf => U.undo uf) r.2 i r.1 = .ok s := by
  refine Tot.forEach (P := fun (pre : List (Nat × Nat)) (r : σ × Nat) => I r.1 (pre.reverse ++ A) ∧ ∀ i, forN (fun _ uf => U.undo uf) r.2 i r.1 = .ok s)
    ⟨by simpa using hI, fun i => rfl⟩ ?_
  rintro pre ⟨u, v⟩ post ⟨r, c⟩ he ⟨h1, h2⟩
  have := hes (u, v) (by rw [he]; simp)
  refine Tot.bind (hU.merge r _ u v h1 this.1 this.2) ?_
  rintro ⟨r', b⟩ ⟨g1, g2, g3⟩
  refine Tot.pure ⟨by simpa using g1, fun i => ?_⟩
  cases b with
  | true =>
    show forN _ (c + 1) i r' = _
    rw [forN, g2 rfl, ok_bind]
    exact h2 _
  | false =>
    show forN _ c i r' = _
    dsimp only at g3
    rw [g3 rfl]
    exact h2 i

theorem dfs_tot {U : UF Q σ α} {I : σ → List (Nat × Nat) → Prop} {n : Nat} (hU : Undoable U I n) {seg : Array (List (Nat × Nat))}
    {qs : Array Q} (hsz : seg.size = 2 * qs.size) (hin : ∀ i, ∀ e ∈ at' [] seg i, e.1 < n ∧ e.2 < n) (G : Nat → α → Prop)
    (hask : ∀ s A j x, I s A → qs[j]? = some x → (∀ e, e ∈ A ↔ Cov seg (qs.size + j) e) → Tot (U.ask s x) (G j)) :
    ∀ f k s A (ans : Array α), 1 ≤ k → k < 2 * qs.size → 2 * qs.size - k ≤ f → I s A → ans.size = qs.size →
      (∀ e, e ∈ A ↔ ∃ h, 1 ≤ k / 2 ^ (h + 1) ∧ e ∈ at' [] seg (k / 2 ^ (h + 1))) →
      Tot (dfs U seg qs f k (s, ans)) fun r => r.1 = s ∧ r.2.size = qs.size ∧ ∀ j, j < qs.size →
        ((∃ h, (qs.size + j) / 2 ^ h = k) → ∃ a, r.2[j]? = some a ∧ G j a) ∧
        ((¬ ∃ h, (qs.size + j) / 2 ^ h = k) → r.2[j]? = ans[j]?) := by
  intro f
  induction f with
  | zero => intro k s A ans h1 h2 h3; omega
  | succ f ih =>
    intro k s A ans h1 h2 h3 hI hans hA
    unfold dfs
    rw [rd_at [] (by rw [hsz]; exact h2), ok_bind]
    refine Tot.bind (mergeAll_tot hU hI _ (hin k)) ?_
    rintro ⟨s1, c⟩ ⟨hI1, hundo⟩
    dsimp only at hI1 hundo ⊢
    obtain ⟨A1, hA1⟩ : ∃ A1, A1 = (at' [] seg k).reverse ++ A := ⟨_, rfl⟩
    rw [← hA1] at hI1
    have hcov : ∀ e, e ∈ A1 ↔ Cov seg k e := by
      intro e
      rw [hA1, List.mem_append, List.mem_reverse, hA]
      constructor
      · rintro (h | ⟨h, hh⟩)
        · exact ⟨0, by simpa using h1, by simpa using h⟩
        · exact ⟨h + 1, hh⟩
      · rintro ⟨h, hh⟩
        cases h with
        | zero => exact .inl (by simpa using hh.2)
        | succ h => exact .inr ⟨h, hh⟩
    refine Tot.bind (P := fun r : σ × Array α => r.1 = s1 ∧ r.2.size = qs.size ∧ ∀ j, j < qs.size →
        ((∃ h, (qs.size + j) / 2 ^ h = k) → ∃ a, r.2[j]? = some a ∧ G j a) ∧
        ((¬ ∃ h, (qs.size + j) / 2 ^ h = k) → r.2[j]? = ans[j]?)) ?_ ?_
    · by_cases hk : k ≥ qs.size
      · rw [if_pos hk]
        have hj : k - qs.size < qs.size := by omega
        rw [rd_eq hj, ok_bind]
        refine Tot.bind (hask s1 A1 (k - qs.size) _ hI1 (Array.getElem?_eq_getElem hj) (by rw [Nat.add_sub_cancel' hk]; exact hcov)) fun a ha => ?_
        rw [wr_eq (by omega), ok_bind]
        refine Tot.pure ⟨rfl, by simpa using hans, fun j hjl => ?_⟩
        dsimp only
        have key : (∃ h, (qs.size + j) / 2 ^ h = k) ↔ k - qs.size = j := by
          constructor
          · rintro ⟨h, hh⟩
            cases h with
            | zero => simp at hh; omega
            | succ h =>
              have : (qs.size + j) / 2 ^ (h + 1) ≤ (qs.size + j) / 2 ^ 1 := Nat.div_le_div_left (Nat.pow_le_pow_right (by norm_num) (by omega)) (by norm_num)
              omega
          · rintro rfl
            exact ⟨0, by simp; omega⟩
        rw [key, get?_set _ _ _ _ (by omega)]
        constructor
        · intro e; rw [if_pos e]; subst e; exact ⟨a, rfl, ha⟩
        · intro e; rw [if_neg e]
      · rw [if_neg hk]
        have hch : ∀ b, b < 2 → ∀ e, e ∈ A1 ↔ ∃ h, 1 ≤ (2 * k + b) / 2 ^ (h + 1) ∧ e ∈ at' [] seg ((2 * k + b) / 2 ^ (h + 1)) := by
          intro b hb e
          have : ∀ h, (2 * k + b) / 2 ^ (h + 1) = k / 2 ^ h := by
            intro h
            rw [Nat.pow_succ', ← Nat.div_div_eq_div_mul]
            congr 1; omega
          simp only [this]
          exact hcov e
        refine Tot.bind (ih (2 * k) s1 A1 ans (by omega) (by omega) (by omega) hI1 hans (hch 0 (by omega))) ?_
        rintro ⟨s2, ans2⟩ ⟨e2, hs2, h2'⟩
        dsimp only at e2 hs2 h2' ⊢
        subst e2
        refine Tot.mono (ih (2 * k + 1) s2 A1 ans2 (by omega) (by omega) (by omega) hI1 hs2 (hch 1 (by omega))) ?_
        rintro ⟨s3, ans3⟩ ⟨e3, hs3, h3'⟩
        dsimp only at e3 hs3 h3' ⊢
        refine ⟨e3, hs3, fun j hj => ?_⟩
        have key : (∃ h, (qs.size + j) / 2 ^ h = k) ↔ (∃ h, (qs.size + j) / 2 ^ h = 2 * k) ∨ ∃ h, (qs.size + j) / 2 ^ h = 2 * k + 1 := by
          constructor
          · rintro ⟨h, hh⟩
            cases h with
            | zero => simp at hh; omega
            | succ h =>
              rw [Nat.pow_succ, ← Nat.div_div_eq_div_mul] at hh
              rcases Nat.mod_two_eq_zero_or_one ((qs.size + j) / 2 ^ h) with hm | hm
              · exact .inl ⟨h, by omega⟩
              · exact .inr ⟨h, by omega⟩
          · rintro (⟨h, hh⟩ | ⟨h, hh⟩) <;>
            · refine ⟨h + 1, ?_⟩
              rw [Nat.pow_succ, ← Nat.div_div_eq_div_mul]
              omega
        rw [key]
        obtain ⟨a1, a2⟩ := h2' j hj
        obtain ⟨b1, b2⟩ := h3' j hj
        constructor
        · intro h
          by_cases hb : ∃ h, (qs.size + j) / 2 ^ h = 2 * k + 1
          · exact b1 hb
          · rw [b2 hb]
            exact a1 (h.resolve_right hb)
        · intro h
          rw [not_or] at h
          rw [b2 h.2, a2 h.1]
    · rintro ⟨s2, ans2⟩ ⟨e2, hs2, h2'⟩
      dsimp only at e2 hs2 h2' ⊢
      subst e2
      rw [hundo, ok_bind]
      exact Tot.pure ⟨rfl, hs2, h2'⟩

/-! ## `answer` -/

open UnionFind (Connected)

theorem connected_mono {A B : List (Nat × Nat)} (h : ∀ e ∈ A, mm e ∈ B.map mm) {x y : Nat} (hc : Connected A x y) : Connected B x y := by
  induction hc with
  | rel a b hab =>
    obtain ⟨⟨c, d⟩, hcd, e⟩ := List.mem_map.mp (h _ hab)
    rcases minmax_eq.mp e with e | e
    · cases e; exact .rel _ _ hcd
    · cases e; exact .symm _ _ (.rel _ _ hcd)
  | refl => exact .refl _
  | symm _ _ _ ih => exact .symm _ _ ih
  | trans _ _ _ _ _ ih1 ih2 => exact .trans _ _ _ ih1 ih2

/-- The answers, if the union-find answers by the connectivity of its edges. -/
theorem answer_tot {U : UF Q σ α} {I : σ → List (Nat × Nat) → Prop} {n : Nat} (hU : Undoable U I n) {uf : σ} (h0 : I uf []) (a : α)
    (G : List (Nat × Nat) × Q → α → Prop) {ok : Q → Prop}
    (hask : ∀ s A E x, I s A → ok x → (∀ x y, Connected A x y ↔ Connected E x y) → Tot (U.ask s x) (G (E, x)))
    {s : State Q} {S : List (List (Nat × Nat) × Q)} (hc : Closed n (close s) S) (hok : ∀ x ∈ S, ok x.2) :
    ∃ as, answer U uf a s = .ok (close s, as) ∧ List.Forall₂ G S as := by
  have hlen : s.queries.length = S.length := by
    have : (close s).queries.length = S.length := by rw [hc.qs, List.length_map]
    exact this
  have hdef : answer U uf a s = if s.queries.length = 0 then .ok (close s, []) else (do
      let seg ← build s.queries.length (close s).ranges
      let (_, ans) ← dfs U seg s.queries.toArray (2 * s.queries.length) 1 (uf, Array.replicate s.queries.length a)
      return (close s, ans.toList)) := by
    unfold answer
    by_cases hq : s.queries.length = 0
    · simp only [hq, if_true]
      have e : (close s) = { s with active := [], ranges := s.ranges ++ s.active.map fun x => (x.1.1, x.1.2, x.2, s.queries.length) } := rfl
      rw [e, hq]
      rfl
    · simp only [hq, if_false]
      rfl
  rw [hdef]
  by_cases hq : s.queries.length = 0
  · rw [if_pos hq]
    have : S = [] := by rw [hlen] at hq; exact List.length_eq_zero_iff.mp hq
    subst this
    exact ⟨[], rfl, .nil⟩
  · rw [if_neg hq]
    have hT : Tot (do
      let seg ← build s.queries.length (close s).ranges
      let (_, ans) ← dfs U seg s.queries.toArray (2 * s.queries.length) 1 (uf, Array.replicate s.queries.length a)
      return (close s, ans.toList) : M (State Q × List α)) fun r => r.1 = close s ∧ List.Forall₂ G S r.2 := by
      refine Tot.bind (build_tot (by omega) _ fun r hr => by rw [hlen]; exact (hc.rle r hr).1) ?_
      rintro seg ⟨hsz, hcov, hin⟩
      have hqs : s.queries.toArray.size = s.queries.length := by simp
      have hqS : ∀ j : Nat, s.queries[j]? = S[j]?.map Prod.snd := by
        intro j
        have : s.queries = S.map Prod.snd := hc.qs
        rw [this, List.getElem?_map]
      refine Tot.bind (dfs_tot hU (seg := seg) (qs := s.queries.toArray) (by rw [hsz, hqs]) ?_
        (fun j b => ∀ x, S[j]? = some x → G x b) ?_ (2 * s.queries.length) 1 uf [] (Array.replicate s.queries.length a) le_rfl
        (by omega) (by omega) h0 (by simp) ?_) ?_
      · intro i e he
        obtain ⟨r, hr, rfl⟩ := hin i e he
        exact (hc.rle r hr).2
      · intro s' A j x hI hx hA
        rw [List.getElem?_toArray, hqS] at hx
        obtain ⟨⟨E, x'⟩, hE, rfl⟩ := Option.map_eq_some_iff.mp hx
        have hj : j < S.length := (List.getElem?_eq_some_iff.mp hE).1
        refine Tot.mono (hask s' A E x' hI (hok _ (List.mem_of_getElem? hE)) fun x y => ?_) fun b hb y hy => by
          rw [hE] at hy; cases hy; exact hb
        have hh := hc.hist j _ hE
        constructor
        · refine connected_mono fun e he => ?_
          rw [hh]
          rw [hA, hqs, hcov j (by omega)] at he
          obtain ⟨r, hr, rfl, h2⟩ := he
          exact ⟨r, hr, rfl, h2⟩
        · refine connected_mono fun e he => ?_
          obtain ⟨r, hr, h1, h2⟩ := (hh (mm e)).mp (List.mem_map_of_mem he)
          rw [← h1]
          refine List.mem_map_of_mem (f := mm) (a := (r.1, r.2.1)) ?_
          rw [hA, hqs, hcov j (by omega)]
          exact ⟨r, hr, rfl, h2⟩
      · intro e
        simp only [List.not_mem_nil, false_iff, not_exists, not_and]
        intro h h1
        exfalso
        have : 1 / 2 ^ (h + 1) = 0 := Nat.div_eq_of_lt (Nat.one_lt_two_pow (by omega))
        omega
      · rintro ⟨s', ans⟩ ⟨-, hs, hG⟩
        dsimp only at hs hG ⊢
        refine Tot.pure ⟨rfl, ?_⟩
        dsimp only
        rw [List.forall₂_iff_get]
        refine ⟨by simp [hs, hlen], fun j h1 h2 => ?_⟩
        have hroot : ∃ h, (s.queries.toArray.size + j) / 2 ^ h = 1 := by
          have hne : s.queries.toArray.size + j ≠ 0 := by omega
          refine ⟨Nat.log2 (s.queries.toArray.size + j), ?_⟩
          have a1 := Nat.log2_self_le hne
          have a2 := Nat.lt_log2_self (n := s.queries.toArray.size + j)
          rw [Nat.div_eq_iff (Nat.two_pow_pos _)]
          rw [Nat.pow_succ] at a2
          omega
        obtain ⟨b, hb, hg⟩ := (hG j (by omega)).1 hroot
        have := hg S[j] (List.getElem?_eq_getElem h1)
        rw [← Array.getElem?_toList, List.getElem?_eq_getElem h2] at hb
        cases hb
        exact this
    obtain ⟨⟨s', as⟩, e, h1, h2⟩ := hT
    dsimp only at h1 h2
    subst h1
    exact ⟨as, e, h2⟩

end OfflineConnectivity
