import Verif.Proof.SuffixAutomatonTopo
import Mathlib.Tactic.Choose

/-! The queries on suffix automata. -/

namespace SuffixAutomaton
open Cxx Spec

variable {α : Type} [DecidableEq α]

theorem lookup_of_mem {m : List (α × Nat)} (h : (m.map Prod.fst).Nodup) {p : α × Nat} (hp : p ∈ m) : m.lookup p.1 = some p.2 := by
  induction m with
  | nil => simp at hp
  | cons q m ih =>
    obtain ⟨a, b⟩ := q
    rw [List.map_cons, List.nodup_cons] at h
    rw [List.lookup_cons]
    rcases List.mem_cons.1 hp with e | e
    · rw [e]; simp
    · have : p.1 ≠ a := fun e' => h.1 (by rw [← e']; exact List.mem_map.2 ⟨p, e, rfl⟩)
      rw [beq_false_of_ne this]
      exact ih h.2 e

theorem mem_of_lookup {m : List (α × Nat)} {e : α} {v : Nat} (h : m.lookup e = some v) : (e, v) ∈ m := by
  induction m with
  | nil => simp at h
  | cons q m ih =>
    obtain ⟨a, b⟩ := q
    rw [List.lookup_cons] at h
    by_cases ha : e = a
    · rw [ha, beq_self_eq_true] at h
      dsimp only at h
      rw [ha]
      simp at h
      simp [h]
    · rw [beq_false_of_ne ha] at h
      exact List.mem_cons_of_mem _ (ih h)

/-- A canonical word without its last symbol is canonical. -/
theorem can_init {s x : List α} {c : α} (h : Can s (x ++ [c])) : Can s x := by
  refine ⟨(List.prefix_append x [c]).isInfix.trans h.1, fun d => ?_⟩
  obtain ⟨t, t1, t2, t3⟩ := h.2 d
  obtain ⟨r, e, r1, r2⟩ := snoc_occ t1 t2
  refine ⟨r, r1, r2, fun hd => t3 ?_⟩
  rw [e]
  exact snoc_suf hd

section
variable {s : List α} {st : State α} {L : Nat → List α}

theorem Inv.graded (h : Inv s st L) : Graded st.nodes fun v => (L v).length := by
  refine ⟨?_, ?_, by simp [h.L0]⟩
  · intro u hu p hp
    obtain ⟨a, b⟩ := h.nsome u hu p.1 p.2 (lookup_of_mem (h.keys u hu) hp)
    refine ⟨a, ?_⟩
    have := b.2.2.1.length_le
    simp at this
    omega
  · intro v hv hv0
    have hne : L v ≠ [] := fun e => hv0 (h.zero hv e)
    rcases List.eq_nil_or_concat (L v) with e | ⟨x, c, e⟩
    · exact absurd e hne
    · rw [List.concat_eq_append] at e
      have hc := h.isCan hv
      rw [e] at hc
      obtain ⟨u, hu, eu⟩ := h.node (can_init hc)
      refine ⟨u, hu, c, ?_, by rw [e, eu]; simp⟩
      cases hl : (at' d0 st.nodes u).nxt.lookup c with
      | none =>
        have := h.nnone u hu c hl
        rw [eu] at this
        exact absurd hc.1 this
      | some w =>
        obtain ⟨a, b⟩ := h.nsome u hu c w hl
        rw [eu] at b
        have := cl_unique b (cl_self hc)
        rw [← e] at this
        rw [← h.inj w v a hv this]
        exact mem_of_lookup hl

theorem Inv.linkOf (h : Inv s st L) {v u : Nat} (hv : v < st.nodes.size) (hl : (at' d0 st.nodes v).link = some u) : u < st.nodes.size ∧ IsLink s (L v) (L u) := by
  have hv0 : v ≠ 0 := by
    rintro rfl
    rw [h.link0] at hl
    exact absurd hl (by simp)
  obtain ⟨w, w1, w2, w3⟩ := h.link v hv hv0
  rw [w1] at hl
  obtain rfl : w = u := by simpa using hl
  exact ⟨w2, w3⟩

theorem IsLink.lt {s w y : List α} (h : IsLink s w y) : y.length < w.length := suf_lt h.1 h.2.1

theorem Inv.chain (h : Inv s st L) {u : Nat} (hu : u < st.nodes.size) : ∀ (k w : Nat), (L w).length = k → w < st.nodes.size → L u <:+ L w → w ≠ u →
    ∃ v, v < st.nodes.size ∧ (at' d0 st.nodes v).link = some u ∧ L v <:+ L w := by
  intro k
  induction k using Nat.strong_induction_on with
  | _ k ih =>
    intro w hk hw hs hne
    obtain ⟨p, p1, p2, p3, p4⟩ := h.up hw hu hs (Ne.symm hne)
    by_cases e : p = u
    · exact ⟨w, hw, by rw [p1, e], List.suffix_refl _⟩
    · have := (h.linkOf hw p1).2.lt
      obtain ⟨v, v1, v2, v3⟩ := ih _ (by omega) p rfl p2 p3 e
      exact ⟨v, v1, v2, v3.trans p4⟩

/-- Where a state's word ends, a child's word ends or the word is all there is. -/
theorem Inv.kids (h : Inv s st L) {u : Nat} (hu : u < st.nodes.size) {t : List α} (ht : t <+: s) :
    L u <:+ t ↔ t = L u ∨ ∃ v, v < st.nodes.size ∧ (at' d0 st.nodes v).link = some u ∧ L v <:+ t := by
  constructor
  · intro hs
    by_cases e : t = L u
    · exact Or.inl e
    · obtain ⟨w, hw, ew⟩ := h.node (can_prefix ht)
      subst ew
      exact Or.inr (h.chain hu _ w rfl hw hs fun e' => e (by rw [e']))
  · rintro (e | ⟨v, v1, v2, v3⟩)
    · rw [e]
    · exact (h.linkOf v1 v2).2.1.trans v3

theorem Inv.kid_uniq (h : Inv s st L) {u v v' : Nat} (hv : v < st.nodes.size) (hv' : v' < st.nodes.size)
    (hl : (at' d0 st.nodes v).link = some u) (hl' : (at' d0 st.nodes v').link = some u) {t : List α} (ht : L v <:+ t) (ht' : L v' <:+ t) : v = v' := by
  have key : ∀ a b, a < st.nodes.size → b < st.nodes.size → (at' d0 st.nodes a).link = some u → (at' d0 st.nodes b).link = some u →
      L a <:+ t → L b <:+ t → (L a).length ≤ (L b).length → a = b := by
    intro a b ha hb la lb ta tb hle
    by_contra hne
    have h1 := suf_le ta tb hle
    have h2 := (h.linkOf hb lb).2.2.2 (L a) (h.isCan ha) h1 (fun e => hne (h.inj _ _ ha hb e))
    have h3 := (h.linkOf ha la).2.lt
    omega
  rcases Nat.le_total (L v).length (L v').length with hle | hle
  · exact key v v' hv hv' hl hl' ht ht' hle
  · exact (key v' v hv' hv hl' hl ht' ht hle).symm

theorem Inv.kid_excl (h : Inv s st L) {u v : Nat} (hv : v < st.nodes.size) (hl : (at' d0 st.nodes v).link = some u) : ¬ L v <:+ L u := by
  intro hs
  have h1 := (h.linkOf hv hl).2.lt
  have h2 := hs.length_le
  omega

theorem Inv.many (h : Inv s st L) : s.length + 1 ≤ st.nodes.size := by
  have hx : ∀ i, ∃ v, v < st.nodes.size ∧ L v = s.take i := fun i => h.node (can_prefix (List.take_prefix i s))
  choose g hg hg' using hx
  have := Finset.card_le_card_of_injOn (s := Finset.range (s.length + 1)) (t := Finset.range st.nodes.size) g
    (fun i _ => by simpa using hg i) (by
      intro i hi j hj e
      have hi := Finset.mem_range.1 hi
      have hj := Finset.mem_range.1 hj
      have e2 : (L (g i)).length = (L (g j)).length := by rw [e]
      rw [hg', hg', List.length_take, List.length_take] at e2
      omega)
  simpa using this

/-- The positions at which `t` ends. -/
def ends (s t : List α) : List Nat := (List.range (s.length + 1)).filter fun e => decide (t <:+ s.take e)

theorem mem_ends {s t : List α} {e : Nat} : e ∈ ends s t ↔ e ≤ s.length ∧ t <:+ s.take e := by
  unfold ends
  rw [List.mem_filter, List.mem_range, decide_eq_true_iff]
  exact ⟨fun ⟨a, b⟩ => ⟨by omega, b⟩, fun ⟨a, b⟩ => ⟨by omega, b⟩⟩

theorem mem_occs {s t : List α} {i : Nat} : i ∈ occs s t ↔ i + t.length ≤ s.length ∧ t <:+ s.take (i + t.length) := by
  unfold occs
  rw [List.mem_filter, List.mem_range, decide_eq_true_iff]
  constructor
  · rintro ⟨h1, r, hr⟩
    have e : s = (s.take i ++ t) ++ r := by rw [List.append_assoc, hr, List.take_append_drop]
    have hl : (s.take i ++ t).length = i + t.length := by
      rw [List.length_append, List.length_take]; omega
    refine ⟨?_, s.take i, ?_⟩
    · have := congrArg List.length e
      rw [List.length_append, hl] at this
      omega
    · conv => rhs; rw [e]
      exact (List.take_left' hl).symm
  · rintro ⟨h1, a, ha⟩
    have hl : a.length = i := by
      have := congrArg List.length ha
      rw [List.length_append, List.length_take] at this
      omega
    refine ⟨by omega, s.drop (i + t.length), ?_⟩
    have e : s = a ++ (t ++ s.drop (i + t.length)) := by
      rw [← List.append_assoc, ha, List.take_append_drop]
    conv => rhs; rw [e]
    rw [List.drop_left' hl]

theorem occs_ends (s t : List α) : ((occs s t).map (· + t.length)).Perm (ends s t) := by
  have n1 : (occs s t).Nodup := List.nodup_range.filter _
  have n2 : (ends s t).Nodup := List.nodup_range.filter _
  rw [List.perm_ext_iff_of_nodup (n1.map fun a b e => by simpa using e) n2]
  intro e
  rw [List.mem_map, mem_ends]
  constructor
  · rintro ⟨i, hi, rfl⟩
    exact mem_occs.1 hi
  · rintro ⟨h1, h2⟩
    have := h2.length_le
    rw [List.length_take] at this
    have hle : t.length ≤ e := by omega
    refine ⟨e - t.length, mem_occs.2 ⟨by omega, ?_⟩, by omega⟩
    rw [show e - t.length + t.length = e by omega]
    exact h2

theorem cl_ends {s x y : List α} (h : Cl s x y) : ends s x = ends s y := by
  unfold ends
  refine List.filter_congr fun e _ => ?_
  rw [decide_eq_decide]
  exact ⟨fun hx => h.2.2.2 _ (List.take_prefix _ _) hx, fun hy => h.2.2.1.trans hy⟩

theorem no_occs {s t : List α} (h : ¬ t <:+: s) : occs s t = [] := by
  rw [List.eq_nil_iff_forall_not_mem]
  intro i hi
  exact h (occ_to (List.take_prefix _ _) (mem_occs.1 hi).2)

theorem length_filter_range (p : Nat → Bool) (n : Nat) : ((List.range n).filter p).length = ∑ e ∈ Finset.range n, if p e then 1 else 0 := by
  induction n with
  | zero => rfl
  | succ n ih =>
    rw [List.range_succ, List.filter_append, List.length_append, ih, Finset.sum_range_succ]
    congr 1
    by_cases h : p n <;> simp [h]

/-- Whether a state is no clone. -/
def nc (st : State α) (u : Nat) : Nat := if (at' d0 st.nodes u).cloned then 0 else 1

theorem Inv.nc_eq (h : Inv s st L) {u : Nat} (hu : u < st.nodes.size) : nc st u = ∑ e ∈ Finset.range (s.length + 1), if s.take e = L u then 1 else 0 := by
  unfold nc
  cases hc : (at' d0 st.nodes u).cloned with
  | false =>
    have hp := (h.cl u hu).1 hc
    have hl := hp.length_le
    rw [if_neg (by simp), Finset.sum_eq_single (L u).length, if_pos]
    · exact (List.prefix_iff_eq_take.1 hp).symm
    · intro e he hne
      rw [if_neg]
      intro e2
      have := congrArg List.length e2
      rw [List.length_take] at this
      have := Finset.mem_range.1 he
      omega
    · intro hn
      exact absurd (Finset.mem_range.2 (by omega)) hn
  | true =>
    rw [if_pos rfl, eq_comm, Finset.sum_eq_zero]
    intro e he
    rw [if_neg]
    intro e2
    have := (h.cl u hu).2 (by rw [← e2]; exact List.take_prefix _ _)
    rw [hc] at this
    exact absurd this (by simp)

/-- The number of occurrences of the word of a state. -/
def G (s : List α) (L : Nat → List α) (u : Nat) : Nat := (ends s (L u)).length

theorem Inv.recur (h : Inv s st L) {u : Nat} (hu : u < st.nodes.size) :
    G s L u = nc st u + ∑ v ∈ Finset.range st.nodes.size, if (at' d0 st.nodes v).link = some u then G s L v else 0 := by
  have hG : ∀ v, G s L v = ∑ e ∈ Finset.range (s.length + 1), if L v <:+ s.take e then 1 else 0 := by
    intro v
    unfold G ends
    rw [length_filter_range]
    refine Finset.sum_congr rfl fun e _ => ?_
    by_cases hh : L v <:+ s.take e <;> simp [hh]
  have h2 : (∑ v ∈ Finset.range st.nodes.size, if (at' d0 st.nodes v).link = some u then G s L v else 0) =
      ∑ e ∈ Finset.range (s.length + 1), ∑ v ∈ Finset.range st.nodes.size, if (at' d0 st.nodes v).link = some u ∧ L v <:+ s.take e then 1 else 0 := by
    rw [Finset.sum_comm]
    refine Finset.sum_congr rfl fun v _ => ?_
    split
    · rename_i hl
      rw [hG v]
      simp [hl]
    · rename_i hl
      simp [hl]
  rw [h2, h.nc_eq hu, hG u, ← Finset.sum_add_distrib]
  refine Finset.sum_congr rfl fun e _ => ?_
  have hk := h.kids hu (List.take_prefix e s)
  by_cases h1 : s.take e = L u
  · rw [if_pos (hk.2 (Or.inl h1)), if_pos h1, Finset.sum_eq_zero, Nat.add_zero]
    intro v hv
    rw [if_neg]
    rintro ⟨a, b⟩
    rw [h1] at b
    exact h.kid_excl (Finset.mem_range.1 hv) a b
  · rw [if_neg h1, Nat.zero_add]
    by_cases h3 : L u <:+ s.take e
    · rw [if_pos h3]
      rcases hk.1 h3 with h4 | ⟨v, v1, v2, v3⟩
      · exact absurd h4 h1
      · rw [Finset.sum_eq_single v, if_pos ⟨v2, v3⟩]
        · intro w hw hne
          rw [if_neg]
          rintro ⟨a, b⟩
          exact hne (h.kid_uniq (Finset.mem_range.1 hw) v1 a v2 b v3)
        · intro hn
          exact absurd (Finset.mem_range.2 v1) hn
    · rw [if_neg h3, eq_comm, Finset.sum_eq_zero]
      intro v hv
      rw [if_neg]
      rintro ⟨a, b⟩
      exact h3 (hk.2 (Or.inr ⟨v, Finset.mem_range.1 hv, a, b⟩))

/-- The states before `u` in the reversed order. -/
theorem order_split {n : Nat} {ℓ : Nat → Nat} {rl pre post : List Nat} {u : Nat} (hp : rl.Perm (List.range n)) (hs : rl.Pairwise fun a b => ℓ b ≤ ℓ a)
    (e : rl = pre ++ u :: post) : u < n ∧ u ∉ pre ∧ (∀ v, v < n → ℓ u < ℓ v → v ∈ pre) ∧ ∀ v, v ∈ pre → ℓ u ≤ ℓ v ∧ v < n := by
  have hn : rl.Nodup := hp.nodup_iff.2 List.nodup_range
  have hm : ∀ v, v ∈ rl ↔ v < n := fun v => by rw [hp.mem_iff, List.mem_range]
  rw [e] at hn hs
  have hs' := List.pairwise_append.1 hs
  refine ⟨(hm u).1 (by rw [e]; simp), fun h => (List.nodup_append.1 hn).2.2 u h u (by simp) rfl, ?_, ?_⟩
  · intro v hv hl
    have := (hm v).2 hv
    rw [e, List.mem_append, List.mem_cons] at this
    rcases this with h | h | h
    · exact h
    · rw [h] at hl; omega
    · have := (List.pairwise_cons.1 hs'.2.1).1 v h
      omega
  · intro v hv
    exact ⟨hs'.2.2 v hv u (by simp), (hm v).1 (by rw [e]; simp [hv])⟩

/-- What the processed children have added. -/
def S (s : List α) (st : State α) (L : Nat → List α) (pre : List Nat) (j : Nat) : Nat :=
  ∑ v ∈ Finset.range st.nodes.size, if v ∈ pre ∧ (at' d0 st.nodes v).link = some j then G s L v else 0

theorem S_snoc {pre : List Nat} {u : Nat} (hu : u < st.nodes.size) (hn : u ∉ pre) (j : Nat) :
    S s st L (pre ++ [u]) j = S s st L pre j + if (at' d0 st.nodes u).link = some j then G s L u else 0 := by
  unfold S
  rw [← Finset.sum_erase_add _ _ (Finset.mem_range.2 hu), ← Finset.sum_erase_add (Finset.range st.nodes.size)
    (fun v => if v ∈ pre ∧ (at' d0 st.nodes v).link = some j then G s L v else 0) (Finset.mem_range.2 hu), if_neg (show ¬ (u ∈ pre ∧ _) from fun h => hn h.1), Nat.add_zero]
  congr 1
  · refine Finset.sum_congr rfl fun w hw => ?_
    have : w ≠ u := Finset.ne_of_mem_erase hw
    have e : (w ∈ pre ++ [u]) = (w ∈ pre) := by simp [this]
    simp only [e]
  · simp

theorem Inv.counter (h : Inv s st L) : Tot (counter st) fun dp => dp.size = st.nodes.size ∧ ∀ u, u < st.nodes.size → at' 0 dp u = G s L u := by
  unfold SuffixAutomaton.counter
  refine Tot.bind (topologicalOrder_tot h.graded true) ?_
  intro rl ⟨hp, hs⟩
  rw [if_pos rfl] at hs
  have hall : ∀ u, u < st.nodes.size → ∀ pre, (∀ v, v < st.nodes.size → (L u).length < (L v).length → v ∈ pre) → nc st u + S s st L pre u = G s L u := by
    intro u hu pre hpre
    rw [h.recur hu]
    unfold S
    congr 1
    refine Finset.sum_congr rfl fun v hv => ?_
    by_cases hl : (at' d0 st.nodes v).link = some u
    · have hvn := Finset.mem_range.1 hv
      rw [if_pos hl, if_pos ⟨hpre v hvn (h.linkOf hvn hl).2.lt, hl⟩]
    · rw [if_neg hl, if_neg fun hh => hl hh.2]
  refine Tot.mono (Tot.forEach (P := fun pre (dp : Array Nat) => dp.size = st.nodes.size ∧
    ∀ j, j < st.nodes.size → at' 0 dp j = (if j ∈ pre then nc st j else 0) + S s st L pre j) ?_ ?_) ?_
  · refine ⟨by simp, fun j hj => ?_⟩
    unfold S
    simp [at', hj]
  · intro pre u post dp e ⟨hsz, hdp⟩
    obtain ⟨hu, hun, hbig, -⟩ := order_split hp hs e
    have hd : u < dp.size := by omega
    unfold countStep
    rw [rd_at d0 hu, ok_bind, rd_at 0 hd, ok_bind, wr_eq hd, ok_bind]
    obtain ⟨dp1, e1⟩ : ∃ dp1, dp1 = dp.setIfInBounds u (at' 0 dp u + if (at' d0 st.nodes u).cloned = true then 0 else 1) := ⟨_, rfl⟩
    rw [← e1]
    have hs1 : dp1.size = st.nodes.size := by rw [e1]; simpa using hsz
    have h1 : ∀ j, j < st.nodes.size → at' 0 dp1 j = (if j ∈ pre ++ [u] then nc st j else 0) + S s st L pre j := by
      intro j hj
      rw [e1, at_set 0 hd]
      by_cases e : u = j
      · subst e
        rw [if_pos rfl, if_pos (show u ∈ pre ++ [u] by simp), hdp u hu, if_neg hun]
        unfold nc
        omega
      · rw [if_neg e, hdp j hj]
        have : (j ∈ pre ++ [u]) = (j ∈ pre) := by simp [Ne.symm e]
        simp only [this]
    cases hl : (at' d0 st.nodes u).link with
    | none =>
      refine ⟨_, rfl, hs1, fun j hj => ?_⟩
      rw [h1 j hj, S_snoc hu hun, hl]
      simp
    | some p =>
      have hlk := h.linkOf hu hl
      have hp1 : p < dp1.size := by omega
      dsimp only
      rw [rd_at 0 hp1, ok_bind, rd_at 0 (by omega), ok_bind, wr_eq hp1]
      refine ⟨_, rfl, by simpa using hs1, fun j hj => ?_⟩
      rw [at_set 0 hp1, S_snoc hu hun, hl]
      by_cases e : p = j
      · subst e
        rw [if_pos rfl, if_pos rfl, h1 p hj, h1 u hu, if_pos (by simp : u ∈ pre ++ [u]), hall u hu pre hbig]
        omega
      · rw [if_neg e, if_neg (show ¬ some p = some j by simpa using e), h1 j hj, Nat.add_zero]
  · intro dp ⟨hsz, hdp⟩
    refine ⟨hsz, fun u hu => ?_⟩
    have hm : ∀ v, v < st.nodes.size → v ∈ rl := fun v hv => by rw [hp.mem_iff, List.mem_range]; exact hv
    rw [hdp u hu, if_pos (hm u hu)]
    exact hall u hu rl fun v hv _ => hm v hv

end

end SuffixAutomaton
