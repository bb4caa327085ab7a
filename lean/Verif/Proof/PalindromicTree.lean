import Verif.Model.PalindromicTree
import Verif.Spec.PalindromicTree
import Mathlib.Tactic.Common
import Mathlib.Algebra.BigOperators.Group.Finset.Basic
import Mathlib.Algebra.BigOperators.Intervals

namespace PalindromicTree
open Cxx Spec

variable {α : Type}

/-! ### Palindromes -/

theorem pal_nil : Pal ([] : List α) := rfl

theorem pal_single (c : α) : Pal [c] := rfl

theorem pal_wrap {c : α} {v : List α} : Pal (c :: (v ++ [c])) ↔ Pal v := by
  unfold Pal
  simp

theorem pal_prefix {p q : List α} (hp : Pal p) (hq : Pal q) (h : q <:+ p) : q <+: p := by
  have := List.reverse_prefix.2 h
  rwa [hp, hq] at this

theorem suffix_eq {u v s : List α} (hu : u <:+ s) (hv : v <:+ s) (h : u.length = v.length) : u = v :=
  (List.suffix_of_suffix_length_le hu hv h.le).eq_of_length h

theorem pal_cases {s v : List α} {c : α} (hv : v ≠ []) (hp : Pal v) (h : v <:+ s ++ [c]) :
    v = [c] ∨ ∃ u, v = c :: (u ++ [c]) ∧ Pal u ∧ c :: u <:+ s := by
  rcases List.suffix_concat_iff.1 h with h | ⟨t, rfl, ht⟩
  · exact absurd h hv
  · cases t with
    | nil => exact Or.inl rfl
    | cons x u =>
      right
      have h1 := hp
      unfold Pal at h1
      simp only [List.cons_append, List.reverse_cons, List.reverse_append, List.reverse_nil, List.nil_append,
        List.singleton_append] at h1
      rw [List.cons.injEq] at h1
      obtain ⟨rfl, h2⟩ := h1
      have h3 := List.append_inj_left' h2 rfl
      exact ⟨u, rfl, h3, ht⟩

theorem last_suffix {t u : List α} {c : α} : c :: u <:+ t ++ u ↔ t.getLast? = some c := by
  constructor
  · rintro ⟨r, hr⟩
    have : r ++ [c] = t := by
      have : (r ++ [c]) ++ u = t ++ u := by simpa using hr
      exact List.append_cancel_right this
    rw [← this]; simp
  · intro h
    obtain ⟨r, rfl⟩ := List.getLast?_eq_some_iff.1 h
    exact ⟨r, by simp⟩

/-! ### The invariant -/

/-- The default node. -/
def d0 : Node α := ⟨[], 0, 0, 0, 0⟩

/-- The nodes below `k` describe the palindromes `w`. -/
structure Lk (N : Array (Node α)) (w : Nat → List α) (k : Nat) : Prop where
  le : k ≤ N.size
  two : 2 ≤ k
  z : (at' d0 N 0).link = 0 ∧ (at' d0 N 0).len = -1
  o : (at' d0 N 1).link = 0 ∧ (at' d0 N 1).len = 0 ∧ w 1 = []
  nd : ∀ i, 2 ≤ i → i < k → w i ≠ [] ∧ Pal (w i) ∧ (at' d0 N i).len = (w i).length
  lk : ∀ i, 2 ≤ i → i < k → 1 ≤ (at' d0 N i).link ∧ (at' d0 N i).link < i ∧ LongestProper (w i) (w (at' d0 N i).link)

theorem Lk.pal {N : Array (Node α)} {w : Nat → List α} {k i : Nat} (h : Lk N w k) (h1 : 1 ≤ i) (h2 : i < k) : Pal (w i) := by
  by_cases e : i = 1
  · rw [e, h.o.2.2]; rfl
  · exact (h.nd i (by omega) h2).2.1

theorem Lk.len {N : Array (Node α)} {w : Nat → List α} {k i : Nat} (h : Lk N w k) (h1 : 1 ≤ i) (h2 : i < k) :
    (at' d0 N i).len = (w i).length := by
  by_cases e : i = 1
  · rw [e, h.o.2.2, h.o.2.1]; rfl
  · exact (h.nd i (by omega) h2).2.2

variable [DecidableEq α]

theorem find_tot {N : Array (Node α)} {w : Nat → List α} {k a : Nat} {s : List α} {c : α} {seq : Array α}
    (h : Lk N w k) (hs : seq.toList = s ++ [c]) (ha : a < k) (ha' : 1 ≤ a → w a <:+ s) :
    Tot (find seq N a) fun b => b ≤ a ∧ (1 ≤ b → c :: w b <:+ s ∧ (w b).length ≤ (w a).length) ∧
      ∀ v, Pal v → c :: v <:+ s → 1 ≤ a → v.length ≤ (w a).length → 1 ≤ b ∧ v.length ≤ (w b).length := by
  haveI : Inhabited α := ⟨c⟩
  have hsz : seq.size = s.length + 1 := by rw [← Array.length_toList, hs]; simp
  have hk := h.le
  have hget : ∀ i (hi : i < seq.size), rd seq i = .ok (s ++ [c])[i]! := by
    intro i hi
    rw [rd_eq hi]
    congr 1
    rw [← Array.getElem_toList, getElem!_pos _ _ (by rw [← hs]; simpa using hi)]
    simp only [hs]
  have hlast : (s ++ [c])[s.length]! = c := by simp
  unfold find
  refine Tot.loop (P := fun a' => a' ≤ a ∧ (1 ≤ a' → w a' <:+ s ∧ (w a').length ≤ (w a).length) ∧
      ∀ v, Pal v → c :: v <:+ s → 1 ≤ a → v.length ≤ (w a).length → 1 ≤ a' ∧ v.length ≤ (w a').length) (μ := fun a' => a')
    ?_ ⟨Nat.le_refl _, fun h => ⟨ha' h, Nat.le_refl _⟩, fun v _ _ h1 h2 => ⟨h1, h2⟩⟩ (by omega)
  rintro b ⟨hb1, hb2, hb3⟩
  unfold findStep
  rw [rd_at d0 (by omega : b < N.size), ok_bind]
  dsimp only
  by_cases hb : b = 0
  · subst hb
    rw [h.z.2, hsz, if_pos (by omega), show (((s.length + 1 : Nat) : Int) - -1 - 2).toNat = s.length by omega,
      show s.length + 1 - 1 = s.length by omega, hget _ (by omega), ok_bind, ok_bind, if_pos rfl]
    exact Tot.pure ⟨hb1, fun h => absurd h (by omega), hb3⟩
  · have hw := hb2 (by omega)
    obtain ⟨⟨t, ht⟩, hwl⟩ := hw
    have hlen : s.length = t.length + (w b).length := by rw [← ht]; simp
    rw [h.len (by omega) (by omega), hsz]
    have hne : ¬ (c :: w b <:+ s) → ((at' d0 N b).link ≤ a ∧ (1 ≤ (at' d0 N b).link → w (at' d0 N b).link <:+ s ∧ (w (at' d0 N b).link).length ≤ (w a).length) ∧
      ∀ v, Pal v → c :: v <:+ s → 1 ≤ a → v.length ≤ (w a).length → 1 ≤ (at' d0 N b).link ∧ v.length ≤ (w (at' d0 N b).link).length)
        ∧ (at' d0 N b).link < b := by
      intro hn
      by_cases h1 : b = 1
      · subst h1
        rw [h.o.1]
        refine ⟨⟨by omega, fun h => absurd h (by omega), ?_⟩, by omega⟩
        intro v hv1 hv2 hv3 hv4
        have := (hb3 v hv1 hv2 hv3 hv4).2
        rw [h.o.2.2] at this
        have : v = [] := List.length_eq_zero_iff.1 (by simpa using this)
        rw [h.o.2.2, ← this] at hn
        exact absurd hv2 hn
      · obtain ⟨l1, l2, l3⟩ := h.lk b (by omega) (by omega)
        refine ⟨⟨by omega, fun _ => ⟨l3.1.trans ⟨t, ht⟩, l3.1.length_le.trans hwl⟩, ?_⟩, l2⟩
        intro v hv1 hv2 hv3 hv4
        refine ⟨l1, l3.2.2.2 v ?_ ?_ hv1⟩
        · exact List.suffix_of_suffix_length_le ((List.suffix_cons c v).trans hv2) ⟨t, ht⟩ (hb3 v hv1 hv2 hv3 hv4).2
        · rintro rfl; exact hn hv2
    by_cases hc : c :: w b <:+ s
    · have hc' := hc
      rw [← ht, last_suffix] at hc'
      obtain ⟨r, hr⟩ := List.getLast?_eq_some_iff.1 hc'
      have hrl : t.length = r.length + 1 := by rw [hr]; simp
      rw [if_pos (by omega), show (((s.length + 1 : Nat) : Int) - ((w b).length : Int) - 2).toNat = r.length by omega,
        hget _ (by omega), ok_bind, show s.length + 1 - 1 = s.length by omega, hget _ (by omega), ok_bind, hlast]
      have : (s ++ [c])[r.length]! = c := by rw [← ht, hr]; simp
      rw [this, if_pos rfl]
      exact Tot.pure ⟨hb1, fun _ => ⟨hc, hwl⟩, hb3⟩
    · have := hne hc
      split
      · rename_i hge
        rw [hget _ (by omega), ok_bind, show s.length + 1 - 1 = s.length by omega, hget _ (by omega), ok_bind, hlast]
        split
        · rename_i he
          exfalso
          apply hc
          rw [← ht, last_suffix]
          obtain ⟨r, x, hr⟩ : ∃ r x, t = r ++ [x] := by
            rcases List.eq_nil_or_concat t with e | ⟨r, x, e⟩
            · rw [e] at hlen; simp at hlen; omega
            · exact ⟨r, x, by simpa using e⟩
          have hrl : t.length = r.length + 1 := by rw [hr]; simp
          rw [show (((s.length + 1 : Nat) : Int) - ((w b).length : Int) - 2).toNat = r.length by omega, ← ht, hr] at he
          simp at he
          rw [hr, he]; simp
        · exact Tot.pure this
      · exact Tot.pure this

/-- The palindrome of the child of node `i` for the symbol `c`. -/
def ext (w : Nat → List α) (i : Nat) (c : α) : List α := if i = 0 then [c] else c :: (w i ++ [c])

/-- The state after the symbols `s`, for which `add` returned `outs`; the node `i` stands for `w i`. -/
structure Inv (s : List α) (outs : List Nat) (st : State α) (w : Nat → List α) : Prop where
  seq : st.seq.toList = s
  lk : Lk st.nodes w st.nodes.size
  inf : ∀ i, 2 ≤ i → i < st.nodes.size → w i <:+: s
  inj : ∀ i j, 1 ≤ i → i < st.nodes.size → 1 ≤ j → j < st.nodes.size → w i = w j → i = j
  comp : ∀ v, v ≠ [] → Pal v → v <:+: s → ∃ i, 2 ≤ i ∧ i < st.nodes.size ∧ w i = v
  ch : ∀ i, i < st.nodes.size → ∀ c j, (at' d0 st.nodes i).ch.lookup c = some j ↔ 2 ≤ j ∧ j < st.nodes.size ∧ w j = ext w i c
  chm : ∀ i, i < st.nodes.size → ∀ c j, (c, j) ∈ (at' d0 st.nodes i).ch → (at' d0 st.nodes i).ch.lookup c = some j
  act : (s = [] ∧ st.active = 0) ∨ (2 ≤ st.active ∧ st.active < st.nodes.size ∧ LongestPalSuffix s (w st.active))
  first : ∀ i, 2 ≤ i → i < st.nodes.size → ∃ p : Nat, (at' d0 st.nodes i).first = p ∧ FirstOcc s (w i) p
  o1 : (at' d0 st.nodes 1).first = 0
  mult : ∀ i, 2 ≤ i → i < st.nodes.size → (at' d0 st.nodes i).mult = outs.count i
  olen : outs.length = s.length
  out : ∀ p j, outs[p]? = some j → 2 ≤ j ∧ j < st.nodes.size ∧ LongestPalSuffix (s.take (p + 1)) (w j)

omit [DecidableEq α] in
theorem short {s E v : List α} {c : α} (hE : E <:+ s ++ [c]) (pE : Pal E) (hv : v <:+ s ++ [c]) (pv : Pal v)
    (hl : v.length < E.length) : v <:+: s := by
  have h1 := pal_prefix pE pv (List.suffix_of_suffix_length_le hv hE hl.le)
  rcases List.suffix_concat_iff.1 hE with h | ⟨t, rfl, ht⟩
  · rw [h] at hl; simp at hl
  · rcases List.prefix_concat_iff.1 h1 with h | h
    · rw [h] at hl; omega
    · exact h.isInfix.trans ht.isInfix

omit [DecidableEq α] in
theorem ext_pal {N : Array (Node α)} {w : Nat → List α} {k b : Nat} (h : Lk N w k) (hb : b < k) (c : α) : Pal (ext w b c) := by
  unfold ext
  split
  · rfl
  · exact pal_wrap.2 (h.pal (by omega) hb)

omit [DecidableEq α] in
theorem ext_suf {w : Nat → List α} {b : Nat} {c : α} {s : List α} (h : 1 ≤ b → c :: w b <:+ s) : ext w b c <:+ s ++ [c] := by
  unfold ext
  split
  · exact ⟨s, rfl⟩
  · obtain ⟨t, ht⟩ := h (by omega)
    exact ⟨t, by rw [← ht]; simp⟩

omit [DecidableEq α] in
theorem ext_len {N : Array (Node α)} {w : Nat → List α} {k b : Nat} (h : Lk N w k) (hb : b < k) (c : α) :
    (at' d0 N b).len + 2 = (ext w b c).length := by
  unfold ext
  split
  · rename_i e; rw [e, h.z.2]; rfl
  · rw [h.len (by omega) hb]; simp; omega

omit [DecidableEq α] in
theorem ext_ne (w : Nat → List α) (b : Nat) (c : α) : ext w b c ≠ [] := by
  unfold ext; split <;> simp

omit [DecidableEq α] in
theorem ext_inj {N : Array (Node α)} {w : Nat → List α} {k b b' : Nat} (hinj : ∀ i j, 1 ≤ i → i < k → 1 ≤ j → j < k → w i = w j → i = j)
    (_h : Lk N w k) (hb : b < k) (hb' : b' < k) {c c' : α} (e : ext w b c = ext w b' c') : b = b' ∧ c = c' := by
  unfold ext at e
  split at e <;> split at e
  · simp at e; exact ⟨by omega, e⟩
  · simp at e
  · simp at e
  · rw [List.cons.injEq] at e
    exact ⟨hinj b b' (by omega) hb (by omega) hb' (List.append_inj_left' e.2 rfl), e.1⟩

omit [DecidableEq α] in
theorem first_mono {s v : List α} {c : α} {p : Nat} (hv : v ≠ []) (h : FirstOcc s v p) : FirstOcc (s ++ [c]) v p := by
  have h1 := h.1.length_le
  have h0 := List.length_pos_iff.2 hv
  rw [List.length_drop] at h1
  refine ⟨?_, fun q hq => ?_⟩
  · rw [List.drop_append_of_le_length (by omega)]
    exact h.1.trans (List.prefix_append _ _)
  · by_contra hlt
    rw [List.drop_append_of_le_length (by omega)] at hq
    rcases List.prefix_concat_iff.1 hq with e | e
    · have := congrArg List.length e
      simp at this; omega
    · exact hlt (h.2 q e)

omit [DecidableEq α] in
theorem first_new {s v : List α} {c : α} (hv : v ≠ []) (h : v <:+ s ++ [c]) (hn : ¬ v <:+: s) :
    FirstOcc (s ++ [c]) v (s.length + 1 - v.length) := by
  have h0 := List.length_pos_iff.2 hv
  have hl := h.length_le
  rw [List.length_append, List.length_singleton] at hl
  have := List.suffix_iff_eq_drop.1 h
  rw [List.length_append, List.length_singleton] at this
  refine ⟨?_, fun q hq => ?_⟩
  · rw [← this]
  · by_contra hlt
    rw [List.drop_append_of_le_length (by omega)] at hq
    rcases List.prefix_concat_iff.1 hq with e | e
    · have := congrArg List.length e
      simp at this; omega
    · exact hn (e.isInfix.trans (List.drop_suffix q s).isInfix)

omit [DecidableEq α] in
theorem Lk.congr {N N' : Array (Node α)} {w w' : Nat → List α} {k : Nat} (h : Lk N w k) (hk : k ≤ N'.size)
    (hw : ∀ i, i < k → w' i = w i)
    (hn : ∀ i, i < k → (at' d0 N' i).link = (at' d0 N i).link ∧ (at' d0 N' i).len = (at' d0 N i).len) : Lk N' w' k := by
  have h2 := h.two
  refine ⟨hk, h.two, ?_, ?_, ?_, ?_⟩
  · rw [(hn 0 (by omega)).1, (hn 0 (by omega)).2]; exact h.z
  · rw [(hn 1 (by omega)).1, (hn 1 (by omega)).2, hw 1 (by omega)]; exact h.o
  · intro i h1 h2
    rw [(hn i h2).2, hw i h2]; exact h.nd i h1 h2
  · intro i h1 h2
    obtain ⟨a, b, c⟩ := h.lk i h1 h2
    rw [(hn i h2).1, hw i h2, hw _ (by omega)]
    exact ⟨a, b, c⟩

/-- The palindrome found by `add`. -/
theorem longest_ext {s : List α} {outs : List Nat} {st : State α} {w : Nat → List α} {c : α} {b : Nat} (h : Inv s outs st w)
    (hb : b ≤ st.active) (hb1 : b < st.nodes.size) (h1 : 1 ≤ b → c :: w b <:+ s)
    (h2 : ∀ v, Pal v → c :: v <:+ s → 1 ≤ st.active → v.length ≤ (w st.active).length → 1 ≤ b ∧ v.length ≤ (w b).length) :
    LongestPalSuffix (s ++ [c]) (ext w b c) := by
  refine ⟨ext_suf h1, ext_pal h.lk hb1 c, fun u hu pu => ?_⟩
  by_cases hu0 : u = []
  · rw [hu0]; simp
  · rcases pal_cases hu0 pu hu with e | ⟨v, rfl, pv, hv⟩
    · rw [e]
      have := List.length_pos_iff.2 (ext_ne w b c)
      exact Nat.succ_le_of_lt this
    · rcases h.act with ⟨e, _⟩ | ⟨a1, a2, a3⟩
      · rw [e] at hv; simp at hv
      · obtain ⟨g1, g2⟩ := h2 v pv hv (by omega) (a3.2.2 v ((List.suffix_cons c v).trans hv) pv)
        unfold ext
        rw [if_neg (by omega)]
        simp; omega

theorem linkOf_tot {s : List α} {outs : List Nat} {st : State α} {w : Nat → List α} {c : α} {b : Nat} {N1 : Array (Node α)} {seq : Array α}
    (h : Inv s outs st w) (hb : b < st.nodes.size) (h1 : 1 ≤ b → c :: w b <:+ s) (hs : seq.toList = s ++ [c])
    (hN : st.nodes.size ≤ N1.size)
    (hn : ∀ i, i < st.nodes.size → (at' d0 N1 i).link = (at' d0 st.nodes i).link ∧ (at' d0 N1 i).len = (at' d0 st.nodes i).len)
    (hc : ∀ i, i < st.nodes.size → i ≠ b → (at' d0 N1 i).ch = (at' d0 st.nodes i).ch) :
    Tot (linkOf seq N1 ((at' d0 st.nodes b).len + 2) (at' d0 st.nodes b).link c) fun r =>
      r.2 = N1 ∧ 1 ≤ r.1 ∧ r.1 < st.nodes.size ∧ LongestProper (ext w b c) (w r.1) := by
  have L := h.lk.congr hN (fun _ _ => rfl) hn
  have h2 := h.lk.two
  have hlen := ext_len h.lk hb c
  unfold linkOf
  split
  · rename_i e
    refine Tot.pure ⟨rfl, Nat.le_refl _, by omega, ?_⟩
    dsimp only
    have hb0 : b = 0 := by
      by_contra hb0
      rw [h.lk.len (by omega) hb] at e
      omega
    subst hb0
    rw [h.lk.o.2.2]
    refine ⟨List.nil_suffix, by simp [ext], rfl, fun u hu hne pu => ?_⟩
    have := hu.length_le
    have h3 : u.length ≠ (ext w 0 c).length := fun e => hne (hu.eq_of_length e)
    simp [ext] at this h3 ⊢
    by_contra h4
    have := List.length_pos_iff.2 h4
    omega
  · rename_i e
    have hb0 : 1 ≤ b := by
      by_contra hb0
      rw [show b = 0 by omega, h.lk.z.2] at e
      exact e rfl
    have hE : ext w b c = c :: (w b ++ [c]) := by unfold ext; rw [if_neg (by omega)]
    have hpl : (at' d0 st.nodes b).link < b ∧ (1 ≤ (at' d0 st.nodes b).link → LongestProper (w b) (w (at' d0 st.nodes b).link)) := by
      by_cases e1 : b = 1
      · subst e1; rw [h.lk.o.1]; exact ⟨by omega, fun h => absurd h (by omega)⟩
      · have := h.lk.lk b (by omega) hb
        exact ⟨this.2.1, fun _ => this.2.2⟩
    have hbs : w b <:+ s := (List.suffix_cons c _).trans (h1 hb0)
    refine Tot.bind (find_tot L hs (by omega) fun h => (hpl.2 h).1.trans hbs) ?_
    rintro q ⟨q1, q2, q3⟩
    rw [rd_at d0 (by omega), ok_bind, hc q (by omega) (by omega)]
    have hql : (ext w q c).length < (ext w b c).length := by
      rw [hE]
      unfold ext
      split
      · simp
      · have g1 := (q2 (by omega)).2
        have g2 := hpl.2 (by omega)
        have g3 := g2.1.length_le
        have g4 : (w (at' d0 st.nodes b).link).length ≠ (w b).length := fun e => g2.2.1 (g2.1.eq_of_length e)
        simp; omega
    have hqs : ext w q c <:+ s ++ [c] := ext_suf fun h => (q2 h).1
    have hqp : Pal (ext w q c) := ext_pal h.lk (by omega) c
    have hEs : ext w b c <:+ s ++ [c] := ext_suf h1
    obtain ⟨l, l1, l2, l3⟩ := h.comp _ (ext_ne w q c) hqp (short hEs (ext_pal h.lk hb c) hqs hqp hql)
    rw [(h.ch q (by omega) c l).2 ⟨l1, l2, l3⟩]
    refine Tot.pure ⟨rfl, by dsimp only; omega, l2, ?_⟩
    dsimp only
    rw [l3]
    refine ⟨List.suffix_of_suffix_length_le hqs hEs hql.le, fun e => by rw [e] at hql; omega, hqp, fun u hu hne pu => ?_⟩
    by_cases hu0 : u = []
    · rw [hu0]; simp
    · rw [hE, ← List.cons_append] at hu
      rcases pal_cases hu0 pu hu with e | ⟨v, rfl, pv, hv⟩
      · rw [e]
        have := List.length_pos_iff.2 (ext_ne w q c)
        exact Nat.succ_le_of_lt this
      · have g1 := hv.length_le
        simp only [List.length_cons] at g1
        have g2 : v.length ≠ (w b).length := by
          intro e
          have := hv.eq_of_length (by simpa using e)
          rw [List.cons.injEq] at this
          rw [this.2, hE] at hne
          exact hne rfl
        have g3 : v <:+ w b := List.suffix_of_suffix_length_le ((List.suffix_cons c v).trans hv) (List.suffix_cons c _) (by omega)
        have g4 : b ≠ 1 := by
          rintro rfl
          rw [h.lk.o.2.2] at g1 g2
          simp at g1 g2
          exact g2 g1
        have g5 := h.lk.lk b (by omega) hb
        obtain ⟨g6, g7⟩ := q3 v pv (hv.trans (h1 hb0)) g5.1 (g5.2.2.2.2.2 v g3 (fun e => g2 (by rw [e])) pv)
        unfold ext
        rw [if_neg (by omega)]
        simp; omega

theorem out_step {s : List α} {outs : List Nat} {w w' : Nat → List α} {c : α} {k k' j : Nat} (hl : outs.length = s.length)
    (hk : k ≤ k') (hw : ∀ i, 2 ≤ i → i < k → w' i = w i)
    (h : ∀ p j, outs[p]? = some j → 2 ≤ j ∧ j < k ∧ LongestPalSuffix (s.take (p + 1)) (w j))
    (hj : 2 ≤ j) (hj' : j < k') (hE : LongestPalSuffix (s ++ [c]) (w' j)) (p i : Nat) (hp : (outs ++ [j])[p]? = some i) :
    2 ≤ i ∧ i < k' ∧ LongestPalSuffix ((s ++ [c]).take (p + 1)) (w' i) := by
  rw [List.getElem?_append] at hp
  split at hp
  · rename_i hlt
    obtain ⟨a, b, d⟩ := h p i hp
    rw [List.take_append_of_le_length (by omega), hw i a b]
    exact ⟨a, by omega, d⟩
  · rename_i hge
    have : p = outs.length := by
      by_contra hne
      rw [List.getElem?_eq_none (by simp; omega)] at hp
      exact absurd hp (by simp)
    subst this
    simp at hp
    subst hp
    rw [hl, List.take_of_length_le (by simp)]
    exact ⟨hj, hj', hE⟩

theorem add_tot {s : List α} {outs : List Nat} {st : State α} {w : Nat → List α} (h : Inv s outs st w) (c : α) :
    Tot (add st c) fun r => ∃ w', Inv (s ++ [c]) (outs ++ [r.2]) r.1 w' := by
  have h2 := h.lk.two
  have hs : (st.seq.push c).toList = s ++ [c] := by rw [Array.toList_push, h.seq]
  have hsz : (st.seq.push c).size = s.length + 1 := by rw [← Array.length_toList, hs]; simp
  have hact : st.active < st.nodes.size := by rcases h.act with ⟨_, e⟩ | ⟨_, e, _⟩ <;> omega
  unfold add
  refine Tot.bind (find_tot h.lk hs hact fun h1 => ?_) ?_
  · rcases h.act with ⟨_, e⟩ | ⟨_, _, e⟩
    · omega
    · exact e.1
  rintro b ⟨b1, b2, b3⟩
  have hb : b < st.nodes.size := by omega
  have hE := longest_ext h b1 hb (fun h => (b2 h).1) b3
  have hcomp : ∀ v, v ≠ [] → Pal v → v <:+: s ++ [c] → v = ext w b c ∨ v <:+: s := by
    intro v hv pv hi
    rcases List.infix_concat_iff.1 hi with hi | hi
    · have := hE.2.2 v hi pv
      by_cases e : v.length = (ext w b c).length
      · exact Or.inl (suffix_eq hi hE.1 e)
      · exact Or.inr (short hE.1 hE.2.1 hi pv (by omega))
    · exact Or.inr hi
  have hmono : ∀ v : List α, v <:+: s → v <:+: s ++ [c] := fun v hv => List.infix_concat_iff.2 (Or.inr hv)
  rw [rd_at d0 hb, ok_bind]
  cases hlook : (at' d0 st.nodes b).ch.lookup c with
  | some j =>
    obtain ⟨j1, j2, j3⟩ := (h.ch b hb c j).1 hlook
    dsimp only
    rw [rd_at d0 j2, ok_bind, wr_eq j2, ok_bind]
    obtain ⟨N, hN⟩ : ∃ N, N = st.nodes.setIfInBounds j { at' d0 st.nodes j with mult := (at' d0 st.nodes j).mult + 1 } := ⟨_, rfl⟩
    rw [← hN]
    have hNs : N.size = st.nodes.size := by rw [hN]; simp
    have hat : ∀ i, at' d0 N i = if j = i then { at' d0 st.nodes j with mult := (at' d0 st.nodes j).mult + 1 } else at' d0 st.nodes i :=
      fun i => by rw [hN, at_set d0 j2]
    have q1 : ∀ i, (at' d0 N i).link = (at' d0 st.nodes i).link := fun i => by
      rw [hat]; split
      · rename_i e; rw [e]
      · rfl
    have q2 : ∀ i, (at' d0 N i).len = (at' d0 st.nodes i).len := fun i => by
      rw [hat]; split
      · rename_i e; rw [e]
      · rfl
    have q3 : ∀ i, (at' d0 N i).ch = (at' d0 st.nodes i).ch := fun i => by
      rw [hat]; split
      · rename_i e; rw [e]
      · rfl
    have q4 : ∀ i, (at' d0 N i).first = (at' d0 st.nodes i).first := fun i => by
      rw [hat]; split
      · rename_i e; rw [e]
      · rfl
    have q5 : ∀ i, (at' d0 N i).mult = (at' d0 st.nodes i).mult + if j = i then 1 else 0 := fun i => by
      rw [hat]; split
      · rename_i e; rw [e]
      · rfl
    refine Tot.pure ⟨w, ?_⟩
    refine ⟨hs, ?_, ?_, ?_, ?_, ?_, ?_, ?_, ?_, ?_, ?_, ?_, ?_⟩
    all_goals dsimp only
    · rw [hNs]; exact h.lk.congr (by omega) (fun _ _ => rfl) fun i _ => ⟨q1 i, q2 i⟩
    · rw [hNs]; exact fun i a b => hmono _ (h.inf i a b)
    · rw [hNs]; exact h.inj
    · rw [hNs]
      intro v hv pv hi
      rcases hcomp v hv pv hi with e | e
      · exact ⟨j, j1, j2, by rw [e, j3]⟩
      · exact h.comp v hv pv e
    · rw [hNs]; intro i hi; rw [q3]; exact h.ch i hi
    · rw [hNs]; intro i hi; rw [q3]; exact h.chm i hi
    · right; rw [hNs, j3]; exact ⟨j1, j2, hE⟩
    · rw [hNs]; intro i i1 i2
      obtain ⟨p, p1, p2⟩ := h.first i i1 i2
      rw [q4]
      exact ⟨p, p1, first_mono (h.lk.nd i i1 i2).1 p2⟩
    · rw [q4]; exact h.o1
    · rw [hNs]; intro i i1 i2
      rw [q5, h.mult i i1 i2, List.count_append, List.count_singleton]
      by_cases e : j = i
      · simp [e]
      · simp [e]
    · simp [h.olen]
    · rw [hNs]
      exact out_step h.olen (Nat.le_refl _) (fun _ _ _ => rfl) h.out j1 j2 (by rw [j3]; exact hE)
  | none =>
    dsimp only
    have hnew : ∀ i, 2 ≤ i → i < st.nodes.size → w i ≠ ext w b c := by
      intro i i1 i2 e
      rw [(h.ch b hb c i).2 ⟨i1, i2, e⟩] at hlook
      exact absurd hlook (by simp)
    have hnew' : ¬ ext w b c <:+: s := by
      intro hi
      obtain ⟨i, i1, i2, i3⟩ := h.comp _ (ext_ne w b c) hE.2.1 hi
      exact hnew i i1 i2 i3
    rw [wr_eq hb, ok_bind]
    obtain ⟨N0, hN0⟩ : ∃ N0, N0 = st.nodes.setIfInBounds b { at' d0 st.nodes b with ch := (c, st.nodes.size) :: (at' d0 st.nodes b).ch } := ⟨_, rfl⟩
    rw [← hN0]
    have hN0s : N0.size = st.nodes.size := by rw [hN0]; simp
    have hat0 : ∀ i, at' d0 N0 i = if b = i then { at' d0 st.nodes b with ch := (c, st.nodes.size) :: (at' d0 st.nodes b).ch } else at' d0 st.nodes i :=
      fun i => by rw [hN0, at_set d0 hb]
    obtain ⟨x, hx⟩ : ∃ x : Node α, x = ⟨[], 0, (at' d0 st.nodes b).len + 2, 1, ((st.seq.push c).size : Int) - ((at' d0 st.nodes b).len + 2)⟩ := ⟨_, rfl⟩
    rw [← hx]
    have hpush : ∀ i, at' d0 (N0.push x) i = if i = st.nodes.size then x else at' d0 N0 i := by
      intro i
      unfold at'
      rw [Array.getElem?_push, hN0s]
      split <;> rfl
    have hp1 : ∀ i, i < st.nodes.size → (at' d0 (N0.push x) i).link = (at' d0 st.nodes i).link ∧ (at' d0 (N0.push x) i).len = (at' d0 st.nodes i).len := by
      intro i hi
      rw [hpush, if_neg (by omega), hat0]
      split
      · rename_i e; rw [e]; exact ⟨rfl, rfl⟩
      · exact ⟨rfl, rfl⟩
    refine Tot.bind (linkOf_tot h hb (fun h => (b2 h).1) hs (by simp; omega) hp1 ?_) ?_
    · intro i hi hne
      rw [hpush, if_neg (by omega), hat0, if_neg (by omega)]
    rintro ⟨l, N1⟩ ⟨e, l1, l2, l3⟩
    dsimp only at e l1 l2 l3 ⊢
    subst e
    have hlt : st.nodes.size < (N0.push x).size := by simp; omega
    rw [rd_at d0 hlt, ok_bind, wr_eq hlt, ok_bind, hpush, if_pos rfl]
    obtain ⟨N, hN⟩ : ∃ N, N = (N0.push x).setIfInBounds st.nodes.size { x with link := l } := ⟨_, rfl⟩
    rw [← hN]
    have hNs : N.size = st.nodes.size + 1 := by rw [hN]; simp; omega
    have hatk : at' d0 N st.nodes.size = { x with link := l } := by rw [hN, at_set d0 hlt, if_pos rfl]
    have hat : ∀ i, i < st.nodes.size → at' d0 N i = at' d0 N0 i := by
      intro i hi
      rw [hN, at_set d0 hlt, if_neg (by omega), hpush, if_neg (by omega)]
    have q1 : ∀ i, i < st.nodes.size → (at' d0 N i).link = (at' d0 st.nodes i).link := fun i hi => by
      rw [hat i hi, hat0]; split
      · rename_i e; rw [e]
      · rfl
    have q2 : ∀ i, i < st.nodes.size → (at' d0 N i).len = (at' d0 st.nodes i).len := fun i hi => by
      rw [hat i hi, hat0]; split
      · rename_i e; rw [e]
      · rfl
    have q3 : ∀ i, i < st.nodes.size → (at' d0 N i).first = (at' d0 st.nodes i).first := fun i hi => by
      rw [hat i hi, hat0]; split
      · rename_i e; rw [e]
      · rfl
    have q4 : ∀ i, i < st.nodes.size → (at' d0 N i).mult = (at' d0 st.nodes i).mult := fun i hi => by
      rw [hat i hi, hat0]; split
      · rename_i e; rw [e]
      · rfl
    have q5 : ∀ i, i < st.nodes.size → (at' d0 N i).ch = if b = i then (c, st.nodes.size) :: (at' d0 st.nodes i).ch else (at' d0 st.nodes i).ch := fun i hi => by
      rw [hat i hi, hat0]; split
      · rename_i e; rw [e]
      · rfl
    obtain ⟨k, hk⟩ : ∃ k, k = st.nodes.size := ⟨_, rfl⟩
    obtain ⟨w', hw'⟩ : ∃ w' : Nat → List α, w' = fun i => if i = k then ext w b c else w i := ⟨_, rfl⟩
    have wk : w' k = ext w b c := by rw [hw']; exact if_pos rfl
    have wlt : ∀ i, i < k → w' i = w i := fun i hi => by rw [hw']; exact if_neg (by omega)
    have elt : ∀ i c, i < k → ext w' i c = ext w i c := fun i c hi => by unfold ext; rw [wlt i hi]
    have hxl : x.len = (ext w b c).length := by rw [hx]; exact ext_len h.lk hb c
    rw [← hk] at hatk hNs ⊢
    simp only [← hk] at q5
    have L : Lk N w' k := by
      rw [hk]; exact h.lk.congr (by omega) (fun i hi => wlt i (by omega)) fun i hi => ⟨q1 i hi, q2 i hi⟩
    refine Tot.pure ⟨w', ?_⟩
    refine ⟨hs, ?_, ?_, ?_, ?_, ?_, ?_, ?_, ?_, ?_, ?_, ?_, ?_⟩
    all_goals dsimp only
    · rw [hNs]
      refine ⟨by omega, by omega, L.z, L.o, ?_, ?_⟩
      · intro i i1 i2
        by_cases e : i = k
        · rw [e, wk, hatk]; exact ⟨ext_ne w b c, hE.2.1, hxl⟩
        · exact L.nd i i1 (by omega)
      · intro i i1 i2
        by_cases e : i = k
        · rw [e, wk, hatk]
          dsimp only
          rw [wlt l (by omega)]
          exact ⟨l1, by omega, l3⟩
        · exact L.lk i i1 (by omega)
    · rw [hNs]; intro i i1 i2
      by_cases e : i = k
      · rw [e, wk]; exact hE.1.isInfix
      · rw [wlt i (by omega)]; exact hmono _ (h.inf i i1 (by omega))
    · rw [hNs]
      have key : ∀ i, 1 ≤ i → i < k → w i ≠ ext w b c := by
        intro i i1 i2
        by_cases e : i = 1
        · rw [e, h.lk.o.2.2]; exact (ext_ne w b c).symm
        · exact hnew i (by omega) (by omega)
      intro i j i1 i2 j1 j2 e
      by_cases e1 : i = k <;> by_cases e2 : j = k
      · omega
      · rw [e1, wk, wlt j (by omega)] at e; exact absurd e.symm (key j j1 (by omega))
      · rw [e2, wk, wlt i (by omega)] at e; exact absurd e (key i i1 (by omega))
      · rw [wlt i (by omega), wlt j (by omega)] at e; exact h.inj i j i1 (by omega) j1 (by omega) e
    · rw [hNs]
      intro v hv pv hi
      rcases hcomp v hv pv hi with e | e
      · exact ⟨k, by omega, by omega, by rw [e, wk]⟩
      · obtain ⟨i, i1, i2, i3⟩ := h.comp v hv pv e
        exact ⟨i, i1, by omega, by rw [wlt i (by omega)]; exact i3⟩
    · rw [hNs]; intro i hi c' j
      by_cases e : i = k
      · rw [e, hatk, hx]
        dsimp only
        rw [List.lookup_nil]
        refine ⟨fun h => absurd h (by simp), fun ⟨j1, j2, j3⟩ => ?_⟩
        exfalso
        have hl : (ext w' k c').length = (ext w b c).length + 2 := by unfold ext; rw [if_neg (by omega), wk]; simp [ext]
        by_cases e2 : j = k
        · rw [e2, wk] at j3; rw [← j3] at hl; omega
        · rw [wlt j (by omega)] at j3
          have := h.inf j j1 (by omega)
          rw [j3] at this
          unfold ext at this
          rw [if_neg (by omega), wk] at this
          exact hnew' (List.IsInfix.trans ⟨[c'], [c'], by simp⟩ this)
      · rw [q5 i (by omega), elt i c' (by omega)]
        have key : ¬ (b = i ∧ c' = c) → (w' j = ext w i c' → j ≠ k) := by
          rintro hne e e'
          rw [e', wk] at e
          obtain ⟨a1, a2⟩ := ext_inj h.inj h.lk hb (by omega) e
          exact hne ⟨a1, a2.symm⟩
        have old := h.ch i (by omega) c' j
        rw [← hk] at old
        by_cases e1 : b = i
        · rw [if_pos e1, List.lookup_cons]
          by_cases e2 : c' = c
          · rw [e2, beq_self_eq_true]
            dsimp only
            rw [← e1]
            constructor
            · intro e3; rw [Option.some.injEq] at e3; rw [← e3]; exact ⟨by omega, by omega, wk⟩
            · rintro ⟨j1, j2, j3⟩
              congr 1
              by_contra e4
              rw [wlt j (by omega)] at j3
              exact hnew j j1 (by omega) j3
          · rw [beq_false_of_ne e2]
            dsimp only
            rw [old]
            constructor
            · rintro ⟨j1, j2, j3⟩; exact ⟨j1, by omega, by rw [wlt j j2]; exact j3⟩
            · rintro ⟨j1, j2, j3⟩
              have := key (fun h => e2 h.2) j3
              exact ⟨j1, by omega, by rw [← wlt j (by omega)]; exact j3⟩
        · rw [if_neg e1, old]
          constructor
          · rintro ⟨j1, j2, j3⟩; exact ⟨j1, by omega, by rw [wlt j j2]; exact j3⟩
          · rintro ⟨j1, j2, j3⟩
            have := key (fun h => e1 h.1) j3
            exact ⟨j1, by omega, by rw [← wlt j (by omega)]; exact j3⟩
    · rw [hNs]; intro i hi c' j hm
      by_cases e : i = k
      · rw [e, hatk, hx] at hm; simp at hm
      · rw [q5 i (by omega)] at hm ⊢
        by_cases e1 : b = i
        · rw [if_pos e1] at hm ⊢
          rw [List.lookup_cons]
          rcases List.mem_cons.1 hm with e2 | e2
          · rw [Prod.mk.injEq] at e2
            rw [e2.1, e2.2, beq_self_eq_true]
          · have := h.chm i (by omega) c' j e2
            have hne : c' ≠ c := by
              rintro rfl
              rw [← e1, hlook] at this
              exact absurd this (by simp)
            rw [beq_false_of_ne hne]
            exact this
        · rw [if_neg e1] at hm ⊢
          exact h.chm i (by omega) c' j hm
    · right; rw [hNs, wk]; exact ⟨by omega, by omega, hE⟩
    · rw [hNs]; intro i i1 i2
      by_cases e : i = k
      · rw [e, wk, hatk]
        refine ⟨s.length + 1 - (ext w b c).length, ?_, first_new (ext_ne w b c) hE.1 hnew'⟩
        have := hE.1.length_le
        rw [List.length_append, List.length_singleton] at this
        have h5 := ext_len h.lk hb c
        rw [hx]
        dsimp only
        rw [h5, hsz]
        omega
      · obtain ⟨p, p1, p2⟩ := h.first i i1 (by omega)
        rw [q3 i (by omega), wlt i (by omega)]
        exact ⟨p, p1, first_mono (h.lk.nd i i1 (by omega)).1 p2⟩
    · rw [q3 1 (by omega)]; exact h.o1
    · rw [hNs]; intro i i1 i2
      rw [List.count_append, List.count_singleton]
      by_cases e : i = k
      · have : outs.count i = 0 := by
          rw [List.count_eq_zero]
          intro hm
          obtain ⟨p, hp⟩ := List.getElem?_of_mem hm
          have := (h.out p i hp).2.1
          omega
        rw [this, e, hatk, hx]; simp
      · rw [q4 i (by omega), h.mult i i1 (by omega)]
        have : ¬ k = i := fun h => e h.symm
        simp [this]
    · simp [h.olen]
    · rw [hNs]
      exact out_step h.olen (by omega) (fun i _ h => wlt i (by omega)) h.out (by omega) (by omega) (by rw [wk]; exact hE)

theorem init_inv : Inv ([] : List α) [] init fun _ => [] := by
  refine ⟨rfl, ⟨Nat.le_refl _, Nat.le_refl 2, ⟨rfl, rfl⟩, ⟨rfl, rfl, rfl⟩, ?_, ?_⟩, ?_, ?_, ?_, ?_, ?_, Or.inl ⟨rfl, rfl⟩, ?_, rfl, ?_, rfl, ?_⟩
  all_goals simp only [show (init (α := α)).nodes.size = 2 from rfl]
  · intro i _ _; omega
  · intro i _ _; omega
  · intro i _ _; omega
  · intro i j _ _ _ _ _; omega
  · intro v hv _ hi
    exact absurd (List.infix_nil.1 hi) hv
  · intro i hi c j
    have : (at' d0 (init (α := α)).nodes i).ch = [] := by
      rcases (by omega : i = 0 ∨ i = 1) with e | e <;> subst e <;> rfl
    rw [this, List.lookup_nil]
    exact ⟨fun h => absurd h (by simp), fun ⟨_, _, _⟩ => by omega⟩
  · intro i hi c j hm
    have : (at' d0 (init (α := α)).nodes i).ch = [] := by
      rcases (by omega : i = 0 ∨ i = 1) with e | e <;> subst e <;> rfl
    rw [this] at hm; simp at hm
  · intro i _ _; omega
  · intro i _ _; omega
  · intro p j h; simp at h

theorem addAll_tot (s : List α) : Tot (addAll init s) fun r => ∃ w, Inv s r.2 r.1 w := by
  unfold addAll
  refine Tot.forEach (P := fun pre (r : State α × List Nat) => ∃ w, Inv pre r.2 r.1 w) ⟨_, init_inv⟩ ?_
  rintro pre x post ⟨st, outs⟩ - ⟨w, h⟩
  dsimp only at h ⊢
  refine Tot.bind (add_tot h x) ?_
  rintro ⟨st', j⟩ ⟨w', h'⟩
  exact Tot.pure ⟨w', h'⟩

section
variable {s : List α} {outs : List Nat} {st : State α} {w : Nat → List α}

theorem Inv.first_word (h : Inv s outs st w) {i p : Nat} (_h1 : 2 ≤ i) (_h2 : i < st.nodes.size) (hp : FirstOcc s (w i) p) :
    (s.take (p + (w i).length)).drop p = w i := by
  rw [List.drop_take, Nat.add_sub_cancel_left]
  exact (List.prefix_iff_eq_take.1 hp.1).symm

theorem Inv.getPalindrome (h : Inv s outs st w) {i : Nat} (h1 : 1 ≤ i) (h2 : i < st.nodes.size) :
    getPalindrome st i = .ok (w i) := by
  unfold PalindromicTree.getPalindrome firstOccurence length
  rw [if_neg (by omega), rd_at d0 h2]
  simp only [ok_bind, pure_eq]
  have hsz : st.seq.size = s.length := by rw [← Array.length_toList, h.seq]
  rw [h.seq, hsz]
  by_cases e : i = 1
  · subst e
    rw [h.o1, h.lk.o.2.1, h.lk.o.2.2, if_pos (by omega)]
    rfl
  · obtain ⟨p, p1, p2⟩ := h.first i (by omega) h2
    have hl := p2.1.length_le
    have h0 := List.length_pos_iff.2 (h.lk.nd i (by omega) h2).1
    rw [List.length_drop] at hl
    rw [p1, h.lk.len h1 h2, if_pos (by omega), ← Int.natCast_add, Int.toNat_natCast, Int.toNat_natCast, h.first_word (by omega) h2 p2]

/-- Suffixes among the palindromes of the nodes. -/
theorem Inv.chain (h : Inv s outs st w) {j : Nat} (hj : 2 ≤ j) (hj2 : j < st.nodes.size) :
    ∀ t, 2 ≤ t → t < st.nodes.size → t ≠ j → w j <:+ w t → ∃ k, j < k ∧ k < st.nodes.size ∧ (at' d0 st.nodes k).link = j ∧ w k <:+ w t := by
  intro t
  induction t using Nat.strong_induction_on with
  | _ t ih =>
    intro t1 t2 hne hs
    obtain ⟨l1, l2, l3⟩ := h.lk.lk t t1 t2
    by_cases e : (at' d0 st.nodes t).link = j
    · exact ⟨t, by omega, t2, e, List.suffix_refl _⟩
    · have hle := l3.2.2.2 (w j) hs (fun e => hne (h.inj _ _ (by omega) t2 (by omega) hj2 e.symm)) (h.lk.pal (by omega) hj2)
      have hs' := List.suffix_of_suffix_length_le hs l3.1 hle
      have : (at' d0 st.nodes t).link ≠ 1 := by
        intro e1
        rw [e1, h.lk.o.2.2] at hs'
        exact (h.lk.nd j hj hj2).1 (List.suffix_nil.1 hs')
      obtain ⟨k, k1, k2, k3, k4⟩ := ih _ l2 (by omega) (by omega) e hs'
      exact ⟨k, k1, k2, k3, k4.trans l3.1⟩

theorem Inv.link_len (h : Inv s outs st w) {k : Nat} (hk : 2 ≤ k) (hk2 : k < st.nodes.size) :
    (w (at' d0 st.nodes k).link).length < (w k).length := by
  obtain ⟨_, _, l3⟩ := h.lk.lk k hk hk2
  have := l3.1.length_le
  have h4 : (w (at' d0 st.nodes k).link).length ≠ (w k).length := fun e => l3.2.1 (l3.1.eq_of_length e)
  omega

theorem Inv.rec1 (h : Inv s outs st w) {j t : Nat} (hj : 2 ≤ j) (hj2 : j < st.nodes.size) (t1 : 2 ≤ t) (t2 : t < st.nodes.size) :
    (if w j <:+ w t then 1 else 0) = (if t = j then 1 else 0) +
      ∑ k ∈ Finset.Ico (j + 1) st.nodes.size, if (at' d0 st.nodes k).link = j then (if w k <:+ w t then 1 else 0) else 0 := by
  by_cases e : t = j
  · subst e
    rw [if_pos (List.suffix_refl _), if_pos rfl, Finset.sum_eq_zero, Nat.add_zero]
    intro k hk
    rw [Finset.mem_Ico] at hk
    split
    · rename_i e
      rw [if_neg]
      intro hs
      have := h.link_len (by omega) hk.2
      have := hs.length_le
      rw [e] at *
      omega
    · rfl
  · rw [if_neg e, Nat.zero_add]
    by_cases hs : w j <:+ w t
    · rw [if_pos hs]
      obtain ⟨k0, k1, k2, k3, k4⟩ := h.chain hj hj2 t t1 t2 e hs
      have uniq : ∀ a b, 2 ≤ a → a < st.nodes.size → 2 ≤ b → b < st.nodes.size → (at' d0 st.nodes a).link = j → (at' d0 st.nodes b).link = j →
          w a <:+ w t → w b <:+ w t → (w a).length ≤ (w b).length → a = b := by
        intro a b a1 a2 b1 b2 ea eb ha hb hle
        by_contra hne
        have h1 := List.suffix_of_suffix_length_le ha hb hle
        have h2 := (h.lk.lk b b1 b2).2.2.2.2.2 (w a) h1 (fun e => hne (h.inj _ _ (by omega) a2 (by omega) b2 e)) (h.lk.pal (by omega) a2)
        have h3 := h.link_len a1 a2
        rw [eb] at h2
        rw [ea] at h3
        omega
      rw [Finset.sum_eq_single k0, if_pos k3, if_pos k4]
      · intro k hk hne
        rw [Finset.mem_Ico] at hk
        split
        · rename_i ek
          rw [if_neg]
          intro hks
          rcases Nat.le_total (w k).length (w k0).length with hle | hle
          · exact hne (uniq k k0 (by omega) hk.2 (by omega) k2 ek k3 hks k4 hle)
          · exact hne (uniq k0 k (by omega) k2 (by omega) hk.2 k3 ek k4 hks hle).symm
        · rfl
      · intro hn
        exact absurd (Finset.mem_Ico.2 ⟨by omega, k2⟩) hn
    · rw [if_neg hs, Finset.sum_eq_zero]
      intro k hk
      rw [Finset.mem_Ico] at hk
      split
      · rename_i ek
        rw [if_neg]
        intro hks
        apply hs
        have := (h.lk.lk k (by omega) hk.2).2.2.1
        rw [ek] at this
        exact this.trans hks
      · rfl

/-- How often the longest palindromic suffix ends in `w j`. -/
def F (w : Nat → List α) (outs : List Nat) (j : Nat) : Nat := outs.countP fun t => decide (w j <:+ w t)

theorem Inv.rec_aux (h : Inv s outs st w) {j : Nat} (hj : 2 ≤ j) (hj2 : j < st.nodes.size) (l : List Nat)
    (hl : ∀ t ∈ l, 2 ≤ t ∧ t < st.nodes.size) :
    F w l j = l.count j + ∑ k ∈ Finset.Ico (j + 1) st.nodes.size, if (at' d0 st.nodes k).link = j then F w l k else 0 := by
  induction l with
  | nil => simp [F]
  | cons t l ih =>
    have ih := ih fun t ht => hl t (List.mem_cons_of_mem _ ht)
    have hc : ∀ k, F w (t :: l) k = F w l k + if w k <:+ w t then 1 else 0 := by
      intro k
      unfold F
      rw [List.countP_cons]
      simp
    have hs : (∑ k ∈ Finset.Ico (j + 1) st.nodes.size, if (at' d0 st.nodes k).link = j then F w (t :: l) k else 0)
        = (∑ k ∈ Finset.Ico (j + 1) st.nodes.size, if (at' d0 st.nodes k).link = j then F w l k else 0) +
          ∑ k ∈ Finset.Ico (j + 1) st.nodes.size, if (at' d0 st.nodes k).link = j then (if w k <:+ w t then 1 else 0) else 0 := by
      rw [← Finset.sum_add_distrib]
      refine Finset.sum_congr rfl fun k _ => ?_
      rw [hc]
      split <;> rfl
    have ht := hl t List.mem_cons_self
    rw [hs, hc, ih, h.rec1 hj hj2 ht.1 ht.2, List.count_cons]
    simp only [beq_iff_eq]
    omega

theorem Inv.F_rec (h : Inv s outs st w) {j : Nat} (hj : 2 ≤ j) (hj2 : j < st.nodes.size) :
    F w outs j = (at' d0 st.nodes j).mult +
      ∑ k ∈ Finset.Ico (j + 1) st.nodes.size, if (at' d0 st.nodes k).link = j then F w outs k else 0 := by
  rw [h.mult j hj hj2]
  refine h.rec_aux hj hj2 outs fun t ht => ?_
  obtain ⟨p, hp⟩ := List.getElem?_of_mem ht
  exact ⟨(h.out p t hp).1, (h.out p t hp).2.1⟩

theorem Inv.F_occ (h : Inv s outs st w) {j : Nat} (hj : 2 ≤ j) (hj2 : j < st.nodes.size) : F w outs j = occ s (w j) := by
  have he : outs = (List.range s.length).map fun p => outs[p]?.getD 0 := by
    apply List.ext_getElem
    · simp [h.olen]
    · intro p h1 h2
      simp [h1]
  unfold F occ
  rw [he, List.countP_map]
  refine List.countP_congr fun p hp => ?_
  rw [List.mem_range, ← h.olen] at hp
  have hg : outs[p]? = some outs[p] := List.getElem?_eq_getElem hp
  simp only [Function.comp_apply, decide_eq_true_eq, hg, Option.getD_some]
  obtain ⟨o1, o2, o3⟩ := h.out p _ hg
  constructor
  · exact fun hs => hs.trans o3.1
  · exact fun hs => List.suffix_of_suffix_length_le hs o3.1 (o3.2.2 _ hs (h.lk.pal (by omega) hj2))

theorem Inv.frequency (h : Inv s outs st w) : Tot (frequencyTable st) fun res => res.size = st.nodes.size ∧
    ∀ j, 2 ≤ j → j < st.nodes.size → res[j]? = some (occ s (w j)) := by
  have h2 := h.lk.two
  unfold frequencyTable
  refine Tot.mono (Tot.forDown (P := fun i (res : Array Nat) => res.size = st.nodes.size ∧ ∀ j, 2 ≤ j → j < st.nodes.size →
    at' 0 res j = if i ≤ j then F w outs j else ∑ k ∈ Finset.Ico i st.nodes.size, if (at' d0 st.nodes k).link = j then F w outs k else 0)
    (by omega) ?_ ?_) ?_
  · refine ⟨by simp, fun j j1 j2 => ?_⟩
    rw [if_neg (by omega), Finset.Ico_self, Finset.sum_empty]
    simp [at', j2]
  · rintro i res i1 i2 ⟨r1, r2⟩
    have hl : (at' d0 st.nodes i).link < i := by
      by_cases e : i = 1
      · subst e; rw [h.lk.o.1]; omega
      · exact (h.lk.lk i (by omega) i2).2.1
    rw [rd_at d0 i2, ok_bind, rd_at 0 (by omega : i < res.size), ok_bind, wr_eq (by omega), ok_bind,
      rd_at 0 (by simp; omega), ok_bind, rd_at 0 (by simp; omega), ok_bind]
    refine Tot.wr (by simp; omega) ⟨by simp [r1], fun j j1 j2 => ?_⟩
    rw [at_set 0 (by simp; omega), at_set 0 (by omega), at_set 0 (by omega), at_set 0 (by omega), if_pos rfl,
      if_neg (show ¬ i = (at' d0 st.nodes i).link by omega)]
    have hi : 2 ≤ i → at' 0 res i + (at' d0 st.nodes i).mult = F w outs i := by
      intro hi
      rw [r2 i hi i2, if_neg (by omega), h.F_rec hi i2]; omega
    by_cases e : (at' d0 st.nodes i).link = j
    · rw [if_pos e, e, if_neg (by omega), Finset.sum_eq_sum_Ico_succ_bot i2, if_pos e, r2 j j1 j2, if_neg (by omega), hi (by omega)]
      omega
    · rw [if_neg e]
      by_cases e1 : i = j
      · subst e1
        rw [if_pos rfl, if_pos (Nat.le_refl _), hi j1]
      · rw [if_neg e1, r2 j j1 j2]
        by_cases e2 : i ≤ j
        · rw [if_pos e2, if_pos (by omega)]
        · rw [if_neg e2, if_neg (by omega), Finset.sum_eq_sum_Ico_succ_bot i2, if_neg e, Nat.zero_add]
  · rintro res ⟨r1, r2⟩
    refine ⟨r1, fun j j1 j2 => ?_⟩
    have := r2 j j1 j2
    rw [if_pos (by omega), h.F_occ j1 j2] at this
    rw [← this, at', Array.getElem?_eq_getElem (by omega)]
    rfl

theorem mem_lookup {l : List (α × Nat)} {c : α} {j : Nat} (h : l.lookup c = some j) : (c, j) ∈ l := by
  induction l with
  | nil => simp at h
  | cons x l ih =>
    rw [List.lookup_cons] at h
    cases e : c == x.1 with
    | true =>
      rw [e] at h
      simp at h e
      rw [e, ← h]; simp
    | false =>
      rw [e] at h
      exact List.mem_cons_of_mem _ (ih h)

theorem Inv.mem_ch (h : Inv s outs st w) {i : Nat} (hi : i < st.nodes.size) (c : α) (j : Nat) :
    (c, j) ∈ (at' d0 st.nodes i).ch ↔ 2 ≤ j ∧ j < st.nodes.size ∧ w j = ext w i c :=
  ⟨fun hm => (h.ch i hi c j).1 (h.chm i hi c j hm), fun hm => mem_lookup ((h.ch i hi c j).2 hm)⟩

theorem Inv.parents (h : Inv s outs st w) : Tot (parents st) fun res => res.size = st.nodes.size ∧
    res[0]? = some (-1) ∧ res[1]? = some (-1) ∧
    ∀ j, 2 ≤ j → j < st.nodes.size → ∃ i c, i < st.nodes.size ∧ res[j]? = some (i : Int) ∧ w j = ext w i c := by
  have h2 := h.lk.two
  unfold PalindromicTree.parents
  refine Tot.mono (Tot.forUp (P := fun i (res : Array Int) => res.size = st.nodes.size ∧ ∀ j, j < st.nodes.size →
    (at' 0 res j = -1 ∧ ∀ i' < i, ∀ c, (c, j) ∉ (at' d0 st.nodes i').ch) ∨
      ∃ i' < i, ∃ c, at' 0 res j = (i' : Int) ∧ (c, j) ∈ (at' d0 st.nodes i').ch) (Nat.zero_le _) ?_ ?_) ?_
  · refine ⟨by simp, fun j hj => Or.inl ⟨by simp [at', hj], fun i' hi => absurd hi (by omega)⟩⟩
  · rintro i res - hi ⟨r1, r2⟩
    rw [rd_at d0 hi, ok_bind]
    refine Tot.mono (Tot.forEach (P := fun pre (res : Array Int) => res.size = st.nodes.size ∧ ∀ j, j < st.nodes.size →
      (at' 0 res j = -1 ∧ (∀ i' < i, ∀ c, (c, j) ∉ (at' d0 st.nodes i').ch) ∧ ∀ c, (c, j) ∉ pre) ∨
        (∃ i' < i, ∃ c, at' 0 res j = (i' : Int) ∧ (c, j) ∈ (at' d0 st.nodes i').ch) ∨
        ∃ c, at' 0 res j = (i : Int) ∧ (c, j) ∈ (at' d0 st.nodes i).ch) ?_ ?_) ?_
    · refine ⟨r1, fun j hj => ?_⟩
      rcases r2 j hj with ⟨a, b⟩ | ⟨i', a, c, b⟩
      · exact Or.inl ⟨a, b, fun c => by simp⟩
      · exact Or.inr (Or.inl ⟨i', a, c, b⟩)
    · rintro pre ⟨c, j'⟩ post res hx ⟨r1, r2⟩
      have hm : (c, j') ∈ (at' d0 st.nodes i).ch := by rw [hx]; simp
      have hj' := ((h.mem_ch hi c j').1 hm).2.1
      refine Tot.wr (by dsimp only; omega) ⟨by simp [r1], fun j hj => ?_⟩
      dsimp only
      rw [at_set 0 (by omega)]
      by_cases e : j' = j
      · rw [if_pos e]
        exact Or.inr (Or.inr ⟨c, rfl, e ▸ hm⟩)
      · rw [if_neg e]
        rcases r2 j hj with ⟨a, b, d⟩ | h
        · refine Or.inl ⟨a, b, fun c' hc' => ?_⟩
          rcases List.mem_append.1 hc' with h | h
          · exact d c' h
          · simp at h; exact e h.2.symm
        · exact Or.inr h
    · rintro res ⟨r1, r2⟩
      refine ⟨r1, fun j hj => ?_⟩
      rcases r2 j hj with ⟨a, b, d⟩ | ⟨i', a, c, b⟩ | ⟨c, a, b⟩
      · refine Or.inl ⟨a, fun i' hi' => ?_⟩
        by_cases e : i' = i
        · rw [e]; exact d
        · exact b i' (by omega)
      · exact Or.inr ⟨i', by omega, c, b⟩
      · exact Or.inr ⟨i, by omega, c, a, b⟩
  · rintro res ⟨r1, r2⟩
    have hg : ∀ j, j < st.nodes.size → res[j]? = some (at' 0 res j) := by
      intro j hj
      unfold at'
      rw [Array.getElem?_eq_getElem (by omega)]; rfl
    have low : ∀ j, j < 2 → res[j]? = some (-1) := by
      intro j hj
      rw [hg j (by omega)]
      rcases r2 j (by omega) with ⟨a, _⟩ | ⟨i', a, c, _, b⟩
      · rw [a]
      · have := ((h.mem_ch (by omega) c j).1 b).1
        omega
    refine ⟨r1, low 0 (by omega), low 1 (by omega), fun j j1 j2 => ?_⟩
    rw [hg j j2]
    rcases r2 j j2 with ⟨_, b⟩ | ⟨i', a, c, e, b⟩
    · exfalso
      obtain ⟨n1, n2, _⟩ := h.lk.nd j j1 j2
      obtain ⟨c, hc⟩ : ∃ c, ∃ i, i < st.nodes.size ∧ w j = ext w i c := by
        obtain ⟨y, c, hy⟩ : ∃ y c, w j = y ++ [c] := by
          rcases List.eq_nil_or_concat (w j) with e | ⟨r, x, e⟩
          · exact absurd e n1
          · exact ⟨r, x, by simpa using e⟩
        refine ⟨c, ?_⟩
        rcases pal_cases n1 n2 (show w j <:+ y ++ [c] by rw [hy]) with e | ⟨u, e, pu, hu⟩
        · exact ⟨0, by omega, e⟩
        · by_cases hu0 : u = []
          · refine ⟨1, by omega, ?_⟩
            unfold ext
            rw [if_neg (by omega), h.lk.o.2.2, e, hu0]
          · have hui : u <:+: s := by
              refine List.IsInfix.trans ?_ (h.inf j j1 j2)
              rw [e]; exact ⟨[c], [c], by simp⟩
            obtain ⟨i, i1, i2, i3⟩ := h.comp u hu0 pu hui
            refine ⟨i, i2, ?_⟩
            unfold ext
            rw [if_neg (by omega), i3, e]
      obtain ⟨i, hi, e⟩ := hc
      exact b i hi c ((h.mem_ch hi c j).2 ⟨j1, j2, e⟩)
    · exact ⟨i', c, a, by rw [e], ((h.mem_ch a c j).1 b).2.2⟩

/-- After `clear()`, adding a symbol that occurred before reads an erased node. -/
theorem Inv.clear_add (h : Inv s outs st w) {c : α} (hc : c ∈ s) :
    ∃ st', clear st = .ok st' ∧ add st' c = .error .ub := by
  have h2 := h.lk.two
  refine ⟨_, by unfold PalindromicTree.clear; rw [if_pos h2]; rfl, ?_⟩
  have hN : (st.nodes.extract 0 2).size = 2 := by simp; omega
  have hat : ∀ i, i < 2 → at' d0 (st.nodes.extract 0 2) i = at' d0 st.nodes i := by
    intro i hi
    unfold at'
    rw [Array.getElem?_extract, if_pos (by omega), Nat.zero_add]
  have L : Lk (st.nodes.extract 0 2) w 2 := by
    refine ⟨by omega, Nat.le_refl _, ?_, ?_, fun i _ _ => by omega, fun i _ _ => by omega⟩
    · rw [hat 0 (by omega)]; exact h.lk.z
    · rw [hat 1 (by omega)]; exact h.lk.o
  obtain ⟨b, hb, b1, -⟩ := find_tot (s := []) (c := c) (seq := #[].push c) (a := 0) L rfl (by omega) (fun h => absurd h (by omega))
  have : b = 0 := by omega
  subst this
  obtain ⟨j, j1, j2, j3⟩ := h.comp [c] (by simp) rfl (by
    obtain ⟨x, y, e⟩ := List.append_of_mem hc
    exact ⟨x, y, by rw [e]; simp⟩)
  unfold add
  dsimp only
  rw [hb, ok_bind, rd_at d0 (by omega), ok_bind, hat 0 (by omega), (h.ch 0 (by omega) c j).2 ⟨j1, j2, j3⟩]
  dsimp only
  rw [rd_ub (by omega)]
  rfl

end

end PalindromicTree
