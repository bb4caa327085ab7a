import Mathlib.Data.List.Infix
import Mathlib.Tactic.Common

/-!
# Right-equivalence of the factors of a word

`Can s w`: `w` is the longest word with its occurrences. `Cl s x y`: `y` is the longest word with the occurrences of `x`.
-/

namespace SuffixAutomaton

variable {α : Type}

def Can (s w : List α) : Prop := w <:+: s ∧ ∀ d, ∃ t, t <+: s ∧ w <:+ t ∧ ¬ d :: w <:+ t

def Cl (s x y : List α) : Prop := x <:+: s ∧ Can s y ∧ x <:+ y ∧ ∀ t, t <+: s → x <:+ t → y <:+ t

/-- `z` is the longest suffix of `s ++ [c]` that occurs in `s`. -/
def Lng (s : List α) (c : α) (z : List α) : Prop := z <:+ s ++ [c] ∧ z <:+: s ∧ ∀ y, y <:+ s ++ [c] → y <:+: s → y.length ≤ z.length

theorem occ_of {s x : List α} (h : x <:+: s) : ∃ t, t <+: s ∧ x <:+ t := by
  obtain ⟨a, b, e⟩ := h
  exact ⟨a ++ x, ⟨b, e⟩, ⟨a, rfl⟩⟩

theorem occ_to {s x t : List α} (h : t <+: s) (h' : x <:+ t) : x <:+: s := h'.isInfix.trans h.isInfix

theorem suf_eq {u v s : List α} (hu : u <:+ s) (hv : v <:+ s) (h : u.length = v.length) : u = v :=
  (List.suffix_of_suffix_length_le hu hv h.le).eq_of_length h

theorem suf_le {u v s : List α} (hu : u <:+ s) (hv : v <:+ s) (h : u.length ≤ v.length) : u <:+ v :=
  List.suffix_of_suffix_length_le hu hv h

theorem suf_cons {u v : List α} (h : u <:+ v) (hne : u ≠ v) : ∃ d, d :: u <:+ v := by
  obtain ⟨t, e⟩ := h
  rcases List.eq_nil_or_concat t with e1 | ⟨r, d, e1⟩
  · rw [e1] at e; exact absurd e hne
  · exact ⟨d, r, by rw [← e, e1]; simp⟩

theorem suf_lt {u v : List α} (h : u <:+ v) (hne : u ≠ v) : u.length < v.length :=
  Nat.lt_of_le_of_ne h.length_le fun e => hne (h.eq_of_length e)

theorem cons_suf_inj {d e : α} {u t : List α} (h1 : d :: u <:+ t) (h2 : e :: u <:+ t) : d = e := by
  have := suf_eq h1 h2 rfl
  simpa using this

theorem can_nil (s : List α) : Can s [] := by
  refine ⟨List.nil_infix, fun d => ⟨[], List.nil_prefix, List.suffix_refl _, ?_⟩⟩
  intro h; simpa using h.length_le

theorem can_prefix {s w : List α} (h : w <+: s) : Can s w := by
  refine ⟨h.isInfix, fun d => ⟨w, h, List.suffix_refl _, fun h => ?_⟩⟩
  have := h.length_le
  simp at this; omega

/-- A canonical word is not a proper suffix of a word with the same occurrences. -/
theorem can_max {s w y : List α} (h : Can s w) (hy : w <:+ y) (hs : ∀ t, t <+: s → w <:+ t → y <:+ t) : w = y := by
  by_contra hne
  obtain ⟨d, hd⟩ := suf_cons hy hne
  obtain ⟨t, t1, t2, t3⟩ := h.2 d
  exact t3 (hd.trans (hs t t1 t2))

theorem cl_self {s w : List α} (h : Can s w) : Cl s w w := ⟨h.1, h, List.suffix_refl _, fun _ _ h => h⟩

theorem cl_unique {s x y y' : List α} (h : Cl s x y) (h' : Cl s x y') : y = y' := by
  obtain ⟨t, t1, t2⟩ := occ_of h.1
  have a := h.2.2.2 t t1 t2
  have b := h'.2.2.2 t t1 t2
  rcases Nat.le_total y.length y'.length with hl | hl
  · exact can_max h.2.1 (suf_le a b hl) fun t t1 t2 => h'.2.2.2 t t1 (h.2.2.1.trans t2)
  · exact (can_max h'.2.1 (suf_le b a hl) fun t t1 t2 => h.2.2.2 t t1 (h'.2.2.1.trans t2)).symm

theorem cl_exists {s : List α} : ∀ (n : Nat) (x : List α), s.length - x.length = n → x <:+: s → ∃ y, Cl s x y := by
  intro n
  induction n using Nat.strong_induction_on with
  | _ n ih =>
    intro x hn hx
    by_cases hc : Can s x
    · exact ⟨x, cl_self hc⟩
    · have : ∃ d, ∀ t, t <+: s → x <:+ t → d :: x <:+ t := by
        by_contra hcon
        push Not at hcon
        exact hc ⟨hx, fun d => by
          obtain ⟨t, a, b, c⟩ := hcon d
          exact ⟨t, a, b, c⟩⟩
      obtain ⟨d, hd⟩ := this
      obtain ⟨t, t1, t2⟩ := occ_of hx
      have hd' := occ_to t1 (hd t t1 t2)
      have hl := hd'.length_le
      simp only [List.length_cons] at hl
      obtain ⟨y, hy⟩ := ih (s.length - (d :: x).length) (by simp only [List.length_cons]; omega) (d :: x) rfl hd'
      exact ⟨y, hx, hy.2.1, (List.suffix_cons d x).trans hy.2.2.1, fun t t1 t2 => hy.2.2.2 t t1 (hd t t1 t2)⟩

theorem cl_ex {s x : List α} (h : x <:+: s) : ∃ y, Cl s x y := cl_exists _ x rfl h

/-- A word between `x` and its closure has the same closure. -/
theorem cl_between {s x y v : List α} (h : Cl s x y) (hv : x <:+ v) (hv' : v <:+ y) : Cl s v y :=
  ⟨hv'.isInfix.trans h.2.1.1, h.2.1, hv', fun t t1 t2 => h.2.2.2 t t1 (hv.trans t2)⟩

theorem pre_cases {s t : List α} {c : α} (h : t <+: s ++ [c]) : t <+: s ∨ t = s ++ [c] := by
  rcases List.prefix_concat_iff.1 h with h | h
  · exact Or.inr h
  · exact Or.inl h

theorem pre_mono {s t : List α} (c : α) (h : t <+: s) : t <+: s ++ [c] := h.trans (List.prefix_append _ _)

theorem inf_mono {s t : List α} (c : α) (h : t <:+: s) : t <:+: s ++ [c] := h.trans (List.prefix_append _ _).isInfix

theorem can_mono {s w : List α} (c : α) (h : Can s w) : Can (s ++ [c]) w := by
  refine ⟨inf_mono c h.1, fun d => ?_⟩
  obtain ⟨t, t1, t2, t3⟩ := h.2 d
  exact ⟨t, pre_mono c t1, t2, t3⟩

theorem can_lng {s z : List α} {c : α} (h : Lng s c z) : Can (s ++ [c]) z := by
  refine ⟨inf_mono c h.2.1, fun d => ?_⟩
  obtain ⟨t, t1, t2⟩ := occ_of h.2.1
  by_cases hd : d :: z <:+ t
  · refine ⟨s ++ [c], List.prefix_refl _, h.1, fun hd' => ?_⟩
    have := h.2.2 _ hd' (occ_to t1 hd)
    simp at this; omega
  · exact ⟨t, pre_mono c t1, t2, hd⟩

theorem can_cases {s z w : List α} {c : α} (h : Lng s c z) (hw : Can (s ++ [c]) w) : Can s w ∨ w = s ++ [c] ∨ w = z := by
  by_cases ho : w <:+: s
  · by_cases hc : Can s w
    · exact Or.inl hc
    · right; right
      have : ∃ d, ∀ t, t <+: s → w <:+ t → d :: w <:+ t := by
        by_contra hcon
        push Not at hcon
        exact hc ⟨ho, fun d => by
          obtain ⟨t, a, b, c⟩ := hcon d
          exact ⟨t, a, b, c⟩⟩
      obtain ⟨d, hd⟩ := this
      obtain ⟨t, t1, t2, t3⟩ := hw.2 d
      rcases pre_cases t1 with e | e
      · exact absurd (hd t e t2) t3
      · subst e
        have hwz := suf_le t2 h.1 (h.2.2 w t2 ho)
        by_contra hne
        obtain ⟨e, he⟩ := suf_cons hwz hne
        obtain ⟨t, g1, g2⟩ := occ_of h.2.1
        have := cons_suf_inj (hd t g1 (hwz.trans g2)) (he.trans g2)
        subst this
        exact t3 (he.trans h.1)
  · right; left
    have hs : w <:+ s ++ [c] := by
      rcases List.infix_concat_iff.1 hw.1 with h | h
      · exact h
      · exact absurd h ho
    by_contra hne
    obtain ⟨d, hd⟩ := suf_cons hs hne
    obtain ⟨t, t1, t2, t3⟩ := hw.2 d
    rcases pre_cases t1 with e | e
    · exact ho (occ_to e t2)
    · subst e; exact t3 hd

theorem cl_new {s x : List α} {c : α} (hx : x <:+ s ++ [c]) (hn : ¬ x <:+: s) : Cl (s ++ [c]) x (s ++ [c]) := by
  refine ⟨hx.isInfix, can_prefix (List.prefix_refl _), hx, fun t t1 t2 => ?_⟩
  rcases pre_cases t1 with e | e
  · exact absurd (occ_to e t2) hn
  · rw [e]

theorem cl_keep {s x y : List α} {c : α} (h : Cl s x y) (hk : x <:+ s ++ [c] → y <:+ s ++ [c]) : Cl (s ++ [c]) x y := by
  refine ⟨inf_mono c h.1, can_mono c h.2.1, h.2.2.1, fun t t1 t2 => ?_⟩
  rcases pre_cases t1 with e | e
  · exact h.2.2.2 t e t2
  · subst e; exact hk t2

theorem cl_split {s x y z : List α} {c : α} (hz : Lng s c z) (h : Cl s x y) (h1 : x <:+ s ++ [c]) (h2 : ¬ y <:+ s ++ [c]) :
    x <:+ z ∧ Cl s z y ∧ Cl (s ++ [c]) x z := by
  have hxz := suf_le h1 hz.1 (hz.2.2 x h1 h.1)
  obtain ⟨t, t1, t2⟩ := occ_of hz.2.1
  have hy := h.2.2.2 t t1 (hxz.trans t2)
  have hzy : z <:+ y := by
    rcases Nat.le_total y.length z.length with hl | hl
    · exact absurd ((suf_le hy t2 hl).trans hz.1) h2
    · exact suf_le t2 hy hl
  refine ⟨hxz, cl_between h hxz hzy, inf_mono c h.1, can_lng hz, hxz, fun t t1 t2 => ?_⟩
  rcases pre_cases t1 with e | e
  · exact hzy.trans (h.2.2.2 t e t2)
  · rw [e]; exact hz.1

/-- The longest suffix exists; without its last symbol it is canonical. -/
theorem lng_exists (s : List α) (c : α) : ∃ z, Lng s c z ∧ (z = [] ∨ ∃ x, z = x ++ [c] ∧ x <:+ s ∧ Can s x) := by
  have hz : ∃ z, Lng s c z := by
    by_contra hcon
    have : ∀ n, ∃ z, z <:+ s ++ [c] ∧ z <:+: s ∧ n ≤ z.length := by
      intro n
      induction n with
      | zero => exact ⟨[], List.nil_suffix, List.nil_infix, Nat.zero_le _⟩
      | succ n ih =>
        obtain ⟨z, z1, z2, z3⟩ := ih
        by_contra hno
        push Not at hno
        refine hcon ⟨z, z1, z2, fun y y1 y2 => ?_⟩
        have := hno y y1 y2
        omega
    obtain ⟨z, z1, z2, z3⟩ := this (s.length + 1)
    have := z2.length_le
    omega
  obtain ⟨z, hz⟩ := hz
  refine ⟨z, hz, ?_⟩
  rcases List.suffix_concat_iff.1 hz.1 with e | ⟨x, e, hx⟩
  · exact Or.inl e
  · right
    refine ⟨x, e, hx, hx.isInfix, fun d => ?_⟩
    obtain ⟨t, t1, t2⟩ := occ_of hz.2.1
    rw [e] at t2
    obtain ⟨r, hr⟩ := t2
    by_cases hd : d :: x <:+ r ++ x
    · refine ⟨s, List.prefix_refl _, hx, fun hd' => ?_⟩
      have h1 : d :: z <:+: s := by
        refine occ_to t1 ?_
        obtain ⟨r', hr'⟩ := hd
        refine ⟨r', ?_⟩
        rw [← hr, e, ← List.append_assoc, ← hr']; simp
      have h2 : d :: z <:+ s ++ [c] := by
        obtain ⟨r', hr'⟩ := hd'
        refine ⟨r', ?_⟩
        rw [← hr', e]; simp
      have := hz.2.2 _ h2 h1
      simp at this; omega
    · refine ⟨r ++ x, ?_, ⟨r, rfl⟩, hd⟩
      refine List.IsPrefix.trans ⟨[c], ?_⟩ t1
      rw [← hr]; simp

theorem suf_snoc {x s : List α} {c e : α} : x ++ [e] <:+ s ++ [c] ↔ e = c ∧ x <:+ s := by
  constructor
  · intro h
    rcases List.suffix_concat_iff.1 h with h | ⟨t, h, ht⟩
    · simp at h
    · have h1 := List.append_inj_left' h rfl
      have h2 := List.append_inj_right' h rfl
      rw [h1]; simp at h2; exact ⟨h2, ht⟩
  · rintro ⟨rfl, r, hr⟩
    exact ⟨r, by rw [← hr]; simp⟩

theorem snoc_suf {x y : List α} {c : α} (h : x <:+ y) : x ++ [c] <:+ y ++ [c] := suf_snoc.2 ⟨rfl, h⟩

/-- An occurrence of `x ++ [e]` is an occurrence of `x` followed by `e`. -/
theorem snoc_occ {s x t : List α} {e : α} (h : t <+: s) (hx : x ++ [e] <:+ t) : ∃ r, t = r ++ [e] ∧ r <+: s ∧ x <:+ r := by
  obtain ⟨a, ha⟩ := hx
  refine ⟨a ++ x, by rw [← ha]; simp, List.IsPrefix.trans ⟨[e], by rw [← ha]; simp⟩ h, ⟨a, rfl⟩⟩

/-- Closures after one more symbol. -/
theorem cl_snoc {s x y u : List α} {e : α} (h : ∀ t, t <+: s → x <:+ t → t ≠ s → y <:+ t) (hxy : x <:+ y)
    (hu : Cl s (y ++ [e]) u) : Cl s (x ++ [e]) u := by
  refine ⟨(snoc_suf hxy).isInfix.trans hu.1, hu.2.1, (snoc_suf hxy).trans hu.2.2.1, fun t t1 t2 => ?_⟩
  obtain ⟨r, e1, r1, r2⟩ := snoc_occ t1 t2
  refine hu.2.2.2 t t1 ?_
  rw [e1]
  refine snoc_suf (h r r1 r2 ?_)
  rintro rfl
  have := t1.length_le
  rw [e1] at this
  simp at this; omega

end SuffixAutomaton
