import Verif.Spec.HornSAT
import Mathlib.Data.Finset.Card
import Mathlib.Order.Interval.Finset.Nat

/-! # HornSAT: proofs -/

namespace HornSAT
open Cxx

/-- The fields describe the clauses. -/
structure Inv (n : Nat) (o : Obj) (cs : List Clause) : Prop where
  sz : o.sz = n
  ans : o.ans.size = n
  lsz : o.ls.size = n
  csz : o.cnt.size = cs.length
  rsz : o.r.size = cs.length
  cnt : ∀ (j : Nat) (c : Clause), cs[j]? = some c → o.cnt[j]? = some (c.lhs.length : Int)
  rr : ∀ (j : Nat) (c : Clause), cs[j]? = some c → o.r[j]? = some (c.rhs, c.val)
  ls : ∀ i, i < n → ∃ l, o.ls[i]? = some l ∧ (∀ (j : Nat) (c : Clause), cs[j]? = some c → l.count j = c.lhs.count i) ∧ ∀ j ∈ l, j < cs.length
  vars : ∀ c ∈ cs, (∀ i ∈ c.lhs, i < n) ∧ c.rhs < n

theorem inv_new (n : Nat) : Inv n (new n) [] := by
  refine ⟨rfl, by simp [new], by simp [new], rfl, rfl, by simp, by simp, ?_, by simp⟩
  intro i hi
  exact ⟨[], by simp [new, hi], by simp, by simp⟩

theorem addClause_tot {n : Nat} {o : Obj} {cs : List Clause} (h : Inv n o cs) (c : Clause) (hl : ∀ i ∈ c.lhs, i < n) (hr : c.rhs < n) :
    Tot (addClause o c.lhs c.rhs c.val) fun o' => Inv n o' (cs ++ [c]) := by
  unfold addClause
  refine Tot.bind (P := fun (ls : Array (List Nat)) => ls.size = n ∧ ∀ i, i < n → ∃ l, ls[i]? = some l ∧ (∀ (j : Nat) (c : Clause), cs[j]? = some c → l.count j = c.lhs.count i) ∧
      l.count cs.length = c.lhs.count i ∧ ∀ j ∈ l, j < cs.length + 1) ?_ ?_
  · refine Tot.forEach (P := fun (done : List Nat) (ls : Array (List Nat)) => ls.size = n ∧ ∀ i, i < n → ∃ l, ls[i]? = some l ∧ (∀ (j : Nat) (c : Clause), cs[j]? = some c → l.count j = c.lhs.count i) ∧
      l.count cs.length = done.count i ∧ ∀ j ∈ l, j < cs.length + 1) ?_ ?_
    · refine ⟨h.lsz, fun i hi => ?_⟩
      obtain ⟨l, h1, h2, h3⟩ := h.ls i hi
      refine ⟨l, h1, h2, ?_, fun j hj => by have := h3 j hj; omega⟩
      rw [List.count_nil, List.count_eq_zero]
      intro hc
      have := h3 _ hc
      omega
    · rintro pre i post ls e ⟨hs, hls⟩
      have hi : i < n := hl i (by rw [e]; simp)
      obtain ⟨l, h1, h2, h3, h4⟩ := hls i hi
      unfold addLs
      rw [rd_some h1, ok_bind, wr_eq (by omega)]
      refine tot_ok.2 ⟨by simpa using hs, fun i' hi' => ?_⟩
      rw [h.csz, get?_set _ _ _ _ (by omega)]
      by_cases e' : i = i'
      · subst e'
        refine ⟨l ++ [cs.length], by rw [if_pos rfl], fun j c hc => ?_, ?_, ?_⟩
        · have : j < cs.length := (List.getElem?_eq_some_iff.1 hc).1
          rw [List.count_append, h2 j c hc, List.count_singleton]
          simp; omega
        · rw [List.count_append, h3, List.count_append]; simp
        · intro j hj
          rcases List.mem_append.1 hj with hj | hj
          · exact h4 j hj
          · simp at hj; omega
      · rw [if_neg e']
        obtain ⟨l', g1, g2, g3, g4⟩ := hls i' hi'
        refine ⟨l', g1, g2, ?_, g4⟩
        rw [g3, List.count_append, List.count_singleton]
        simp [e']
  · rintro ls ⟨hs, hls⟩
    have hget : ∀ j c', (cs ++ [c])[j]? = some c' → cs[j]? = some c' ∨ (j = cs.length ∧ c' = c) := by
      intro j c' hj
      by_cases h1 : j < cs.length
      · rw [List.getElem?_append_left h1] at hj; exact Or.inl hj
      · rw [List.getElem?_append_right (by omega)] at hj
        obtain ⟨h2, h3⟩ := List.getElem?_eq_some_iff.1 hj
        simp only [List.length_cons, List.length_nil] at h2
        refine Or.inr ⟨by omega, ?_⟩
        rw [← h3]; simp
    refine Tot.pure ⟨h.sz, h.ans, hs, by simp [h.csz], by simp [h.rsz], ?_, ?_, ?_, ?_⟩
    · intro j c' hj
      dsimp only
      rcases hget j c' hj with g | ⟨rfl, rfl⟩
      · have := (List.getElem?_eq_some_iff.1 g).1
        rw [Array.getElem?_push, if_neg (by rw [h.csz]; omega)]; exact h.cnt j c' g
      · rw [Array.getElem?_push, if_pos h.csz.symm]
    · intro j c' hj
      dsimp only
      rcases hget j c' hj with g | ⟨rfl, rfl⟩
      · have := (List.getElem?_eq_some_iff.1 g).1
        rw [Array.getElem?_push, if_neg (by rw [h.rsz]; omega)]; exact h.rr j c' g
      · rw [Array.getElem?_push, if_pos h.rsz.symm]
    · intro i hi
      obtain ⟨l, g1, g2, g3, g4⟩ := hls i hi
      refine ⟨l, g1, fun j c' hj => ?_, fun j hj => by have := g4 j hj; simp; omega⟩
      rcases hget j c' hj with g | ⟨rfl, rfl⟩
      · exact g2 j c' g
      · exact g3
    · intro c' hc'
      rcases List.mem_append.1 hc' with g | g
      · exact h.vars c' g
      · rw [List.mem_singleton.1 g]; exact ⟨hl, hr⟩

/-- The number of clauses that have not fired. -/
def pos (c : Array Int) : Nat := ((Finset.range c.size).filter fun j => ∃ x, c[j]? = some x ∧ 0 < x).card

theorem pos_le (c : Array Int) : pos c ≤ c.size := by
  unfold pos
  exact (Finset.card_filter_le _ _).trans (by simp)

theorem pos_dec {c : Array Int} {j : Nat} {x : Int} (hj : c[j]? = some x) :
    pos (c.setIfInBounds j (x - 1)) ≤ pos c ∧ (x - 1 = 0 → pos (c.setIfInBounds j (x - 1)) + 1 ≤ pos c) := by
  have hlt : j < c.size := (Array.getElem?_eq_some_iff.1 hj).1
  have hsub : ((Finset.range (c.setIfInBounds j (x - 1)).size).filter fun k => ∃ y, (c.setIfInBounds j (x - 1))[k]? = some y ∧ 0 < y) ⊆
      (Finset.range c.size).filter fun k => ∃ y, c[k]? = some y ∧ 0 < y := by
    intro k hk
    rw [Finset.mem_filter, Finset.mem_range] at hk ⊢
    obtain ⟨h1, y, h2, h3⟩ := hk
    rw [get?_set _ _ _ _ hlt] at h2
    refine ⟨by simpa using h1, ?_⟩
    by_cases e : j = k
    · subst e
      rw [if_pos rfl] at h2
      cases h2
      exact ⟨x, hj, by omega⟩
    · rw [if_neg e] at h2
      exact ⟨y, h2, h3⟩
  refine ⟨Finset.card_le_card hsub, fun hx => ?_⟩
  refine Finset.card_lt_card ⟨hsub, fun hc => ?_⟩
  have : j ∈ (Finset.range c.size).filter fun k => ∃ y, c[k]? = some y ∧ 0 < y := by
    rw [Finset.mem_filter, Finset.mem_range]
    exact ⟨hlt, x, hj, by omega⟩
  have := hc this
  rw [Finset.mem_filter] at this
  obtain ⟨-, y, h2, h3⟩ := this
  rw [get?_set _ _ _ _ hlt, if_pos rfl] at h2
  cases h2
  omega

/-- The negative heads are not used on the left. -/
def NegFree (cs : List Clause) : Prop := ∀ c ∈ cs, c.val = false → 0 ≤ c.rhs → ∀ c' ∈ cs, c.rhs.toNat ∉ c'.lhs

/-- `μ` satisfies all clauses. -/
def Model (cs : List Clause) (μ : Nat → Bool) : Prop := ∀ c ∈ cs, c.Holds μ

/-- The seen variables. -/
def Seen (s : St) (i : Nat) : Prop := s.seen[i]? = some true

instance (s : St) (i : Nat) : Decidable (Seen s i) := by unfold Seen; infer_instance

/-- The loop invariant. -/
structure LI (n : Nat) (cs : List Clause) (s : St) : Prop where
  ssz : s.seen.size = n
  asz : s.ans.size = n
  csz : s.c.size = cs.length
  c : ∀ (j : Nat) (c : Clause), cs[j]? = some c → s.c[j]? = some ((c.lhs.filter fun i => ¬ Seen s i).length : Int)
  fired : ∀ c ∈ cs, (∀ i ∈ c.lhs, Seen s i) → (c.rhs, c.val) ∈ s.dq ∨ (0 ≤ c.rhs ∧ Seen s c.rhs.toNat ∧ s.ans[c.rhs.toNat]? = some c.val)
  dq : ∀ e ∈ s.dq, e.1 < n ∧ ∃ c ∈ cs, e = (c.rhs, c.val)
  just : NegFree cs → ∀ μ, Model cs μ → (∀ e ∈ s.dq, 0 ≤ e.1 ∧ μ e.1.toNat = e.2) ∧ ∀ i, Seen s i → s.ans[i]? = some (μ i)
  posl : NegFree cs → ∀ i, Seen s i → (∃ c ∈ cs, i ∈ c.lhs) → s.ans[i]? = some true

/-- Failure. -/
def Bad (cs : List Clause) : Prop := NegFree cs → ¬ ∃ μ, Model cs μ

/-- The invariant of the main loop. -/
def Good (n : Nat) (cs : List Clause) : Res → Prop
  | .go s => LI n cs s
  | .fail s => s.ans.size = n ∧ Bad cs

/-- The measure of the main loop. -/
def meas : Res → Nat
  | .go s => s.dq.length + pos s.c + 1
  | .fail _ => 0

theorem visit_tot {n : Nat} {o : Obj} {cs : List Clause} (h : Inv n o cs) {s : St} {e : Int × Bool} {dq : List (Int × Bool)} (hd : s.dq = e :: dq) (l : LI n cs s)
    (h0 : 0 ≤ e.1) (hs : ¬ Seen s e.1.toNat) :
    Tot (visit o s dq e.1.toNat e.2) fun r => Good n cs r ∧ meas r < meas (.go s) := by
  obtain ⟨i, hi⟩ : ∃ i, i = e.1.toNat := ⟨_, rfl⟩
  rw [← hi] at hs ⊢
  have hin : i < n := by have := (l.dq e (by rw [hd]; simp)).1; omega
  unfold visit
  rw [wr_eq (by rw [l.asz]; exact hin), ok_bind, wr_eq (by rw [l.ssz]; exact hin), ok_bind]
  obtain ⟨ll, hl1, hl2, hl3⟩ := h.ls i hin
  rw [rd_some hl1, ok_bind]
  have hseen' : ∀ i', (s.seen.setIfInBounds i true)[i']? = some true ↔ i' = i ∨ Seen s i' := by
    intro i'
    rw [get?_set _ _ _ _ (by rw [l.ssz]; exact hin)]
    unfold Seen
    by_cases e' : i = i'
    · subst e'; simp
    · rw [if_neg e']
      constructor
      · exact Or.inr
      · rintro (h | h)
        · exact absurd h.symm e'
        · exact h
  have hcount : ∀ c ∈ cs, ((c.lhs.filter fun i' => ¬ (i' = i ∨ Seen s i')).length : Int) = (c.lhs.filter fun i' => ¬ Seen s i').length - c.lhs.count i := by
    intro c _
    have : ∀ l : List Nat, ((l.filter fun i' => ¬ Seen s i').length) = (l.filter fun i' => ¬ (i' = i ∨ Seen s i')).length + l.count i := by
      intro l
      induction l with
      | nil => rfl
      | cons a l ih =>
        by_cases ha : a = i
        · subst ha
          simp [hs] at ih ⊢
          omega
        · by_cases hb : Seen s a
          · simp [hb, ha] at ih ⊢
            omega
          · simp [hb, ha] at ih ⊢
            omega
    have := this c.lhs
    omega
  refine Tot.bind (P := fun (t : Array Int × List (Int × Bool)) => t.1.size = cs.length ∧ (∀ (j : Nat) (c : Clause), cs[j]? = some c → t.1[j]? = some ((c.lhs.filter fun i' => ¬ (i' = i ∨ Seen s i')).length : Int)) ∧
      (∀ x ∈ dq, x ∈ t.2) ∧ (∀ x ∈ t.2, x ∈ dq ∨ ∃ c ∈ cs, x = (c.rhs, c.val) ∧ i ∈ c.lhs ∧ ∀ i' ∈ c.lhs, i' = i ∨ Seen s i') ∧
      (∀ c ∈ cs, i ∈ c.lhs → (∀ i' ∈ c.lhs, i' = i ∨ Seen s i') → (c.rhs, c.val) ∈ t.2) ∧ t.2.length + pos t.1 ≤ dq.length + pos s.c) ?_ ?_
  · -- the inner loop
    have base : Tot (forEach ll (s.c, dq) (dec o.r)) fun t => t.1.size = cs.length ∧ (∀ (j : Nat) (c : Clause), cs[j]? = some c → t.1[j]? = some ((c.lhs.filter fun i' => ¬ Seen s i').length - ll.count j : Int)) ∧
        (∀ x ∈ dq, x ∈ t.2) ∧ (∀ x ∈ t.2, x ∈ dq ∨ ∃ j c, cs[j]? = some c ∧ x = (c.rhs, c.val) ∧ j ∈ ll ∧ ((c.lhs.filter fun i' => ¬ Seen s i').length : Int) = ll.count j) ∧
        (∀ (j : Nat) (c : Clause), cs[j]? = some c → j ∈ ll → ((c.lhs.filter fun i' => ¬ Seen s i').length - ll.count j : Int) = 0 → (c.rhs, c.val) ∈ t.2) ∧ t.2.length + pos t.1 ≤ dq.length + pos s.c := by
      refine Tot.forEach (P := fun (done : List Nat) (t : Array Int × List (Int × Bool)) => t.1.size = cs.length ∧ (∀ (j : Nat) (c : Clause), cs[j]? = some c → t.1[j]? = some ((c.lhs.filter fun i' => ¬ Seen s i').length - done.count j : Int)) ∧
        (∀ x ∈ dq, x ∈ t.2) ∧ (∀ x ∈ t.2, x ∈ dq ∨ ∃ j c, cs[j]? = some c ∧ x = (c.rhs, c.val) ∧ j ∈ ll ∧ ((c.lhs.filter fun i' => ¬ Seen s i').length : Int) = ll.count j) ∧
        (∀ (j : Nat) (c : Clause), cs[j]? = some c → j ∈ done → ((c.lhs.filter fun i' => ¬ Seen s i').length - done.count j : Int) = 0 → (c.rhs, c.val) ∈ t.2) ∧ t.2.length + pos t.1 ≤ dq.length + pos s.c) ?_ ?_
      · refine ⟨l.csz, fun j c hc => ?_, fun x hx => hx, fun x hx => Or.inl hx, fun j c _ hj => absurd hj (by simp), le_rfl⟩
        dsimp only
        rw [l.c j c hc]; simp
      · rintro pre j post ⟨c, q⟩ hll ⟨g1, g2, g3, g4, g5, g6⟩
        dsimp only at g1 g2 g3 g4 g5 g6
        have hj : j < cs.length := hl3 j (by rw [hll]; simp)
        obtain ⟨cl, hcl⟩ : ∃ cl, cs[j]? = some cl := ⟨_, List.getElem?_eq_getElem hj⟩
        have hx := g2 j cl hcl
        have hcj : j < c.size := by omega
        have hle : (ll.count j : Int) ≤ (cl.lhs.filter fun i' => ¬ Seen s i').length := by
          rw [hl2 j cl hcl]
          have := hcount cl (List.mem_of_getElem? hcl)
          omega
        have hcnt : ll.count j = pre.count j + 1 + post.count j := by
          rw [hll, List.count_append, List.count_cons_self]; omega
        unfold dec
        dsimp only
        rw [rd_some hx, ok_bind, wr_eq hcj, ok_bind]
        have hset : ∀ j' c', cs[j']? = some c' → (c.setIfInBounds j ((cl.lhs.filter fun i' => ¬ Seen s i').length - pre.count j - 1 : Int))[j']? =
            some ((c'.lhs.filter fun i' => ¬ Seen s i').length - (pre ++ [j]).count j' : Int) := by
          intro j' c' hc'
          rw [get?_set _ _ _ _ hcj, List.count_append, List.count_singleton]
          by_cases e' : j = j'
          · subst e'
            rw [hcl] at hc'; cases hc'
            simp; omega
          · rw [if_neg e', g2 j' c' hc']
            simp [e']
        have hpd := pos_dec hx
        have hstay : ∀ j' c', cs[j']? = some c' → j' ∈ pre ++ [j] → ((c'.lhs.filter fun i' => ¬ Seen s i').length - (pre ++ [j]).count j' : Int) = 0 →
            (c'.rhs, c'.val) ∈ q ∨ (j' = j ∧ c' = cl ∧ ((cl.lhs.filter fun i' => ¬ Seen s i').length - pre.count j - 1 : Int) = 0) := by
          intro j' c' hc' hm hz
          rw [List.count_append, List.count_singleton] at hz
          by_cases e' : j = j'
          · subst e'
            rw [hcl] at hc'; cases hc'
            refine Or.inr ⟨rfl, rfl, ?_⟩
            simp at hz
            simp; omega
          · simp [e'] at hz
            refine Or.inl (g5 j' c' hc' ?_ (by simp; omega))
            rcases List.mem_append.1 hm with h | h
            · exact h
            · exact absurd (List.mem_singleton.1 h).symm e'
        by_cases hz : ((cl.lhs.filter fun i' => ¬ Seen s i').length - pre.count j - 1 : Int) = 0
        · rw [if_pos hz, rd_some (h.rr j cl hcl), ok_bind]
          refine Tot.pure ⟨by simpa using g1, hset, fun x hx => ?_, fun x hx => ?_, fun j' c' hc' hm hz' => ?_, ?_⟩
          · exact List.mem_append_left _ (g3 x hx)
          · rcases List.mem_append.1 hx with hx | hx
            · exact g4 x hx
            · refine Or.inr ⟨j, cl, hcl, List.mem_singleton.1 hx, by rw [hll]; simp, ?_⟩
              omega
          · rcases hstay j' c' hc' hm hz' with h | ⟨rfl, rfl, -⟩
            · exact List.mem_append_left _ h
            · exact List.mem_append_right _ (by simp)
          · have := hpd.2 hz
            simp only [List.length_append, List.length_cons, List.length_nil]
            omega
        · rw [if_neg hz]
          refine Tot.pure ⟨by simpa using g1, hset, g3, g4, fun j' c' hc' hm hz' => ?_, ?_⟩
          · rcases hstay j' c' hc' hm hz' with h | ⟨-, -, h⟩
            · exact h
            · exact absurd h hz
          · have := hpd.1
            dsimp only
            omega
    refine base.mono ?_
    rintro ⟨c, q⟩ ⟨g1, g2, g3, g4, g5, g6⟩
    dsimp only at g1 g2 g3 g4 g5 g6
    have all_iff : ∀ c ∈ cs, (∀ i' ∈ c.lhs, i' = i ∨ Seen s i') ↔ ((c.lhs.filter fun i' => ¬ (i' = i ∨ Seen s i')).length : Int) = 0 := by
      intro c _
      rw [Int.natCast_eq_zero, List.length_eq_zero_iff, List.filter_eq_nil_iff]
      constructor
      · intro h i' hi'; rw [decide_eq_true_iff]; exact fun hc => hc (h i' hi')
      · intro h i' hi'; have := h i' hi'; rw [decide_eq_true_iff] at this; exact not_not.1 this
    refine ⟨g1, fun j cl hcl => ?_, g3, fun x hx => ?_, fun cl hcl him hall => ?_, g6⟩
    · dsimp only
      rw [g2 j cl hcl, hcount cl (List.mem_of_getElem? hcl), hl2 j cl hcl]
    · rcases g4 x hx with h | ⟨j, cl, hcl, e1, e2, e3⟩
      · exact Or.inl h
      · have hm := List.mem_of_getElem? hcl
        refine Or.inr ⟨cl, hm, e1, ?_, (all_iff cl hm).2 ?_⟩
        · rw [← List.count_pos_iff, ← hl2 j cl hcl, List.count_pos_iff]; exact e2
        · rw [hcount cl hm, e3, hl2 j cl hcl]; omega
    · obtain ⟨j, hj, hjj⟩ := List.mem_iff_getElem.1 hcl
      have hcl' : cs[j]? = some cl := by rw [List.getElem?_eq_getElem hj, hjj]
      refine g5 j cl hcl' ?_ ?_
      · rw [← List.count_pos_iff, hl2 j cl hcl', List.count_pos_iff]; exact him
      · rw [hl2 j cl hcl', ← hcount cl hcl]; exact (all_iff cl hcl).1 hall
  · rintro ⟨c, q⟩ ⟨g1, g2, g3, g4, g5, g6⟩
    dsimp only at g1 g2 g3 g4 g5 g6 ⊢
    have hget : ∀ i', (s.ans.setIfInBounds i e.2)[i']? = if i = i' then some e.2 else s.ans[i']? := fun i' => get?_set _ _ _ _ (by rw [l.asz]; exact hin)
    have hS : ∀ i', Seen (⟨q, c, s.seen.setIfInBounds i true, s.ans.setIfInBounds i e.2⟩ : St) i' ↔ i' = i ∨ Seen s i' := hseen'
    obtain ⟨hen, ec, hec, heq⟩ := l.dq e (by rw [hd]; simp)
    refine Tot.pure ⟨⟨by simpa using l.ssz, by simpa using l.asz, g1, ?_, ?_, ?_, ?_, ?_⟩, ?_⟩
    · intro j cl hcl
      dsimp only
      rw [g2 j cl hcl]
      congr 3
      refine List.filter_congr fun i' _ => ?_
      simp only [hS]
    · intro cl hcl hall
      dsimp only
      have hall' : ∀ i' ∈ cl.lhs, i' = i ∨ Seen s i' := fun i' hi' => (hS i').1 (hall i' hi')
      by_cases him : i ∈ cl.lhs
      · exact Or.inl (g5 cl hcl him hall')
      · have hall'' : ∀ i' ∈ cl.lhs, Seen s i' := fun i' hi' => (hall' i' hi').resolve_left (by rintro rfl; exact him hi')
        rcases l.fired cl hcl hall'' with h | ⟨h1, h2, h3⟩
        · rw [hd] at h
          rcases List.mem_cons.1 h with h | h
          · refine Or.inr ?_
            have e1 : e.1 = cl.rhs := by rw [← h]
            have e2 : e.2 = cl.val := by rw [← h]
            refine ⟨by omega, (hS _).2 (Or.inl (by rw [hi, e1])), ?_⟩
            rw [hget, if_pos (by rw [hi, e1]), e2]
          · exact Or.inl (g3 _ h)
        · refine Or.inr ⟨h1, (hS _).2 (Or.inr h2), ?_⟩
          rw [hget, if_neg (by rintro rfl; exact hs h2)]
          exact h3
    · intro x hx
      rcases g4 x hx with h | ⟨cl, hcl, e1, -, -⟩
      · exact l.dq x (by rw [hd]; exact List.mem_cons_of_mem _ h)
      · exact ⟨by rw [e1]; exact (h.vars cl hcl).2, cl, hcl, e1⟩
    · intro hnf μ hμ
      obtain ⟨j1, j2⟩ := l.just hnf μ hμ
      have hei := j1 e (by rw [hd]; simp)
      have hseen : ∀ i', i' = i ∨ Seen s i' → (s.ans.setIfInBounds i e.2)[i']? = some (μ i') := by
        intro i' hi'
        rw [hget]
        by_cases e' : i = i'
        · subst e'
          rw [if_pos rfl, ← hei.2, hi]
        · rw [if_neg e']
          exact j2 i' (hi'.resolve_left (Ne.symm e'))
      refine ⟨?_, fun i' hi' => hseen i' ((hS i').1 hi')⟩
      intro x hx
      rcases g4 x hx with h | ⟨cl, hcl, e1, e2, e3⟩
      · exact j1 x (by rw [hd]; exact List.mem_cons_of_mem _ h)
      · have hh := hμ cl hcl ?_
        · rw [e1]; exact hh
        · intro i' hi'
          by_cases e' : i' = i
          · subst e'
            have : e.2 = true := by
              cases he2 : e.2 with
              | true => rfl
              | false =>
                have h1 : ec.val = false := by rw [← he2, heq]
                have h2 : ec.rhs = e.1 := by rw [heq]
                exact absurd hi' (by rw [hi, ← h2]; exact hnf ec hec h1 (by omega) cl hcl)
            rw [hi, hei.2, this]
          · have h1 := (e3 i' hi').resolve_left e'
            have h2 := l.posl hnf i' h1 ⟨cl, hcl, hi'⟩
            have h3 := j2 i' h1
            rw [h2] at h3
            cases hm : μ i' with
            | true => rfl
            | false => rw [hm] at h3; cases h3
    · intro hnf i' hi' hex
      dsimp only
      rw [hget]
      by_cases e' : i = i'
      · subst e'
        rw [if_pos rfl]
        cases he2 : e.2 with
        | true => rfl
        | false =>
          obtain ⟨cl, hcl, him⟩ := hex
          have h1 : ec.val = false := by rw [← he2, heq]
          have h2 : ec.rhs = e.1 := by rw [heq]
          exact absurd him (by rw [hi, ← h2]; exact hnf ec hec h1 (by omega) cl hcl)
      · rw [if_neg e']
        exact l.posl hnf i' (((hS i').1 hi').resolve_left (Ne.symm e')) hex
    · simp only [meas]
      rw [hd]
      simp only [List.length_cons]
      omega

/-- What a round does. -/
def Post (n : Nat) (cs : List Clause) (r : Res) : Option Res → Prop
  | none => (∀ s, r = .go s → s.dq = []) ∧ Good n cs r
  | some r' => Good n cs r' ∧ meas r' < meas r

theorem round_tot {n : Nat} {o : Obj} {cs : List Clause} (h : Inv n o cs) (r : Res) (g : Good n cs r) :
    Tot (round o r) (Post n cs r) := by
  cases r with
  | fail s => exact Tot.pure (a := none) ⟨fun s h => (by cases h), g⟩
  | go s =>
    have l : LI n cs s := g
    unfold round
    dsimp only
    cases hd : s.dq with
    | nil => exact Tot.pure (a := none) ⟨fun s' h => (by cases h; exact hd), g⟩
    | cons e dq =>
      dsimp only
      obtain ⟨hen, ec, hec, heq⟩ := l.dq e (by rw [hd]; simp)
      refine Tot.bind (P := fun r' => Good n cs r' ∧ meas r' < meas (.go s)) ?_ (fun r' hr' => Tot.pure hr')
      unfold body
      rw [h.sz, show check (decide (e.1 < (n : Int))) = .ok () by rw [decide_eq_true hen]; rfl, ok_bind]
      by_cases h0 : e.1 < 0
      · rw [if_pos h0]
        refine Tot.pure ⟨⟨l.asz, fun hnf hex => ?_⟩, by simp [meas]⟩
        obtain ⟨μ, hμ⟩ := hex
        have := ((l.just hnf μ hμ).1 e (by rw [hd]; simp)).1
        omega
      · rw [if_neg h0]
        have hin : e.1.toNat < n := by omega
        obtain ⟨b, hb⟩ : ∃ b, s.seen[e.1.toNat]? = some b := ⟨_, Array.getElem?_eq_getElem (by rw [l.ssz]; exact hin)⟩
        rw [rd_some hb, ok_bind]
        cases b with
        | false =>
          simp only [Bool.not_false, if_true]
          exact visit_tot h hd l (by omega) (by unfold Seen; rw [hb]; simp)
        | true =>
          simp only [Bool.not_true, Bool.false_eq_true, if_false]
          unfold recheck
          obtain ⟨a, ha⟩ : ∃ a, s.ans[e.1.toNat]? = some a := ⟨_, Array.getElem?_eq_getElem (by rw [l.asz]; exact hin)⟩
          rw [rd_some ha, ok_bind]
          by_cases hva : e.2 ≠ a
          · rw [if_pos hva]
            refine Tot.pure ⟨⟨l.asz, fun hnf hex => ?_⟩, by simp [meas]⟩
            obtain ⟨μ, hμ⟩ := hex
            obtain ⟨j1, j2⟩ := l.just hnf μ hμ
            have h1 := (j1 e (by rw [hd]; simp)).2
            have h2 := j2 _ hb
            rw [ha] at h2
            cases h2
            exact hva h1.symm
          · rw [if_neg hva]
            have hva : e.2 = a := by simpa using hva
            refine Tot.pure ⟨⟨l.ssz, l.asz, l.csz, l.c, ?_, ?_, ?_, l.posl⟩, by simp [meas, hd]⟩
            · intro cl hcl hall
              rcases l.fired cl hcl hall with h | h
              · rw [hd] at h
                rcases List.mem_cons.1 h with h | h
                · refine Or.inr ?_
                  have e1 : e.1 = cl.rhs := by rw [← h]
                  have e2 : e.2 = cl.val := by rw [← h]
                  rw [← e1, ← e2]
                  exact ⟨by omega, hb, by rw [hva]; exact ha⟩
                · exact Or.inl h
              · exact Or.inr h
            · intro x hx
              exact l.dq x (by rw [hd]; exact List.mem_cons_of_mem _ hx)
            · intro hnf μ hμ
              obtain ⟨j1, j2⟩ := l.just hnf μ hμ
              exact ⟨fun x hx => j1 x (by rw [hd]; exact List.mem_cons_of_mem _ hx), j2⟩

theorem satisfiable_tot {n : Nat} {o : Obj} {cs : List Clause} (h : Inv n o cs) :
    Tot (satisfiable o) fun r => Inv n r.1 cs ∧ r.1.hasAnswer = r.2 ∧
      (r.2 = true → Model cs fun i => r.1.ans.getD i false) ∧ (r.2 = false → Bad cs) := by
  unfold satisfiable
  refine Tot.bind (P := fun (dq : List (Int × Bool)) => (∀ e ∈ dq, ∃ c ∈ cs, e = (c.rhs, c.val) ∧ c.lhs = []) ∧ (∀ c ∈ cs, c.lhs = [] → (c.rhs, c.val) ∈ dq) ∧ dq.length ≤ cs.length) ?_ ?_
  · refine (Tot.forUp (P := fun j (dq : List (Int × Bool)) => (∀ e ∈ dq, ∃ c ∈ cs, e = (c.rhs, c.val) ∧ c.lhs = []) ∧ (∀ (j' : Nat) (c : Clause), j' < j → cs[j']? = some c → c.lhs = [] → (c.rhs, c.val) ∈ dq) ∧ dq.length ≤ j)
      (Nat.zero_le _) ⟨by simp, by simp, by simp⟩ ?_).mono ?_
    · rintro j dq - hj ⟨g1, g2, g3⟩
      rw [h.rsz] at hj
      obtain ⟨c, hc⟩ : ∃ c, cs[j]? = some c := ⟨_, List.getElem?_eq_getElem hj⟩
      unfold pushInit
      rw [rd_some (h.cnt j c hc), ok_bind]
      by_cases hz : (c.lhs.length : Int) = 0
      · rw [if_pos hz, rd_some (h.rr j c hc), ok_bind]
        refine Tot.pure ⟨fun e he => ?_, fun j' c' hj' hc' hl => ?_, by simp; omega⟩
        · rcases List.mem_append.1 he with he | he
          · exact g1 e he
          · exact ⟨c, List.mem_of_getElem? hc, List.mem_singleton.1 he, List.length_eq_zero_iff.1 (by omega)⟩
        · by_cases e' : j' = j
          · subst e'; rw [hc] at hc'; cases hc'; simp
          · exact List.mem_append_left _ (g2 j' c' (by omega) hc' hl)
      · rw [if_neg hz]
        refine Tot.pure ⟨g1, fun j' c' hj' hc' hl => ?_, by omega⟩
        by_cases e' : j' = j
        · subst e'; rw [hc] at hc'; cases hc'; rw [hl] at hz; simp at hz
        · exact g2 j' c' (by omega) hc' hl
    · rintro dq ⟨g1, g2, g3⟩
      refine ⟨g1, fun c hc hl => ?_, by rw [h.rsz] at g3; exact g3⟩
      obtain ⟨j, hj, hjj⟩ := List.mem_iff_getElem.1 hc
      exact g2 j c (by rw [h.rsz]; exact hj) (by rw [List.getElem?_eq_getElem hj, hjj]) hl
  · rintro dq ⟨d1, d2, d3⟩
    have hns : ∀ i, ¬ Seen (⟨dq, o.cnt, Array.replicate o.sz false, o.ans⟩ : St) i := by
      intro i hi
      unfold Seen at hi
      dsimp only at hi
      rw [Array.getElem?_replicate] at hi
      split at hi <;> simp at hi
    have l0 : LI n cs ⟨dq, o.cnt, Array.replicate o.sz false, o.ans⟩ := by
      refine ⟨by simp [h.sz], h.ans, h.csz, ?_, ?_, ?_, ?_, ?_⟩
      · intro j c hc
        dsimp only
        rw [h.cnt j c hc]
        congr 3
        symm
        rw [List.filter_eq_self]
        intro i _
        simpa using hns i
      · intro c hc hall
        refine Or.inl (d2 c hc ?_)
        rw [List.eq_nil_iff_forall_not_mem]
        intro i hi
        exact hns i (hall i hi)
      · intro e he
        obtain ⟨c, hc, e1, -⟩ := d1 e he
        exact ⟨by rw [e1]; exact (h.vars c hc).2, c, hc, e1⟩
      · intro hnf μ hμ
        refine ⟨fun e he => ?_, fun i hi => absurd hi (hns i)⟩
        obtain ⟨c, hc, e1, e2⟩ := d1 e he
        rw [e1]
        exact hμ c hc (by rw [e2]; simp)
      · intro _ i hi
        exact absurd hi (hns i)
    refine Tot.bind (P := fun r => (∀ s, r = .go s → s.dq = []) ∧ Good n cs r) ?_ ?_
    · refine Tot.loop (P := Good n cs) meas (fun r g => (round_tot h r g).mono (by rintro (_ | r') hp <;> exact hp)) l0 ?_
      have := pos_le o.cnt
      rw [h.csz] at this
      rw [h.rsz]
      simp only [meas]
      omega
    · rintro r ⟨r1, g⟩
      cases r with
      | fail s =>
        obtain ⟨g1, g2⟩ := g
        exact Tot.pure ⟨⟨h.sz, g1, h.lsz, h.csz, h.rsz, h.cnt, h.rr, h.ls, h.vars⟩, rfl, fun hc => (by cases hc), fun _ => g2⟩
      | go s =>
        have l : LI n cs s := g
        have hdq := r1 s rfl
        unfold finish
        refine Tot.bind (P := fun (a : Array Bool) => a.size = n ∧ ∀ i, i < n → (Seen s i → a[i]? = s.ans[i]?) ∧ (¬ Seen s i → a[i]? = some false)) ?_ ?_
        · rw [h.sz]
          refine (Tot.forUp (P := fun k (a : Array Bool) => a.size = n ∧ (∀ i, (Seen s i ∨ k ≤ i) → a[i]? = s.ans[i]?) ∧ ∀ i, i < k → ¬ Seen s i → a[i]? = some false)
            (Nat.zero_le _) ⟨l.asz, fun _ _ => rfl, fun i hi => absurd hi (Nat.not_lt_zero _)⟩ ?_).mono ?_
          · rintro k a - hk ⟨g1, g2, g3⟩
            unfold clear
            obtain ⟨b, hb⟩ : ∃ b, s.seen[k]? = some b := ⟨_, Array.getElem?_eq_getElem (by rw [l.ssz]; exact hk)⟩
            rw [rd_some hb, ok_bind]
            cases b with
            | false =>
              simp only [Bool.not_false, if_true]
              rw [wr_eq (by omega)]
              refine tot_ok.2 ⟨by simpa using g1, fun i hi => ?_, fun i hi hs => ?_⟩
              · rw [get?_set _ _ _ _ (by omega), if_neg]
                · exact g2 i (by rcases hi with h | h; exact Or.inl h; exact Or.inr (by omega))
                · rintro rfl
                  rcases hi with h | h
                  · unfold Seen at h; rw [hb] at h; cases h
                  · omega
              · rw [get?_set _ _ _ _ (by omega)]
                by_cases e' : k = i
                · rw [if_pos e']
                · rw [if_neg e']; exact g3 i (by omega) hs
            | true =>
              simp only [Bool.not_true, Bool.false_eq_true, if_false]
              refine Tot.pure ⟨g1, fun i hi => g2 i (by rcases hi with h | h; exact Or.inl h; exact Or.inr (by omega)), fun i hi hs => ?_⟩
              refine g3 i ?_ hs
              rcases Nat.lt_or_ge i k with h | h
              · exact h
              · obtain rfl : i = k := by omega
                exact absurd hb hs
          · rintro a ⟨g1, g2, g3⟩
            exact ⟨g1, fun i hi => ⟨fun hs => g2 i (Or.inl hs), fun hs => g3 i hi hs⟩⟩
        · rintro a ⟨a1, a2⟩
          refine Tot.pure ⟨⟨h.sz, a1, h.lsz, h.csz, h.rsz, h.cnt, h.rr, h.ls, h.vars⟩, rfl, fun _ => ?_, fun hc => by cases hc⟩
          intro c hc hall
          obtain ⟨v1, v2⟩ := h.vars c hc
          dsimp only at hall ⊢
          have hseen : ∀ i ∈ c.lhs, Seen s i := by
            intro i hi
            by_contra hns
            have h1 := hall i hi
            have h2 := (a2 i (v1 i hi)).2 hns
            rw [Array.getD_eq_getD_getElem?, h2] at h1
            cases h1
          rcases l.fired c hc hseen with h1 | ⟨h1, h2, h3⟩
          · rw [hdq] at h1; cases h1
          · refine ⟨h1, ?_⟩
            have := (a2 c.rhs.toNat (by omega)).1 h2
            rw [Array.getD_eq_getD_getElem?, this, h3]; rfl

theorem reach_inv {n : Nat} {o : Obj} {cs : List Clause} (r : Reach n o cs) : Inv n o cs := by
  induction r with
  | new => exact inv_new n
  | add c _ h1 h2 h3 ih =>
    obtain ⟨o', e, hi⟩ := addClause_tot ih c h1 h2
    rw [e] at h3; cases h3
    exact hi
  | sat _ h ih =>
    obtain ⟨r', e, hi, -⟩ := satisfiable_tot ih
    rw [e] at h; cases h
    exact hi

end HornSAT
