import Verif.Model.MinMaxFloyd
import Verif.Proof.FunctionalGraph
import Verif.Proof.SubsetIter
import Mathlib.Data.Finset.Card
import Mathlib.Data.Finset.Prod
import Mathlib.Logic.Relation

/-! # Incremental transitive closure on bit matrices -/

namespace MinMaxFloyd
open Cxx FunctionalGraph

variable {α : Type}

/-- Number of words per row. -/
abbrev words (n : Nat) : Nat := (n + 64 - 1) >>> 6

theorem words_eq (n : Nat) : words n = (n + 63) / 64 := by
  unfold words
  rw [Nat.shiftRight_eq_div_pow]
  rfl

/-- A bit matrix stores the relation `g`. -/
def Bits (n : Nat) (t : Array (Array Nat)) (g : Nat → Nat → Prop) : Prop :=
  Shape (words n) n t ∧ ∀ u, u < n → ∀ i, i < words n → ∃ w, rd2 t u i = .ok w ∧ w < 2 ^ 64 ∧ ∀ j, j < 64 → (w.testBit j = true ↔ g u (64 * i + j))

/-- The state represents the relation `g` and the result values `R`. -/
structure Rep (n : Nat) (s : St α) (g : Nat → Nat → Prop) (R : Nat → Nat → α) : Prop where
  inr : ∀ u v, g u v → u < n ∧ v < n
  fw : Bits n s.G g
  bw : Bits n s.rG fun v u => g u v
  shape : Shape n n s.res
  res : ∀ u v, u < n → v < n → rd2 s.res u v = .ok (R u v)

/-- Adding one pair. -/
def ins (g : Nat → Nat → Prop) (u v : Nat) : Nat → Nat → Prop := fun a b => g a b ∨ (a = u ∧ b = v)

open Classical in
/-- Setting one result. -/
noncomputable def upd (R : Nat → Nat → α) (u v : Nat) (c : α) : Nat → Nat → α := fun a b => if a = u ∧ b = v then c else R a b

theorem bits_set {n : Nat} {t : Array (Array Nat)} {g : Nat → Nat → Prop} (h : Bits n t g) {u v : Nat} (hu : u < n) (hv : v < n) {x : Nat} (hx : rd2 t u (v >>> 6) = .ok x) :
    Tot (wr2 t u (v >>> 6) (x ||| 1 <<< (v &&& 63))) fun t' => Bits n t' (ins g u v) := by
  have hw : v >>> 6 = v / 64 := Nat.shiftRight_eq_div_pow v 6
  have hm : v &&& 63 = v % 64 := Nat.and_two_pow_sub_one_eq_mod v 6
  have hvi : v / 64 < words n := by rw [words_eq]; omega
  rw [hw] at hx ⊢
  rw [hm]
  obtain ⟨w, hw1, hw2, hw3⟩ := h.2 u hu (v / 64) hvi
  rw [hx] at hw1
  cases hw1
  refine (wr2_tot h.1 hu hvi _).mono fun t' ⟨h1, h2⟩ => ⟨h1, fun a ha i hi => ?_⟩
  rw [h2]
  split
  · next he =>
    obtain ⟨rfl, rfl⟩ := he
    refine ⟨_, rfl, Nat.or_lt_two_pow hw2 ?_, fun j hj => ?_⟩
    · rw [Nat.one_shiftLeft]
      exact Nat.pow_lt_pow_right (by omega) (by omega)
    · rw [Nat.testBit_or, Bool.or_eq_true, hw3 j hj, Nat.one_shiftLeft, Nat.testBit_two_pow]
      unfold ins
      rw [decide_eq_true_iff]
      constructor
      · rintro (h | h)
        · exact Or.inl h
        · exact Or.inr ⟨rfl, by omega⟩
      · rintro (h | h)
        · exact Or.inl h
        · exact Or.inr (by omega)
  · next he =>
    obtain ⟨w', k1, k2, k3⟩ := h.2 a ha i hi
    refine ⟨w', k1, k2, fun j hj => ?_⟩
    rw [k3 j hj]
    unfold ins
    constructor
    · exact Or.inl
    · rintro (h | ⟨h1, h2⟩)
      · exact h
      · exact absurd ⟨h1, by omega⟩ he

theorem addEdge_tot {n : Nat} {s : St α} {g : Nat → Nat → Prop} {R : Nat → Nat → α} (h : Rep n s g R) (c : α) {u v : Nat} (hu : u < n) (hv : v < n) :
    Tot (addEdge c u v s) fun q => (g u v ∧ q = (s, false)) ∨ (¬ g u v ∧ q.2 = true ∧ Rep n q.1 (ins g u v) (upd R u v c)) := by
  have hw : v >>> 6 = v / 64 := Nat.shiftRight_eq_div_pow v 6
  have hm : v &&& 63 = v % 64 := Nat.and_two_pow_sub_one_eq_mod v 6
  have hvi : v / 64 < words n := by rw [words_eq]; omega
  have hui : u / 64 < words n := by rw [words_eq]; omega
  obtain ⟨w, hw1, hw2, hw3⟩ := h.fw.2 u hu (v / 64) hvi
  have hbit : ((w >>> (v &&& 63)) &&& 1 = 1) ↔ g u v := by
    have h1 := hw3 (v % 64) (Nat.mod_lt _ (by omega))
    rw [show 64 * (v / 64) + v % 64 = v by omega] at h1
    rw [← h1, hm, Nat.and_one_is_mod]
    unfold Nat.testBit
    rw [Nat.and_comm, Nat.and_one_is_mod, bne_iff_ne]
    omega
  unfold addEdge
  rw [hw, hw1, ok_bind]
  split
  · next hc => exact Tot.pure (Or.inl ⟨hbit.1 hc, rfl⟩)
  · next hc =>
    refine Tot.bind (wr2_tot h.shape hu hv c) fun res ⟨r1, r2⟩ => ?_
    refine Tot.bind (P := fun t' => Bits n t' (ins g u v)) ?_ fun G hG => ?_
    · have := bits_set h.fw hu hv (x := w) (by rw [hw]; exact hw1)
      rwa [hw] at this
    · obtain ⟨y, hy1, hy2, hy3⟩ := h.bw.2 v hv (u / 64) hui
      have hw' : u >>> 6 = u / 64 := Nat.shiftRight_eq_div_pow u 6
      rw [hw', hy1, ok_bind]
      refine Tot.bind (P := fun t' => Bits n t' (ins (fun v u => g u v) v u)) ?_ fun rG hrG => ?_
      · have := bits_set h.bw hv hu (x := y) (by rw [hw']; exact hy1)
        rwa [hw'] at this
      · refine Tot.pure (Or.inr ⟨fun hg => hc (hbit.2 hg), rfl, ?_, hG, ?_, r1, fun a b ha hb => ?_⟩)
        · rintro a b (hg | ⟨rfl, rfl⟩)
          · exact h.inr a b hg
          · exact ⟨hu, hv⟩
        · have : (fun v_1 u_1 => ins g u v u_1 v_1) = ins (fun v u => g u v) v u := by
            funext a b
            unfold ins
            rw [and_comm]
          rw [this]
          exact hrG
        · rw [r2]
          unfold upd
          split
          · rfl
          · exact h.res a b ha hb

/-- Triples that still have to be closed. -/
abbrev Obl := Nat → Nat → Nat → Prop

/-- Transitive up to the obligations. -/
def Cl (Ob : Obl) (g : Nat → Nat → Prop) : Prop := ∀ a b c, g a b → g b c → g a c ∨ Ob a b c

/-- The obligations of a new pair. -/
def legs (u v : Nat) : Obl := fun a b c => (a = u ∧ b = v) ∨ (b = u ∧ c = v)

open Classical in
/-- Number of missing pairs. -/
noncomputable def missing (n : Nat) (g : Nat → Nat → Prop) : Nat := ((Finset.range n ×ˢ Finset.range n).filter fun p => ¬ g p.1 p.2).card

theorem missing_mono {n : Nat} {g g' : Nat → Nat → Prop} (h : ∀ a b, g a b → g' a b) : missing n g' ≤ missing n g := by
  classical
  unfold missing
  refine Finset.card_le_card fun p hp => ?_
  rw [Finset.mem_filter] at hp ⊢
  exact ⟨hp.1, fun hc => hp.2 (h _ _ hc)⟩

theorem missing_lt {n : Nat} {g g' : Nat → Nat → Prop} (h : ∀ a b, g a b → g' a b) {u v : Nat} (hu : u < n) (hv : v < n) (h1 : ¬ g u v) (h2 : g' u v) : missing n g' < missing n g := by
  classical
  unfold missing
  refine Finset.card_lt_card (Finset.ssubset_iff_subset_ne.2 ⟨fun p hp => ?_, fun he => ?_⟩)
  · rw [Finset.mem_filter] at hp ⊢
    exact ⟨hp.1, fun hc => hp.2 (h _ _ hc)⟩
  · have : (u, v) ∈ (Finset.range n ×ˢ Finset.range n).filter fun p => ¬ g p.1 p.2 := by
      rw [Finset.mem_filter, Finset.mem_product, Finset.mem_range, Finset.mem_range]
      exact ⟨⟨hu, hv⟩, h1⟩
    rw [← he, Finset.mem_filter] at this
    exact this.2 h2

theorem missing_le (n : Nat) (g : Nat → Nat → Prop) : missing n g ≤ n * n := by
  classical
  unfold missing
  calc _ ≤ (Finset.range n ×ˢ Finset.range n).card := Finset.card_filter_le _ _
    _ = n * n := by rw [Finset.card_product, Finset.card_range]

/-- From `(g, R)` to `(g', R')` new pairs were added with result `c`, all within `X`. -/
structure Ext (X : Nat → Nat → Prop) (c : α) (g : Nat → Nat → Prop) (R : Nat → Nat → α) (g' : Nat → Nat → Prop) (R' : Nat → Nat → α) : Prop where
  mono : ∀ a b, g a b → g' a b
  within : ∀ a b, g' a b → X a b
  old : ∀ a b, g a b → R' a b = R a b
  new : ∀ a b, g' a b → ¬ g a b → R' a b = c

theorem Ext.refl {X : Nat → Nat → Prop} {c : α} {g : Nat → Nat → Prop} {R : Nat → Nat → α} (h : ∀ a b, g a b → X a b) : Ext X c g R g R :=
  ⟨fun _ _ h => h, h, fun _ _ _ => rfl, fun _ _ h h' => absurd h h'⟩

theorem Ext.trans {X : Nat → Nat → Prop} {c : α} {g g' g'' : Nat → Nat → Prop} {R R' R'' : Nat → Nat → α} (h : Ext X c g R g' R') (h' : Ext X c g' R' g'' R'') : Ext X c g R g'' R'' := by
  refine ⟨fun a b hab => h'.mono a b (h.mono a b hab), h'.within, fun a b hab => (h'.old a b (h.mono a b hab)).trans (h.old a b hab), fun a b hab hn => ?_⟩
  by_cases hg : g' a b
  · rw [h'.old a b hg]; exact h.new a b hg hn
  · exact h'.new a b hab hg

theorem Ext.ins {X : Nat → Nat → Prop} {c : α} {g : Nat → Nat → Prop} {R : Nat → Nat → α} (h : ∀ a b, g a b → X a b) {u v : Nat} (hX : X u v) (hg : ¬ g u v) :
    Ext X c g R (ins g u v) (upd R u v c) := by
  refine ⟨fun a b => Or.inl, ?_, fun a b hab => ?_, fun a b hab hn => ?_⟩
  · rintro a b (hab | ⟨rfl, rfl⟩)
    · exact h a b hab
    · exact hX
  · unfold upd
    rw [if_neg]
    rintro ⟨rfl, rfl⟩
    exact hg hab
  · rcases hab with hab | hab
    · exact absurd hab hn
    · unfold upd; rw [if_pos hab]

/-- What a (recursive) call promises. -/
def RecOk (n : Nat) (X : Nat → Nat → Prop) (c : α) (f : Nat) (r : Nat → Nat → St α → M (St α)) : Prop :=
  ∀ u v (s : St α) g R (Ob : Obl), Rep n s g R → (∀ a b, g a b → X a b) → g u v → Cl (fun a b c => Ob a b c ∨ legs u v a b c) g → missing n g < f →
    Tot (r u v s) fun s' => ∃ g' R', Rep n s' g' R' ∧ Ext X c g R g' R' ∧ Cl Ob g'

/-- The new bits of a word. -/
theorem newBits {n : Nat} {t : Array (Array Nat)} {g : Nat → Nat → Prop} (h : Bits n t g) {u v i : Nat} (hu : u < n) (hv : v < n) (hi : i < words n) :
    ∃ a b js, rd2 t v i = .ok a ∧ rd2 t u i = .ok b ∧ SubsetIter.allSetbit 64 (a &&& bnot b) = .ok js ∧ js.Nodup ∧
      ∀ j, j ∈ js ↔ j < 64 ∧ g v (64 * i + j) ∧ ¬ g u (64 * i + j) := by
  obtain ⟨a, a1, a2, a3⟩ := h.2 v hv i hi
  obtain ⟨b, b1, b2, b3⟩ := h.2 u hu i hi
  have hlt : a &&& bnot b < 2 ^ 64 := Nat.lt_of_le_of_lt Nat.and_le_left a2
  refine ⟨a, b, _, a1, b1, SubsetIter.setbit_tot 64 _ hlt, List.nodup_range.filter _, fun j => ?_⟩
  rw [List.mem_filter, List.mem_range]
  refine and_congr_right fun hj => ?_
  unfold bnot
  rw [Nat.testBit_and, show 2 ^ 64 - 1 - b = 2 ^ 64 - (b + 1) by omega, Nat.testBit_two_pow_sub_succ b2, Bool.and_eq_true, a3 j hj, ← b3 j hj]
  simp [hj]

theorem or_shift {i j : Nat} (hj : j < 64) : i <<< 6 ||| j = 64 * i + j := by
  rw [← Nat.shiftLeft_add_eq_or_of_lt (show j < 2 ^ 6 from hj), Nat.shiftLeft_eq]
  omega

/-- Adding the listed pairs. -/
def insAll (g : Nat → Nat → Prop) (p : Nat → Nat × Nat) (js : List Nat) : Nat → Nat → Prop := fun a b => g a b ∨ ∃ j ∈ js, (a, b) = p j

theorem addMany_tot {n : Nat} {X : Nat → Nat → Prop} {c : α} {p : Nat → Nat × Nat} {js : List Nat} {s : St α} {g : Nat → Nat → Prop} {R : Nat → Nat → α} (h : Rep n s g R)
    (hX : ∀ a b, g a b → X a b) (hp : ∀ j ∈ js, ((p j).1 < n ∧ (p j).2 < n) ∧ X (p j).1 (p j).2) {add : St α → Nat → M (St α)}
    (hadd : ∀ s, ∀ j ∈ js, add s j = addEdge c (p j).1 (p j).2 s >>= fun q => pure q.1) :
    Tot (forEach js s add) fun s' => ∃ R', Rep n s' (insAll g p js) R' ∧ Ext X c g R (insAll g p js) R' := by
  refine Tot.forEach (P := fun pre s' => ∃ R', Rep n s' (insAll g p pre) R' ∧ Ext X c g R (insAll g p pre) R') ?_ ?_
  · have : insAll g p [] = g := by
      funext a b
      simp [insAll]
    rw [this]
    exact ⟨R, h, Ext.refl hX⟩
  · rintro pre j post s he ⟨R', h1, h2⟩
    have hj : j ∈ js := by rw [he]; simp
    obtain ⟨⟨hu, hv⟩, hx⟩ := hp j hj
    rw [hadd s j hj]
    refine Tot.bind (addEdge_tot h1 c hu hv) fun q hq => Tot.pure ?_
    have hins : insAll g p (pre ++ [j]) = ins (insAll g p pre) (p j).1 (p j).2 := by
      funext a b
      unfold insAll ins
      apply propext
      constructor
      · rintro (h | ⟨k, hk, hk'⟩)
        · exact Or.inl (Or.inl h)
        · rcases List.mem_append.1 hk with hk | hk
          · exact Or.inl (Or.inr ⟨k, hk, hk'⟩)
          · rw [List.mem_singleton.1 hk] at hk'
            rw [← hk']
            exact Or.inr ⟨rfl, rfl⟩
      · rintro ((h | ⟨k, hk, hk'⟩) | ⟨rfl, rfl⟩)
        · exact Or.inl h
        · exact Or.inr ⟨k, List.mem_append_left _ hk, hk'⟩
        · exact Or.inr ⟨j, by simp, rfl⟩
    rw [hins]
    rcases hq with ⟨hg, rfl⟩ | ⟨hg, -, hr⟩
    · have : ins (insAll g p pre) (p j).1 (p j).2 = insAll g p pre := by
        funext a b
        unfold ins
        apply propext
        constructor
        · rintro (h | ⟨rfl, rfl⟩)
          · exact h
          · exact hg
        · exact Or.inl
      rw [this]
      exact ⟨R', h1, h2⟩
    · exact ⟨_, hr, h2.trans (Ext.ins h2.within hx hg)⟩

theorem recMany_tot {n f : Nat} {X : Nat → Nat → Prop} {c : α} {r : Nat → Nat → St α → M (St α)} (hr : RecOk n X c f r) {p : Nat → Nat × Nat} {Ob : Obl} :
    ∀ (js : List Nat) (s : St α) (g : Nat → Nat → Prop) (R : Nat → Nat → α), Rep n s g R → (∀ a b, g a b → X a b) → (∀ j ∈ js, g (p j).1 (p j).2) → (js ≠ [] → missing n g < f) →
      Cl (fun a b c => Ob a b c ∨ ∃ j ∈ js, legs (p j).1 (p j).2 a b c) g → ∀ {go : St α → Nat → M (St α)}, (∀ s, ∀ j ∈ js, go s j = r (p j).1 (p j).2 s) →
      Tot (forEach js s go) fun s' => ∃ g' R', Rep n s' g' R' ∧ Ext X c g R g' R' ∧ Cl Ob g' := by
  intro js
  induction js with
  | nil =>
    intro s g R h hX _ _ hc go hgo
    refine Tot.pure ⟨g, R, h, Ext.refl hX, fun a b c h1 h2 => ?_⟩
    rcases hc a b c h1 h2 with h3 | h3 | ⟨j, hj, -⟩
    · exact Or.inl h3
    · exact Or.inr h3
    · simp at hj
  | cons j js ih =>
    intro s g R h hX hg hf hc go hgo
    unfold forEach
    rw [hgo s j (by simp)]
    have hf' := hf (by simp)
    refine Tot.bind (hr _ _ s g R (fun a b c => Ob a b c ∨ ∃ j ∈ js, legs (p j).1 (p j).2 a b c) h hX (hg j (by simp)) ?_ hf') ?_
    · intro a b c h1 h2
      rcases hc a b c h1 h2 with h3 | h3 | ⟨k, hk, hk'⟩
      · exact Or.inl h3
      · exact Or.inr (Or.inl (Or.inl h3))
      · rcases List.mem_cons.1 hk with rfl | hk
        · exact Or.inr (Or.inr hk')
        · exact Or.inr (Or.inl (Or.inr ⟨k, hk, hk'⟩))
    · rintro s' ⟨g', R', h1, h2, h3⟩
      refine (ih s' g' R' h1 h2.within (fun k hk => h2.mono _ _ (hg k (List.mem_cons_of_mem _ hk))) (fun _ => Nat.lt_of_le_of_lt (missing_mono h2.mono) hf') h3
        (fun s k hk => hgo s k (List.mem_cons_of_mem _ hk))).mono ?_
      rintro s'' ⟨g'', R'', k1, k2, k3⟩
      exact ⟨g'', R'', k1, h2.trans k2, k3⟩

/-- Both loops over the new bits of a word. -/
theorem word_tot {n f : Nat} {X : Nat → Nat → Prop} {c : α} {r : Nat → Nat → St α → M (St α)} (hr : RecOk n X c f r) {p : Nat → Nat × Nat} {Ob Ob0 : Obl} {js : List Nat}
    {s : St α} {g : Nat → Nat → Prop} {R : Nat → Nat → α} (h : Rep n s g R) (hX : ∀ a b, g a b → X a b) (hp : ∀ j ∈ js, ((p j).1 < n ∧ (p j).2 < n) ∧ X (p j).1 (p j).2)
    (hnew : ∀ j ∈ js, ¬ g (p j).1 (p j).2) (hf : missing n g < f + 1) (hc : Cl Ob0 g) (hob : ∀ a b c, g a b → g b c → Ob0 a b c → Ob a b c ∨ insAll g p js a c)
    {add go : St α → Nat → M (St α)} (hadd : ∀ s, ∀ j ∈ js, add s j = addEdge c (p j).1 (p j).2 s >>= fun q => pure q.1) (hgo : ∀ s, ∀ j ∈ js, go s j = r (p j).1 (p j).2 s) :
    Tot (forEach js s add >>= fun s => forEach js s go) fun s' => ∃ g' R', Rep n s' g' R' ∧ Ext X c g R g' R' ∧ Cl Ob g' := by
  refine Tot.bind (addMany_tot h hX hp hadd) ?_
  rintro s1 ⟨R1, h1, h2⟩
  refine (recMany_tot hr (Ob := Ob) js s1 _ R1 h1 h2.within (fun j hj => Or.inr ⟨j, hj, rfl⟩) (fun hne => ?_) ?_ hgo).mono ?_
  · obtain ⟨j, hj⟩ := List.exists_mem_of_ne_nil js hne
    obtain ⟨⟨hu, hv⟩, -⟩ := hp j hj
    have := missing_lt h2.mono hu hv (hnew j hj) (Or.inr ⟨j, hj, rfl⟩)
    omega
  · rintro a b d h3 h4
    rcases h3 with h3 | ⟨j, hj, hj'⟩
    · rcases h4 with h4 | ⟨j, hj, hj'⟩
      · rcases hc a b d h3 h4 with h5 | h5
        · exact Or.inl (Or.inl h5)
        · rcases hob a b d h3 h4 h5 with h6 | h6
          · exact Or.inr (Or.inl h6)
          · exact Or.inl h6
      · refine Or.inr (Or.inr ⟨j, hj, Or.inr ?_⟩)
        rw [← hj']
        exact ⟨rfl, rfl⟩
    · refine Or.inr (Or.inr ⟨j, hj, Or.inl ?_⟩)
      rw [← hj']
      exact ⟨rfl, rfl⟩
  · rintro s2 ⟨g2, R2, k1, k2, k3⟩
    exact ⟨g2, R2, k1, h2.trans k2, k3⟩

/-- The obligations of `(u, v)` in the words from `i` (heads) and `k` (tails). -/
def legsFrom (u v i k : Nat) : Obl := fun a b c => (a = u ∧ b = v ∧ 64 * i ≤ c) ∨ (b = u ∧ c = v ∧ 64 * k ≤ a)

theorem fwdWord_tot {n f : Nat} {X : Nat → Nat → Prop} (hXt : ∀ a b c, X a b → X b c → X a c) {c : α} {r : Nat → Nat → St α → M (St α)} (hr : RecOk n X c f r) {Ob : Obl}
    {s : St α} {g : Nat → Nat → Prop} {R : Nat → Nat → α} (h : Rep n s g R) (hX : ∀ a b, g a b → X a b) {u v i : Nat} (huv : g u v) (hi : i < words n) (hf : missing n g < f + 1)
    (hc : Cl (fun a b c => Ob a b c ∨ legsFrom u v i i a b c) g) :
    Tot (fwdWord r c u v i s) fun s' => ∃ g' R', Rep n s' g' R' ∧ Ext X c g R g' R' ∧ Cl (fun a b c => Ob a b c ∨ legsFrom u v (i + 1) i a b c) g' := by
  obtain ⟨hu, hv⟩ := h.inr u v huv
  obtain ⟨a, b, js, e1, e2, e3, -, hjs⟩ := newBits h.fw hu hv hi
  unfold fwdWord
  rw [e1, ok_bind, e2, ok_bind, e3, ok_bind]
  refine word_tot hr (p := fun j => (u, 64 * i + j)) h hX ?_ ?_ hf hc ?_ ?_ ?_
  · intro j hj
    obtain ⟨h1, h2, h3⟩ := (hjs j).1 hj
    exact ⟨⟨hu, (h.inr _ _ h2).2⟩, hXt _ _ _ (hX _ _ huv) (hX _ _ h2)⟩
  · intro j hj
    exact ((hjs j).1 hj).2.2
  · rintro x y z hxy hyz (ho | ⟨rfl, rfl, hz⟩ | ho)
    · exact Or.inl (Or.inl ho)
    · by_cases hz' : 64 * (i + 1) ≤ z
      · exact Or.inl (Or.inr (Or.inl ⟨rfl, rfl, hz'⟩))
      · refine Or.inr ?_
        by_cases hg : g x z
        · exact Or.inl hg
        · refine Or.inr ⟨z - 64 * i, (hjs _).2 ⟨by omega, ?_, ?_⟩, ?_⟩
          · rw [show 64 * i + (z - 64 * i) = z by omega]; exact hyz
          · rw [show 64 * i + (z - 64 * i) = z by omega]; exact hg
          · show (x, z) = (x, 64 * i + (z - 64 * i))
            rw [show 64 * i + (z - 64 * i) = z by omega]
    · exact Or.inl (Or.inr (Or.inr ho))
  · intro s j hj
    rw [or_shift ((hjs j).1 hj).1]
  · intro s j hj
    rw [or_shift ((hjs j).1 hj).1]

theorem bwdWord_tot {n f : Nat} {X : Nat → Nat → Prop} (hXt : ∀ a b c, X a b → X b c → X a c) {c : α} {r : Nat → Nat → St α → M (St α)} (hr : RecOk n X c f r) {Ob : Obl}
    {s : St α} {g : Nat → Nat → Prop} {R : Nat → Nat → α} (h : Rep n s g R) (hX : ∀ a b, g a b → X a b) {u v i : Nat} (huv : g u v) (hi : i < words n) (hf : missing n g < f + 1)
    (hc : Cl (fun a b c => Ob a b c ∨ legsFrom u v (i + 1) i a b c) g) :
    Tot (bwdWord r c u v i s) fun s' => ∃ g' R', Rep n s' g' R' ∧ Ext X c g R g' R' ∧ Cl (fun a b c => Ob a b c ∨ legsFrom u v (i + 1) (i + 1) a b c) g' := by
  obtain ⟨hu, hv⟩ := h.inr u v huv
  obtain ⟨a, b, js, e1, e2, e3, -, hjs⟩ := newBits h.bw hv hu hi
  unfold bwdWord
  rw [e1, ok_bind, e2, ok_bind, e3, ok_bind]
  refine word_tot hr (p := fun j => (64 * i + j, v)) h hX ?_ ?_ hf hc ?_ ?_ ?_
  · intro j hj
    obtain ⟨h1, h2, h3⟩ := (hjs j).1 hj
    exact ⟨⟨(h.inr _ _ h2).1, hv⟩, hXt _ _ _ (hX _ _ h2) (hX _ _ huv)⟩
  · intro j hj
    exact ((hjs j).1 hj).2.2
  · rintro x y z hxy hyz (ho | ho | ⟨rfl, rfl, hz⟩)
    · exact Or.inl (Or.inl ho)
    · exact Or.inl (Or.inr (Or.inl ho))
    · by_cases hz' : 64 * (i + 1) ≤ x
      · exact Or.inl (Or.inr (Or.inr ⟨rfl, rfl, hz'⟩))
      · refine Or.inr ?_
        by_cases hg : g x z
        · exact Or.inl hg
        · refine Or.inr ⟨x - 64 * i, (hjs _).2 ⟨by omega, ?_, ?_⟩, ?_⟩
          · rw [show 64 * i + (x - 64 * i) = x by omega]; exact hxy
          · rw [show 64 * i + (x - 64 * i) = x by omega]; exact hg
          · show (x, z) = (64 * i + (x - 64 * i), z)
            rw [show 64 * i + (x - 64 * i) = x by omega]
  · intro s j hj
    rw [or_shift ((hjs j).1 hj).1]
  · intro s j hj
    rw [or_shift ((hjs j).1 hj).1]

theorem recur_ok {n : Nat} {X : Nat → Nat → Prop} (hXt : ∀ a b c, X a b → X b c → X a c) (c : α) : ∀ f, RecOk n X c f (recur (words n) c f) := by
  intro f
  induction f with
  | zero =>
    intro u v s g R Ob _ _ _ _ hf
    exact absurd hf (Nat.not_lt_zero _)
  | succ f ih =>
    intro u v s g R Ob h hX huv hc hf
    unfold recur
    refine (Tot.forUp (P := fun i s' => ∃ g' R', Rep n s' g' R' ∧ Ext X c g R g' R' ∧ Cl (fun a b c => Ob a b c ∨ legsFrom u v i i a b c) g') (Nat.zero_le _) ?_ ?_).mono ?_
    · refine ⟨g, R, h, Ext.refl hX, fun x y z h1 h2 => ?_⟩
      rcases hc x y z h1 h2 with h3 | h3 | ⟨rfl, rfl⟩ | ⟨rfl, rfl⟩
      · exact Or.inl h3
      · exact Or.inr (Or.inl h3)
      · exact Or.inr (Or.inr (Or.inl ⟨rfl, rfl, by omega⟩))
      · exact Or.inr (Or.inr (Or.inr ⟨rfl, rfl, by omega⟩))
    · rintro i s1 - hi ⟨g1, R1, h1, h2, h3⟩
      refine Tot.bind (fwdWord_tot hXt ih h1 h2.within (h2.mono _ _ huv) hi (Nat.lt_of_le_of_lt (missing_mono h2.mono) hf) h3) ?_
      rintro s2 ⟨g2, R2, k1, k2, k3⟩
      have k4 := h2.trans k2
      refine (bwdWord_tot hXt ih k1 k4.within (k4.mono _ _ huv) hi (Nat.lt_of_le_of_lt (missing_mono k4.mono) hf) k3).mono ?_
      rintro s3 ⟨g3, R3, l1, l2, l3⟩
      exact ⟨g3, R3, l1, k4.trans l2, l3⟩
    · rintro s' ⟨g', R', h1, h2, h3⟩
      refine ⟨g', R', h1, h2, fun x y z hxy hyz => ?_⟩
      have hw := words_eq n
      have hx := (h1.inr _ _ hxy).1
      have hz := (h1.inr _ _ hyz).2
      rcases h3 x y z hxy hyz with h4 | h4 | ⟨-, -, h4⟩ | ⟨-, -, h4⟩
      · exact Or.inl h4
      · exact Or.inr h4
      · omega
      · omega

/-- One edge of the sorted list. -/
theorem edgeStep_tot {n : Nat} {s : St α} {g : Nat → Nat → Prop} {R : Nat → Nat → α} (h : Rep n s g R) (hg : ∀ a b c, g a b → g b c → g a c) {e : Ed α} (hu : e.2.1 < n) (hv : e.2.2 < n)
    {X : Nat → Nat → Prop} (hXt : ∀ a b c, X a b → X b c → X a c) (hgX : ∀ a b, g a b → X a b) (hXe : X e.2.1 e.2.2) :
    Tot (edgeStep n (words n) s e) fun s' => ∃ g' R', Rep n s' g' R' ∧ Ext X e.1 g R g' R' ∧ (∀ a b c, g' a b → g' b c → g' a c) ∧ g' e.2.1 e.2.2 := by
  unfold edgeStep
  refine Tot.bind (addEdge_tot h e.1 hu hv) ?_
  rintro q (⟨h1, rfl⟩ | ⟨h1, h2, h3⟩)
  · rw [if_neg (by simp)]
    exact Tot.pure ⟨g, R, h, Ext.refl hgX, hg, h1⟩
  · rw [if_pos h2]
    have hE := Ext.ins (R := R) (c := e.1) hgX hXe h1
    refine (recur_ok hXt e.1 (n * n + 1) _ _ _ _ _ (fun _ _ _ => False) h3 hE.within (Or.inr ⟨rfl, rfl⟩) ?_ (Nat.lt_succ_of_le (missing_le _ _))).mono ?_
    · rintro a b c (h4 | ⟨rfl, rfl⟩) (h5 | ⟨h5, h6⟩)
      · exact Or.inl (Or.inl (hg a b c h4 h5))
      · exact Or.inr (Or.inr (Or.inr ⟨h5, h6⟩))
      · exact Or.inr (Or.inr (Or.inl ⟨rfl, rfl⟩))
      · exact Or.inr (Or.inr (Or.inl ⟨rfl, rfl⟩))
    · rintro s' ⟨g', R', k1, k2, k3⟩
      refine ⟨g', R', k1, hE.trans k2, fun a b c hab hbc => ?_, k2.mono _ _ (Or.inr ⟨rfl, rfl⟩)⟩
      rcases k3 a b c hab hbc with h4 | h4
      · exact h4
      · exact h4.elim

end MinMaxFloyd
