import Verif.Model.Util
import Mathlib.Dynamics.PeriodicPts.Defs
import Mathlib.Combinatorics.Pigeonhole
import Mathlib.Data.Nat.Factorial.Basic
import Mathlib.Data.Finset.Card
import Mathlib.Tactic.Ring
import Mathlib.Tactic.Common

/-! # Lemmas on permutations -/

namespace Permutation
open Cxx

/-- `f` maps `[0, n)` to itself, one to one. -/
def PermOn (f : Nat → Nat) (n : Nat) : Prop := (∀ i < n, f i < n) ∧ ∀ i < n, ∀ j < n, f i = f j → i = j

/-- The array is a permutation of `[0, n)`. -/
def IsPerm (p : Array Nat) (n : Nat) : Prop := p.size = n ∧ PermOn (at' 0 p) n

theorem iota_size (n : Nat) : (iota n).size = n := by simp [iota]

theorem iota_at {n i : Nat} (h : i < n) : at' 0 (iota n) i = i := by
  simp [iota, at', h]

theorem PermOn.surj {f : Nat → Nat} {n : Nat} (h : PermOn f n) (y : Nat) (hy : y < n) : ∃ x < n, f x = y := by
  have hs : (Finset.range n).image f = Finset.range n := by
    apply Finset.eq_of_subset_of_card_le
    · intro z hz
      obtain ⟨x, hx, rfl⟩ := Finset.mem_image.1 hz
      exact Finset.mem_range.2 (h.1 x (Finset.mem_range.1 hx))
    · rw [Finset.card_image_of_injOn]
      intro a ha b hb hab
      exact h.2 a (by simpa using ha) b (by simpa using hb) hab
  have : y ∈ (Finset.range n).image f := by rw [hs]; exact Finset.mem_range.2 hy
  obtain ⟨x, hx, hxy⟩ := Finset.mem_image.1 this
  exact ⟨x, Finset.mem_range.1 hx, hxy⟩

theorem permute_tot {α : Type} (d : α) (p : Array Nat) (a : Array α) (hp : a.size ≤ p.size) (hv : ∀ i < a.size, at' 0 p i < a.size) :
    Tot (permute d p a) fun b => b.size = a.size ∧ ∀ i < a.size, b[i]? = a[at' 0 p i]? := by
  rw [permute]
  refine Tot.forUp (P := fun k (b : Array α) => b.size = a.size ∧ ∀ i < k, b[i]? = a[at' 0 p i]?) (Nat.zero_le _)
    ⟨by simp, by simp⟩ ?_
  rintro k b _ hk ⟨h1, h2⟩
  rw [permuteStep, rd_at 0 (by omega), ok_bind, rd_eq (hv k hk), ok_bind]
  refine Tot.wr (by omega) ⟨by simpa using h1, ?_⟩
  intro i hi
  rw [get?_set _ _ _ _ (by omega)]
  split
  · rename_i h
    subst h
    exact (Array.getElem?_eq_getElem (hv k hk)).symm
  · exact h2 i (by omega)

theorem invPermute_tot {α : Type} (d : α) (p : Array Nat) (a : Array α) (hp : IsPerm p a.size) :
    Tot (invPermute d p a) fun b => b.size = a.size ∧ ∀ i < a.size, b[at' 0 p i]? = a[i]? := by
  rw [invPermute]
  refine Tot.forUp (P := fun k (b : Array α) => b.size = a.size ∧ ∀ i < k, b[at' 0 p i]? = a[i]?) (Nat.zero_le _)
    ⟨by simp, by simp⟩ ?_
  rintro k b _ hk ⟨h1, h2⟩
  rw [invPermuteStep, rd_at 0 (by rw [hp.1]; exact hk), ok_bind, rd_eq hk, ok_bind]
  refine Tot.wr (by rw [h1]; exact hp.2.1 k hk) ⟨by simpa using h1, ?_⟩
  intro i hi
  rw [get?_set _ _ _ _ (by rw [h1]; exact hp.2.1 k hk)]
  split
  · rename_i h
    have := hp.2.2 k hk i (by omega) h
    subst this
    exact (Array.getElem?_eq_getElem hk).symm
  · rename_i h
    refine h2 i ?_
    rcases Nat.lt_or_ge i k with h' | h'
    · exact h'
    · exact absurd (by rw [show i = k by omega]) h

theorem inv_tot (p : Array Nat) (n : Nat) (hp : IsPerm p n) :
    Tot (inv p) fun q => q.size = n ∧ ∀ i < n, at' 0 q (at' 0 p i) = i := by
  rw [inv, hp.1]
  refine Tot.forUp (P := fun k (q : Array Nat) => q.size = n ∧ ∀ i < k, at' 0 q (at' 0 p i) = i) (Nat.zero_le _)
    ⟨iota_size n, by simp⟩ ?_
  rintro k q _ hk ⟨h1, h2⟩
  rw [invStep, rd_at 0 (by rw [hp.1]; exact hk), ok_bind]
  refine Tot.wr (by rw [h1]; exact hp.2.1 k hk) ⟨by simpa using h1, ?_⟩
  intro i hi
  rw [at_set 0 (by rw [h1]; exact hp.2.1 k hk)]
  split
  · rename_i h
    exact hp.2.2 k hk i (by omega) h
  · rename_i h
    refine h2 i ?_
    rcases Nat.lt_or_ge i k with h' | h'
    · exact h'
    · exact absurd (by rw [show i = k by omega]) h

/-- A left inverse is a right inverse and a permutation. -/
theorem inverse_spec {p q : Nat → Nat} {n : Nat} (hp : PermOn p n) (hq : ∀ i < n, q (p i) = i) :
    PermOn q n ∧ ∀ i < n, p (q i) = i := by
  have h2 : ∀ i < n, p (q i) = i := by
    intro i hi
    obtain ⟨x, hx, rfl⟩ := hp.surj i hi
    rw [hq x hx]
  refine ⟨⟨?_, ?_⟩, h2⟩
  · intro i hi
    obtain ⟨x, hx, rfl⟩ := hp.surj i hi
    rw [hq x hx]; exact hx
  · intro i hi j hj h
    rw [← h2 i hi, ← h2 j hj, h]

/-! ### Powers -/

theorem iter_lt {f : Nat → Nat} {n : Nat} (h : PermOn f n) {s : Nat} (hs : s < n) (k : Nat) : f^[k] s < n := by
  induction k with
  | zero => exact hs
  | succ k ih => rw [Function.iterate_succ_apply']; exact h.1 _ ih

theorem iter_inj {f : Nat → Nat} {n : Nat} (h : PermOn f n) (k : Nat) {a b : Nat} (ha : a < n) (hb : b < n) (he : f^[k] a = f^[k] b) : a = b := by
  induction k with
  | zero => exact he
  | succ k ih =>
    rw [Function.iterate_succ_apply', Function.iterate_succ_apply'] at he
    exact ih (h.2 _ (iter_lt h ha k) _ (iter_lt h hb k) he)

theorem period {f : Nat → Nat} {n : Nat} (h : PermOn f n) {s : Nat} (hs : s < n) :
    0 < Function.minimalPeriod f s ∧ Function.minimalPeriod f s ≤ n := by
  obtain ⟨a, ha, b, hb, hne, he⟩ := Finset.exists_ne_map_eq_of_card_lt_of_maps_to (s := Finset.range (n + 1)) (t := Finset.range n)
    (f := fun k => f^[k] s) (by simp) (fun k _ => by simpa using iter_lt h hs k)
  have key : ∀ a b : Nat, a < b → b ≤ n → f^[a] s = f^[b] s → 0 < Function.minimalPeriod f s ∧ Function.minimalPeriod f s ≤ n := by
    intro a b hab hb he
    have hp : Function.IsPeriodicPt f (b - a) s := by
      have : f^[b] s = f^[a] (f^[b - a] s) := by
        rw [← Function.iterate_add_apply]
        congr 2
        omega
      rw [this] at he
      exact (iter_inj h a hs (iter_lt h hs _) he).symm
    have h0 : 0 < b - a := by omega
    refine ⟨hp.minimalPeriod_pos h0, ?_⟩
    have := hp.minimalPeriod_le h0
    omega
  simp only [Finset.mem_range] at ha hb
  rcases Nat.lt_or_ge a b with h1 | h1
  · exact key a b h1 (by omega) he
  · exact key b a (by omega) (by omega) he.symm

theorem cycle_tot (p : Array Nat) (n : Nat) (hp : IsPerm p n) (s : Nat) (hs : s < n) :
    Tot (loop (cycleStep p s) p.size (at' 0 p s, #[s])) fun q =>
      q.2.size = Function.minimalPeriod (at' 0 p) s ∧ ∀ i < q.2.size, at' 0 q.2 i = (at' 0 p)^[i] s := by
  obtain ⟨hL, hLn⟩ := period hp.2 hs
  obtain ⟨L, eL⟩ : ∃ L, L = Function.minimalPeriod (at' 0 p) s := ⟨_, rfl⟩
  rw [← eL] at hL hLn ⊢
  refine Tot.loop (P := fun (q : Nat × Array Nat) => 0 < q.2.size ∧ q.2.size ≤ L ∧ q.1 = (at' 0 p)^[q.2.size] s ∧
      ∀ i < q.2.size, at' 0 q.2 i = (at' 0 p)^[i] s) (μ := fun q => L - q.2.size) ?_ ⟨by simp, by simp; omega, by simp, ?_⟩ ?_
  · rintro ⟨v, c⟩ ⟨h1, h2, h3, h4⟩
    dsimp only at h1 h2 h3 h4
    rw [cycleStep]
    dsimp only
    split
    · rename_i hv
      refine Tot.pure ⟨?_, h4⟩
      have : Function.IsPeriodicPt (at' 0 p) c.size s := by
        rw [Function.IsPeriodicPt, Function.IsFixedPt, ← h3, hv]
      have := this.minimalPeriod_le h1
      omega
    · rename_i hv
      have hvn : v < n := by rw [h3]; exact iter_lt hp.2 hs _
      have hlt : c.size < L := by
        rcases Nat.lt_or_ge c.size L with h | h
        · exact h
        · exfalso
          apply hv
          rw [h3, show c.size = L by omega, eL]
          exact Function.iterate_minimalPeriod
      rw [rd_at 0 (by rw [hp.1]; exact hvn), ok_bind]
      refine Tot.pure ⟨⟨by simp, by simp; omega, ?_, ?_⟩, by simp; omega⟩
      · dsimp only
        rw [Array.size_push, Function.iterate_succ_apply', h3]
      · dsimp only
        intro i hi
        rw [Array.size_push] at hi
        unfold at'
        rw [Array.getElem?_push]
        split
        · rename_i he
          subst he
          exact h3
        · exact h4 i (by omega)
  · intro i hi
    simp at hi
    subst hi
    simp [at']
  · simp [hp.1]
    omega

theorem pow_tot (p : Array Nat) (n : Nat) (hp : IsPerm p n) (k : Nat) (hk : (k : Int) + n < 2 ^ 63) :
    Tot (pow p k) fun q => q.size = n ∧ ∀ i < n, at' 0 q i = (at' 0 p)^[k] i := by
  rw [pow, decide_eq_true (show (k : Int) ≥ 0 by omega), check_true, ok_bind, hp.1]
  refine Tot.bind (P := fun (q : Array Bool × Array Nat) => q.2.size = n ∧ ∀ i < n, at' 0 q.2 i = (at' 0 p)^[k] i) ?_
    fun q hq => Tot.pure (Q := fun (q : Array Nat) => q.size = n ∧ ∀ i < n, at' 0 q i = (at' 0 p)^[k] i) hq
  refine (Tot.forUp (P := fun m (q : Array Bool × Array Nat) => q.1.size = n ∧ q.2.size = n ∧
      (∀ i < n, at' false q.1 i = true → at' 0 q.2 i = (at' 0 p)^[k] i) ∧ ∀ i < m, at' false q.1 i = true)
    (Nat.zero_le _) ⟨by simp, iota_size n, ?_, by simp⟩ ?_).mono fun q h => ⟨h.2.1, fun i hi => h.2.2.1 i hi (h.2.2.2 i hi)⟩
  · intro i hi h
    simp [at', hi] at h
  · rintro m ⟨seen, res⟩ _ hm ⟨h1, h2, h3, h4⟩
    dsimp only at h1 h2 h3 h4
    rw [powStep]
    dsimp only
    rw [rd_at false (by omega), ok_bind]
    split
    · rename_i hb
      refine Tot.pure ⟨h1, h2, h3, ?_⟩
      dsimp only
      intro i hi
      rcases Nat.lt_or_ge i m with h | h
      · exact h4 i h
      · rw [show i = m by omega]; exact hb
    · rw [newCycle, rd_at 0 (by rw [hp.1]; exact hm), ok_bind]
      refine Tot.bind (cycle_tot p n hp m hm) ?_
      rintro ⟨v, c⟩ ⟨g1, g2⟩
      dsimp only at g1 g2 ⊢
      obtain ⟨hL, hLn⟩ := period hp.2 hm
      rw [← g1] at hL hLn
      refine (Tot.forUp (P := fun j (q : Array Bool × Array Nat) => q.1.size = n ∧ q.2.size = n ∧
        (∀ i < n, at' false q.1 i = true → at' 0 q.2 i = (at' 0 p)^[k] i) ∧ (∀ i < m, at' false q.1 i = true) ∧
        (0 < j → at' false q.1 m = true)) (Nat.zero_le _) ⟨h1, h2, h3, h4, by omega⟩ ?_).mono ?_
      · rintro j ⟨seen, res⟩ _ hj ⟨h1, h2, h3, h4, h5⟩
        dsimp only at h1 h2 h3 h4 h5
        have hvn := iter_lt hp.2 hm j
        rw [placeStep]
        dsimp only
        rw [rd_at 0 hj, ok_bind, g2 j hj, wr_eq (by omega), ok_bind, i64_ok (x := (j : Int) + k) ⟨by omega, by omega⟩, ok_bind]
        have e : ((j : Int) + k).toNat = k + j := by omega
        have hmod := Nat.mod_lt (k + j) hL
        rw [e, rd_at 0 hmod, ok_bind, g2 _ hmod, wr_eq (by omega), ok_bind]
        have e2 : (at' 0 p)^[(k + j) % c.size] m = (at' 0 p)^[k] ((at' 0 p)^[j] m) := by
          rw [g1, Function.iterate_mod_minimalPeriod_eq, Function.iterate_add_apply]
        rw [e2]
        refine Tot.pure ⟨by simpa using h1, by simpa using h2, ?_, ?_, ?_⟩
        · dsimp only
          intro i hi
          rw [at_set 0 (by omega), at_set false (by omega)]
          split
          · rename_i he
            intro _
            rw [← he]
          · exact h3 i hi
        · dsimp only
          intro i hi
          rw [at_set false (by omega)]
          split
          · rfl
          · exact h4 i hi
        · dsimp only
          intro _
          rw [at_set false (by omega)]
          split
          · rfl
          · rename_i he
            refine h5 ?_
            rcases Nat.eq_zero_or_pos j with rfl | h
            · exact absurd rfl he
            · exact h
      · rintro ⟨seen, res⟩ ⟨h1, h2, h3, h4, h5⟩
        refine ⟨h1, h2, h3, ?_⟩
        intro i hi
        rcases Nat.lt_or_ge i m with h | h
        · exact h4 i h
        · rw [show i = m by omega]; exact h5 hL

/-! ### The hash -/

/-- Remove the largest element `i` of a permutation of `[0, i]`. -/
def red (i : Nat) (f : Nat → Nat) : Nat → Nat := fun j => if f j = i then f i else f j

/-- Insert `i` into a permutation of `[0, i)` so that its image is `d`. -/
def ins (i d : Nat) (f : Nat → Nat) : Nat → Nat := fun j => if j = i then d else if f j = d then i else f j

/-- The hash value. -/
def enc : Nat → (Nat → Nat) → Nat
  | 0, _ => 0
  | i + 1, f => enc i (red i f) + i.factorial * f i

/-- The permutation with a given hash value. -/
def unOf : Nat → Nat → (Nat → Nat)
  | 0, _ => id
  | i + 1, h => ins i (h / i.factorial % (i + 1)) (unOf i h)

theorem red_perm {i : Nat} {f : Nat → Nat} (h : PermOn f (i + 1)) : PermOn (red i f) i := by
  refine ⟨?_, ?_⟩
  · intro j hj
    have h1 := h.1 j (by omega)
    have h2 := h.1 i (by omega)
    have h3 := h.2 j (by omega) i (by omega)
    rw [red]
    split
    · rename_i he
      have : f i ≠ i := fun h => by have := h3 (by omega); omega
      omega
    · omega
  · intro j hj k hk he
    have h1 := h.2 j (by omega) k (by omega)
    have h2 := h.2 j (by omega) i (by omega)
    have h3 := h.2 k (by omega) i (by omega)
    simp only [red] at he
    split at he <;> split at he <;> omega

theorem ins_perm {i d : Nat} {f : Nat → Nat} (hd : d ≤ i) (h : PermOn f i) : PermOn (ins i d f) (i + 1) := by
  refine ⟨?_, ?_⟩
  · intro j hj
    simp only [ins]
    split
    · omega
    · have := h.1 j (by omega)
      split <;> omega
  · intro j hj k hk he
    simp only [ins] at he
    by_cases hji : j = i <;> by_cases hki : k = i
    · omega
    · rw [if_pos hji, if_neg hki] at he
      have := h.1 k (by omega)
      split at he <;> omega
    · rw [if_neg hji, if_pos hki] at he
      have := h.1 j (by omega)
      split at he <;> omega
    · rw [if_neg hji, if_neg hki] at he
      have h1 := h.1 j (by omega)
      have h2 := h.1 k (by omega)
      have h3 := h.2 j (by omega) k (by omega)
      split at he <;> split at he <;> omega

theorem enc_congr (n : Nat) {f g : Nat → Nat} (h : ∀ i < n, f i = g i) : enc n f = enc n g := by
  induction n generalizing f g with
  | zero => rfl
  | succ i ih =>
    rw [enc, enc, h i (by omega), ih (f := red i f) (g := red i g)]
    intro j hj
    rw [red, red, h j (by omega), h i (by omega)]

theorem enc_lt (n : Nat) {f : Nat → Nat} (h : PermOn f n) : enc n f < n.factorial := by
  induction n generalizing f with
  | zero => simp [enc]
  | succ i ih =>
    have h1 := ih (red_perm h)
    have h2 : f i ≤ i := by have := h.1 i (by omega); omega
    rw [enc, Nat.factorial_succ, Nat.add_mul, Nat.one_mul, Nat.mul_comm i]
    have := Nat.mul_le_mul_left i.factorial h2
    omega

theorem unOf_perm (n h : Nat) : PermOn (unOf n h) n := by
  induction n with
  | zero => exact ⟨by simp, by simp⟩
  | succ i ih =>
    rw [unOf]
    exact ins_perm (Nat.le_of_lt_succ (Nat.mod_lt (h / i.factorial) (Nat.succ_pos i))) ih

theorem unOf_mod (n h m : Nat) (hm : n.factorial ∣ m) (j : Nat) : unOf n (h % m) j = unOf n h j := by
  induction n generalizing j with
  | zero => rfl
  | succ i ih =>
    have hd : i.factorial ∣ m := (Nat.factorial_dvd_factorial (by omega)).trans hm
    have e : h % m / i.factorial % (i + 1) = h / i.factorial % (i + 1) := by
      rw [← Nat.mod_mul_right_div_self, ← Nat.mod_mul_right_div_self]
      rw [Nat.mod_mod_of_dvd]
      rwa [Nat.mul_comm, ← Nat.factorial_succ]
    rw [unOf, unOf, e, ins, ins, ih hd]

theorem unOf_enc (n : Nat) {f : Nat → Nat} (h : PermOn f n) : ∀ j < n, unOf n (enc n f) j = f j := by
  induction n generalizing f with
  | zero => intro j hj; omega
  | succ i ih =>
    have hp := red_perm h
    have hlt := enc_lt i hp
    have hpos := Nat.factorial_pos i
    have h2 : f i < i + 1 := h.1 i (by omega)
    intro j hj
    have e1 : enc (i + 1) f / i.factorial % (i + 1) = f i := by
      rw [enc, Nat.add_mul_div_left _ _ hpos, Nat.div_eq_of_lt hlt, Nat.zero_add, Nat.mod_eq_of_lt h2]
    have e2 : unOf i (enc (i + 1) f) j = unOf i (enc i (red i f)) j := by
      rw [← unOf_mod i (enc (i + 1) f) i.factorial (dvd_refl _) j, enc, Nat.add_mul_mod_self_left, Nat.mod_eq_of_lt hlt]
    rw [unOf, e1, ins, e2]
    split
    · rename_i he; rw [he]
    · rename_i he
      have hji : j < i := by omega
      rw [ih hp j hji, red]
      have h3 := h.2 j (by omega) i (by omega)
      split <;> split <;> omega

theorem enc_unOf (n h : Nat) : enc n (unOf n h) = h % n.factorial := by
  induction n with
  | zero => simp [enc, Nat.mod_one]
  | succ i ih =>
    have hp := unOf_perm i h
    have hd := Nat.mod_lt (h / i.factorial) (Nat.succ_pos i)
    rw [enc]
    have e1 : enc i (red i (unOf (i + 1) h)) = enc i (unOf i h) := by
      apply enc_congr
      intro j hj
      have := hp.1 j hj
      rw [red, unOf]
      simp only [ins]
      rw [if_neg (by omega : j ≠ i)]
      simp only [if_true]
      split <;> split at * <;> omega
    have e2 : unOf (i + 1) h i = h / i.factorial % (i + 1) := by
      rw [unOf, ins, if_pos rfl]
    rw [e1, ih, e2, Nat.factorial_succ, Nat.mul_comm (i + 1), Nat.mod_mul]

theorem PermOn.congr {f g : Nat → Nat} {n : Nat} (h : PermOn f n) (e : ∀ i < n, g i = f i) : PermOn g n :=
  ⟨fun i hi => by rw [e i hi]; exact h.1 i hi, fun i hi j hj hij => h.2 i hi j hj (by rwa [← e i hi, ← e j hj])⟩

theorem hash_tot (lim : Nat) (p : Array Nat) (n : Nat) (hp : IsPerm p n) (hlim : n.factorial ≤ lim) :
    hash lim p = .ok (enc n (at' 0 p)) := by
  rw [← tot_eq, hash]
  refine Tot.bind (inv_tot p n hp) ?_
  rintro q ⟨hq1, hq2⟩
  rw [hp.1]
  refine Tot.bind (P := fun (s : Nat × Array Nat × Array Nat) => s.1 = enc n (at' 0 p)) ?_
    fun s hs => Tot.pure (Q := fun (x : Nat) => x = enc n (at' 0 p)) hs
  refine (Tot.forDown (P := fun i (s : Nat × Array Nat × Array Nat) => s.2.1.size = n ∧ s.2.2.size = n ∧
      PermOn (at' 0 s.2.1) i ∧ (∀ j < i, at' 0 s.2.2 (at' 0 s.2.1 j) = j) ∧
      s.1 * i.factorial + enc i (at' 0 s.2.1) = enc n (at' 0 p)) (Nat.zero_le _) ⟨hp.1, hq1, hp.2, hq2, ?_⟩ ?_).mono ?_
  · dsimp only
    omega
  · rintro i ⟨h, p', q'⟩ _ hi ⟨h1, h2, h3, h4, h5⟩
    dsimp only at h1 h2 h3 h4 h5
    obtain ⟨f, ef⟩ : ∃ f, f = at' 0 p' := ⟨_, rfl⟩
    obtain ⟨g, eg⟩ : ∃ g, g = at' 0 q' := ⟨_, rfl⟩
    rw [← ef] at h3 h4 h5
    rw [← eg] at h4
    obtain ⟨y, hy, hfy⟩ := h3.surj i (by omega)
    have hgi : g i = y := by rw [← hfy]; exact h4 y hy
    have hx : f i < i + 1 := h3.1 i (by omega)
    have hpos := Nat.factorial_pos i
    have htot : (h * (i + 1) + f i) * i.factorial + enc i (red i f) = enc n (at' 0 p) := by
      rw [← h5, enc, Nat.factorial_succ]
      ring
    have hsm : h * (i + 1) + f i < lim := by
      have h6 := enc_lt n hp.2
      have h7 := Nat.le_mul_of_pos_right (h * (i + 1) + f i) hpos
      omega
    rw [hashStep]
    dsimp only
    rw [rd_at 0 (by omega), ok_bind, ← ef, fits, if_pos (by omega), ok_bind, fits, if_pos hsm, ok_bind, rd_at 0 (by omega), ok_bind, ← eg,
      hgi, wr_eq (by omega), ok_bind, rd_at 0 (by simp; omega), ok_bind, at_set 0 (by omega), ok_bind]
    have hx2 : (if y = i then f i else at' 0 p' i) = f i := by
      rw [← ef]; split <;> rfl
    rw [hx2, wr_eq (by omega), ok_bind]
    have hred : ∀ j < i, at' 0 (p'.setIfInBounds y (f i)) j = red i f j := by
      intro j hj
      rw [at_set 0 (by omega), ← ef, red]
      have := h3.2 j (by omega) y hy
      split
      · rename_i he; subst he; rw [if_pos hfy]
      · rw [if_neg]; omega
    refine Tot.pure ⟨by simpa using h1, by simpa using h2, (red_perm h3).congr hred, ?_, ?_⟩
    · dsimp only
      intro j hj
      rw [at_set 0 (by omega), at_set 0 (by omega), ← ef, ← eg]
      have h8 := h3.2 j (by omega) i (by omega)
      by_cases hyj : y = j
      · rw [if_pos hyj, if_pos rfl, hyj]
      · rw [if_neg hyj, if_neg (by omega)]
        exact h4 j (by omega)
    · dsimp only
      rw [enc_congr i hred]
      exact htot
  · rintro ⟨h, p', q'⟩ ⟨h1, h2, h3, h4, h5⟩
    simpa [enc] using h5

theorem unhash_tot (n h : Nat) : Tot (unhash n h) fun p => p.size = n ∧ ∀ i < n, at' 0 p i = unOf n h i := by
  rw [unhash]
  refine Tot.bind (P := fun (s : Nat × Array Nat × Array Nat) => s.2.1.size = n ∧ ∀ i < n, at' 0 s.2.1 i = unOf n h i) ?_
    fun s hs => Tot.pure (Q := fun (p : Array Nat) => p.size = n ∧ ∀ i < n, at' 0 p i = unOf n h i) hs
  refine (Tot.forUp (P := fun i (s : Nat × Array Nat × Array Nat) => s.2.1.size = n ∧ s.2.2.size = n ∧ s.1 = h / i.factorial ∧
      (∀ j < i, at' 0 s.2.1 j = unOf i h j) ∧ (∀ j < i, at' 0 s.2.2 (at' 0 s.2.1 j) = j) ∧
      ∀ j, i ≤ j → j < n → at' 0 s.2.2 j = j) (Nat.zero_le _)
    ⟨iota_size n, iota_size n, by simp, by simp, by simp, fun j _ hj => iota_at hj⟩ ?_).mono fun s hs => ⟨hs.1, hs.2.2.2.1⟩
  rintro i ⟨h', p, q⟩ _ hi ⟨h1, h2, h3, h4, h5, h6⟩
  dsimp only at h1 h2 h3 h4 h5 h6
  subst h3
  obtain ⟨d, ed⟩ : ∃ d, d = h / i.factorial % (i + 1) := ⟨_, rfl⟩
  have hd : d < i + 1 := ed ▸ Nat.mod_lt _ (Nat.succ_pos i)
  obtain ⟨f, ef⟩ : ∃ f, f = at' 0 p := ⟨_, rfl⟩
  obtain ⟨g, eg⟩ : ∃ g, g = at' 0 q := ⟨_, rfl⟩
  rw [← ef] at h4 h5
  rw [← eg] at h5 h6
  have hf : PermOn f i := (unOf_perm i h).congr h4
  -- the preimage of `d`, or `i` itself
  have hy : ∃ y, g d = y ∧ y < i + 1 ∧ (d = i → y = i) ∧ (d < i → y < i ∧ f y = d) := by
    rcases Nat.lt_or_ge d i with h | h
    · obtain ⟨y, hy, hfy⟩ := hf.surj d h
      refine ⟨y, by rw [← hfy]; exact h5 y hy, by omega, by omega, fun _ => ⟨hy, hfy⟩⟩
    · have : d = i := by omega
      subst this
      exact ⟨d, h6 d (Nat.le_refl _) hi, hd, fun _ => rfl, by omega⟩
  obtain ⟨y, hgd, hyi, hy1, hy2⟩ := hy
  rw [unhashStep]
  dsimp only
  rw [← ed, wr_eq (by omega), ok_bind, rd_at 0 (by simp; omega), ok_bind, at_set 0 (by omega), if_pos rfl, rd_at 0 (by omega), ok_bind, ← eg, hgd,
    wr_eq (by omega), ok_bind, rd_at 0 (by simp; omega), ok_bind, at_set 0 (by omega), if_pos rfl, wr_eq (by simp; omega), ok_bind,
    rd_at 0 (by simp; omega), ok_bind, at_set 0 (by simp; omega), at_set 0 (by omega), if_pos rfl]
  have hyd : (if y = i then i else d) = d := by
    split
    · rename_i he
      rcases Nat.lt_or_ge d i with h | h
      · have := (hy2 h).1; omega
      · omega
    · rfl
  rw [hyd, wr_eq (by simp; omega), ok_bind]
  have hP : ∀ j, at' 0 ((p.setIfInBounds i d).setIfInBounds y i) j = if y = j then i else if i = j then d else f j := by
    intro j
    rw [at_set 0 (by simp; omega), at_set 0 (by omega), ← ef]
  have hQ : ∀ j, at' 0 ((q.setIfInBounds i y).setIfInBounds d i) j = if d = j then i else if i = j then y else g j := by
    intro j
    rw [at_set 0 (by simp; omega), at_set 0 (by omega), ← eg]
  refine Tot.pure ⟨by simpa using h1, by simpa using h2, ?_, ?_, ?_, ?_⟩
  · dsimp only
    rw [Nat.div_div_eq_div_mul, Nat.factorial_succ, Nat.mul_comm]
  · dsimp only
    intro j hj
    rw [hP, unOf, ← ed, ins]
    by_cases hji : j = i
    · subst hji
      rw [if_pos rfl, if_pos rfl]
      exact hyd
    · rw [if_neg hji, if_neg (show ¬ i = j by omega), ← h4 j (by omega)]
      have h8 := hf.1 j (by omega)
      by_cases hyj : y = j
      · rw [if_pos hyj, if_pos]
        subst hyj
        rcases Nat.lt_or_ge d i with h | h
        · exact (hy2 h).2
        · exact absurd (hy1 (by omega)) hji
      · rw [if_neg hyj, if_neg]
        intro he
        obtain ⟨h9, h10⟩ := hy2 (by omega)
        exact hyj (hf.2 y h9 j (by omega) (by omega))
  · dsimp only
    intro j hj
    rw [hP, hQ]
    by_cases hyj : y = j
    · rw [if_pos hyj, if_pos rfl]
      by_cases hdi : d = i
      · rw [if_pos hdi, ← hyj, hy1 hdi]
      · rw [if_neg hdi, hyj]
    · rw [if_neg hyj]
      by_cases hij : i = j
      · rw [if_pos hij, if_pos rfl, hij]
      · have h8 := hf.1 j (by omega)
        rw [if_neg hij, if_neg, if_neg (by omega)]
        · exact h5 j (by omega)
        · intro he
          obtain ⟨h9, h10⟩ := hy2 (by omega)
          exact hyj (hf.2 y h9 j (by omega) (by omega))
  · dsimp only
    intro j hj1 hj2
    rw [hQ, if_neg (by omega), if_neg (by omega)]
    exact h6 j (by omega) hj2

end Permutation
