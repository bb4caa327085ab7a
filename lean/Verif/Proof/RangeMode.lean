import Verif.Model.RangeMode
import Verif.Spec.RangeMode
import Verif.Proof.CountSort
import Verif.Proof.Compressor

namespace RangeMode
open Cxx CountSort

variable {T : Type} [LinearOrder T]

/-- The sorted list of the different values. -/
def srt (a : Array T) : Array T := (Compressor.unique (a.toList.mergeSort fun x y => decide (x ≤ y))).toArray

theorem srt_pairwise (a : Array T) : (srt a).toList.Pairwise (· < ·) := by
  have hs : (a.toList.mergeSort fun a b => decide (a ≤ b)).Pairwise (· ≤ ·) := by
    have := List.pairwise_mergeSort (le := fun a b : T => decide (a ≤ b))
      (fun a b c h1 h2 => by simp only [decide_eq_true_eq] at *; exact le_trans h1 h2)
      (fun a b => by simp only [Bool.or_eq_true, decide_eq_true_eq]; exact le_total a b) a.toList
    exact this.imp fun h => by simpa using h
  exact Compressor.unique_sorted _ hs

theorem mem_srt (a : Array T) (v : T) : v ∈ (srt a).toList ↔ v ∈ a.toList := by
  show v ∈ Compressor.unique _ ↔ _
  rw [Compressor.mem_unique]
  exact (List.mergeSort_perm a.toList _).mem_iff

/-- The compressed values. -/
def key (a : Array T) (i : Nat) : Nat := match a[i]? with
  | some x => Compressor.lowerBound (srt a).toList x
  | none => 0

/-- Occurrences of a compressed value at the positions below `j`. -/
abbrev C (a : Array T) (v j : Nat) : Nat := Nat.count (fun i => key a i = v) j

/-- Positions with a smaller compressed value. -/
abbrev L (a : Array T) (v : Nat) : Nat := Nat.count (fun i => key a i < v) a.size

theorem srt_key {a : Array T} {i : Nat} (hi : i < a.size) : (srt a)[key a i]? = some a[i] := by
  unfold key
  rw [Array.getElem?_eq_getElem hi]
  exact Compressor.comp_of_mem (srt_pairwise a) ((mem_srt a _).2 (by simp))

theorem key_lt {a : Array T} {i : Nat} (hi : i < a.size) : key a i < (srt a).size := by
  by_contra h
  have := srt_key hi
  rw [Array.getElem?_eq_none (by omega)] at this
  cases this

theorem key_eq_iff {a : Array T} {i : Nat} (hi : i < a.size) {v : Nat} {x : T} (hx : (srt a)[v]? = some x) : key a i = v ↔ a[i] = x := by
  constructor
  · rintro rfl
    rw [srt_key hi] at hx
    exact Option.some.inj hx
  · intro h
    have hn : (srt a).toList.Nodup := (srt_pairwise a).imp fun h => ne_of_lt h
    have h1 := srt_key hi
    rw [h, ← hx] at h1
    have hv : v < (srt a).size := by
      by_contra hc
      rw [Array.getElem?_eq_none (by omega)] at hx
      cases hx
    have hk := key_lt hi
    rw [← Array.getElem?_toList, ← Array.getElem?_toList] at h1
    exact (List.getElem?_inj (by simpa using hk) hn).1 h1

theorem C_big {a : Array T} {v : Nat} (hv : (srt a).size ≤ v) {j : Nat} (hj : j ≤ a.size) : C a v j = 0 := by
  rw [Nat.count_iff_forall_not]
  intro i hi he
  have := key_lt (a := a) (i := i) (by omega)
  omega

theorem C_succ (a : Array T) (v j : Nat) : C a v (j + 1) = C a v j + if v = key a j then 1 else 0 := by
  unfold C
  rw [Nat.count_succ]
  simp only [eq_comm]

theorem C_mono (a : Array T) (v : Nat) {i j : Nat} (h : i ≤ j) : C a v i ≤ C a v j := Nat.count_monotone _ h

theorem L_succ (a : Array T) (v : Nat) : L a (v + 1) = L a v + C a v a.size := count_lt_succ _ _ _

/-! ### The counting sort -/

theorem compress_tot (a : Array T) :
    Tot (forUp 0 a.size (Array.replicate a.size 0, Array.replicate ((srt a).size + 1) 0) (compressStep a (srt a))) fun s => s.1.size = a.size ∧ s.2.size = (srt a).size + 1 ∧
      (∀ i, i < a.size → at' 0 s.1 i = key a i) ∧ ∀ v, v ≤ (srt a).size → at' 0 s.2 v = C a v a.size := by
  refine (Tot.forUp (P := fun j (s : Array Nat × Array Nat) => s.1.size = a.size ∧ s.2.size = (srt a).size + 1 ∧
      (∀ i, i < j → at' 0 s.1 i = key a i) ∧ ∀ v, v ≤ (srt a).size → at' 0 s.2 v = C a v j) (Nat.zero_le _) ⟨by simp, by simp, fun _ h => by omega, fun v _ => ?_⟩ ?_)
  · simp only [at', Array.getElem?_replicate]
    split <;> simp [C]
  · rintro j ⟨as, st⟩ - hj ⟨h1, h2, h3, h4⟩
    dsimp only at h1 h2 h3 h4
    unfold compressStep
    dsimp only
    have hk := key_lt hj
    have he : Compressor.lowerBound (srt a).toList a[j] = key a j := by
      unfold key
      rw [Array.getElem?_eq_getElem hj]
    rw [rd_eq hj, ok_bind, he, wr_eq (by omega), ok_bind, rd_at 0 (by omega), ok_bind, wr_eq (by omega), ok_bind]
    refine Tot.pure ⟨by simpa using h1, by simpa using h2, fun i hi => ?_, fun v hv => ?_⟩
    · dsimp only
      rw [at_set 0 (by omega)]
      split
      next e => rw [e]
      next e => exact h3 i (by omega)
    · dsimp only
      rw [at_set 0 (by omega), C_succ, ← h4 v hv]
      split
      next e => rw [if_pos e.symm, e]
      next e => rw [if_neg (Ne.symm e)]; rfl

theorem prefix_tot (a : Array T) {st : Array Nat} (h1 : st.size = (srt a).size + 1) (h2 : ∀ v, v ≤ (srt a).size → at' 0 st v = C a v a.size) :
    Tot (forUp 0 (srt a).size st prefixStep) fun st => st.size = (srt a).size + 1 ∧ ∀ v, v ≤ (srt a).size → at' 0 st v = L a (v + 1) := by
  refine (Tot.forUp (P := fun j (st : Array Nat) => st.size = (srt a).size + 1 ∧ (∀ v, v ≤ j → at' 0 st v = L a (v + 1)) ∧ ∀ v, j < v → v ≤ (srt a).size → at' 0 st v = C a v a.size)
    (Nat.zero_le _) ⟨h1, fun v hv => ?_, fun v _ hv => h2 v hv⟩ ?_).mono fun st h => ⟨h.1, h.2.1⟩
  · have : v = 0 := by omega
    subst this
    rw [h2 0 (by omega), L_succ, show L a 0 = 0 from count_lt_zero _ _, Nat.zero_add]
  · rintro j st - hj ⟨h1, h2, h3⟩
    unfold prefixStep
    rw [rd_at 0 (by omega), ok_bind, rd_at 0 (by omega), ok_bind, wr_eq (by omega)]
    refine Tot.pure ⟨by simpa using h1, fun v hv => ?_, fun v hv hv' => ?_⟩
    · rw [at_set 0 (by omega)]
      split
      next e => subst e; rw [h3 (j + 1) (by omega) (by omega), h2 j le_rfl, L_succ a (j + 1)]; omega
      next e => exact h2 v (by omega)
    · rw [at_set 0 (by omega), if_neg (by omega)]
      exact h3 v (by omega) hv'

theorem rank_eq' (a : Array T) (i : Nat) : rank (key a) a.size i = L a (key a i) + C a (key a i) i := rfl

theorem place_tot (a : Array T) {as st : Array Nat} (h1 : as.size = a.size) (h2 : ∀ i, i < a.size → at' 0 as i = key a i) (h3 : st.size = (srt a).size + 1)
    (h4 : ∀ v, v ≤ (srt a).size → at' 0 st v = L a (v + 1)) :
    Tot (forDown a.size 0 (st, Array.replicate a.size 0, Array.replicate a.size 0) (placeStep as)) fun s => s.1.size = (srt a).size + 1 ∧ s.2.1.size = a.size ∧ s.2.2.size = a.size ∧
      (∀ v, v ≤ (srt a).size → at' 0 s.1 v = L a v) ∧ (∀ i, i < a.size → at' 0 s.2.1 (rank (key a) a.size i) = i) ∧ ∀ i, i < a.size → at' 0 s.2.2 i = rank (key a) a.size i := by
  refine (Tot.forDown (P := fun j (s : Array Nat × Array Nat × Array Nat) => s.1.size = (srt a).size + 1 ∧ s.2.1.size = a.size ∧ s.2.2.size = a.size ∧
      (∀ v, v ≤ (srt a).size → at' 0 s.1 v = L a v + C a v j) ∧ (∀ i, j ≤ i → i < a.size → at' 0 s.2.1 (rank (key a) a.size i) = i) ∧ ∀ i, j ≤ i → i < a.size → at' 0 s.2.2 i = rank (key a) a.size i)
    (Nat.zero_le _) ⟨h3, by simp, by simp, fun v hv => by rw [h4 v hv, L_succ], fun _ _ _ => by omega, fun _ _ _ => by omega⟩ ?_).mono ?_
  · rintro j ⟨st, pos, pi⟩ - hj ⟨g1, g2, g3, g4, g5, g6⟩
    dsimp only at g1 g2 g3 g4 g5 g6
    have hk := key_lt hj
    have hr := rank_lt (key := key a) hj
    have hv : at' 0 st (key a j) = rank (key a) a.size j + 1 := by
      rw [g4 _ (by omega), C_succ, if_pos rfl, rank_eq']
      omega
    unfold placeStep
    dsimp only
    rw [rd_at 0 (by omega), ok_bind, h2 j hj, rd_at 0 (by omega), ok_bind, hv, if_neg (by omega), Nat.add_sub_cancel, wr_eq (by omega), ok_bind, wr_eq (by omega), ok_bind, wr_eq (by omega), ok_bind]
    refine Tot.pure ⟨by simpa using g1, by simpa using g2, by simpa using g3, fun v hv' => ?_, fun i hi hi' => ?_, fun i hi hi' => ?_⟩
    · dsimp only
      rw [at_set 0 (by omega)]
      split
      next e => subst e; rw [rank_eq']
      next e => rw [g4 v hv', C_succ, if_neg (Ne.symm e)]; omega
    · dsimp only
      rw [at_set 0 (by omega)]
      split
      next e => exact rank_inj hj hi' e
      next e => exact g5 i (by rcases Nat.eq_or_lt_of_le hi with q | q; (· subst q; exact absurd rfl e); exact q) hi'
    · dsimp only
      rw [at_set 0 (by omega)]
      split
      next e => rw [e]
      next e => exact g6 i (by omega) hi'
  · rintro ⟨st, pos, pi⟩ ⟨g1, g2, g3, g4, g5, g6⟩
    exact ⟨g1, g2, g3, fun v hv => by rw [g4 v hv]; simp [C], fun i hi => g5 i (by omega) hi, fun i hi => g6 i (by omega) hi⟩

/-! ### The table of the blocks -/

/-- Occurrences at the positions `l..r-1`. -/
def cnt (a : Array T) (v l r : Nat) : Nat := C a v r - C a v l

/-- `q = (frequency, value)`: no value occurs more often than `q.1` times, and `q.2` occurs as often. -/
def Md (a : Array T) (l r : Nat) (q : Nat × Nat) : Prop := q.2 < (srt a).size ∧ q.1 ≤ cnt a q.2 l r ∧ ∀ v, cnt a v l r ≤ q.1

theorem maxPair_cases (x y : Nat × Nat) : (maxPair x y = x ∨ maxPair x y = y) ∧ x.1 ≤ (maxPair x y).1 ∧ y.1 ≤ (maxPair x y).1 := by
  unfold maxPair
  split
  · exact ⟨.inr rfl, by omega, le_rfl⟩
  · exact ⟨.inl rfl, le_rfl, by omega⟩

variable {a : Array T} {as : Array Nat}

theorem values_tot (h1 : as.size = a.size) (h2 : ∀ i, i < a.size → at' 0 as i = key a i) {l i j : Nat} (hl : l ≤ i) (hij : i ≤ j) (hj : j ≤ a.size) {fr : Array Nat} {q : Nat × Nat}
    (hf : fr.size = (srt a).size) (hf' : ∀ v, v < (srt a).size → at' 0 fr v = cnt a v l i) (hq : Md a l i q) :
    Tot (forUp i j (fr, q) (valueStep as)) fun s => s.1.size = (srt a).size ∧ (∀ v, v < (srt a).size → at' 0 s.1 v = cnt a v l j) ∧ Md a l j s.2 := by
  refine (Tot.forUp (P := fun j (s : Array Nat × (Nat × Nat)) => s.1.size = (srt a).size ∧ (∀ v, v < (srt a).size → at' 0 s.1 v = cnt a v l j) ∧ Md a l j s.2) hij ⟨hf, hf', hq⟩ ?_)
  rintro x ⟨fr, q⟩ hx hx' ⟨g1, g2, g3, g4, g5⟩
  dsimp only at g1 g2 g3 g4 g5
  have hk := key_lt (a := a) (i := x) (by omega)
  have hs : ∀ v, cnt a v l (x + 1) = cnt a v l x + if v = key a x then 1 else 0 := fun v => by
    unfold cnt
    have := C_mono a v (show l ≤ x by omega)
    rw [C_succ]
    split <;> omega
  unfold valueStep
  dsimp only
  rw [rd_at 0 (by omega), ok_bind, h2 x (by omega), rd_at 0 (by omega), ok_bind, wr_eq (by omega), ok_bind, g2 _ hk]
  refine Tot.pure ⟨by simpa using g1, fun v hv => ?_, ?_⟩
  · dsimp only
    rw [at_set 0 (by omega), hs]
    split
    next e => rw [if_pos e.symm, e]
    next e => rw [if_neg (Ne.symm e), g2 v hv]; rfl
  · dsimp only
    obtain ⟨m1, m2, m3⟩ := maxPair_cases q (cnt a (key a x) l x + 1, key a x)
    dsimp only at m3
    refine ⟨?_, ?_, fun v => ?_⟩
    · rcases m1 with m | m <;> rw [m] <;> assumption
    · rw [hs]
      rcases m1 with m | m <;> rw [m]
      · omega
      · rw [if_pos rfl]
    · rw [hs]
      split
      next e => rw [e]; exact m3
      next e => exact (g5 v).trans m2

/-- What the table holds after the blocks with left end below `lb`. -/
def Tab (a : Array T) (bs bn : Nat) (ok : Nat → Nat → Prop) (t : Array (Nat × Nat)) : Prop :=
  t.size = (bn + 1) * (bn + 1) ∧ ∀ l r, l ≤ bn → r ≤ bn → (l < r → ok l r → Md a (l * bs) (min a.size (r * bs)) (at' (0, 0) t (l * (bn + 1) + r))) ∧
    (r ≤ l → at' (0, 0) t (l * (bn + 1) + r) = (0, 0))

theorem idx_inj {bn l r l' r' : Nat} (hr : r ≤ bn) (hr' : r' ≤ bn) (h : l * (bn + 1) + r = l' * (bn + 1) + r') : l = l' ∧ r = r' := by
  have h1 : (l * (bn + 1) + r) / (bn + 1) = l := by
    rw [Nat.mul_comm, Nat.mul_add_div (by omega), Nat.div_eq_of_lt (by omega), Nat.add_zero]
  have h2 : (l' * (bn + 1) + r') / (bn + 1) = l' := by
    rw [Nat.mul_comm, Nat.mul_add_div (by omega), Nat.div_eq_of_lt (by omega), Nat.add_zero]
  rw [h, h2] at h1
  subst h1
  exact ⟨rfl, by omega⟩

theorem idx_lt {bn l r : Nat} (hl : l ≤ bn) (hr : r ≤ bn) : l * (bn + 1) + r < (bn + 1) * (bn + 1) := by
  have : l * (bn + 1) ≤ bn * (bn + 1) := Nat.mul_le_mul_right _ hl
  rw [Nat.add_mul bn 1, Nat.one_mul]
  omega

theorem cnt_self (a : Array T) (v l : Nat) : cnt a v l l = 0 := Nat.sub_self _

theorem left_tot (hn : 1 ≤ a.size) (h1 : as.size = a.size) (h2 : ∀ i, i < a.size → at' 0 as i = key a i) {bs bn lb : Nat} (hlb : lb ≤ bn) (hbn : ∀ x, x < bn → x * bs ≤ a.size)
    {t : Array (Nat × Nat)} (ht : Tab a bs bn (fun l _ => l < lb) t) : Tot (leftStep as a.size bs bn (srt a).size lb t) (Tab a bs bn (fun l _ => l < lb + 1)) := by
  unfold leftStep
  have hk := key_lt (a := a) (i := 0) (by omega)
  refine Tot.bind (Tot.forUp (P := fun rb (s : Array Nat × (Nat × Nat) × Array (Nat × Nat)) => s.1.size = (srt a).size ∧
    (lb < bn → (∀ v, v < (srt a).size → at' 0 s.1 v = cnt a v (lb * bs) (min a.size ((rb - 1) * bs))) ∧ Md a (lb * bs) (min a.size ((rb - 1) * bs)) s.2.1) ∧
    Tab a bs bn (fun l r => l < lb ∨ l = lb ∧ r < rb) s.2.2) (by omega) ?_ ?_) ?_
  · refine ⟨by simp, fun hl => ?_, ht.1, fun l r hl hr => ⟨fun a b => (ht.2 l r hl hr).1 a (by omega), (ht.2 l r hl hr).2⟩⟩
    have := hbn lb hl
    rw [Nat.add_sub_cancel, Nat.min_eq_right this]
    refine ⟨fun v hv => ?_, by dsimp only; omega, by simp, fun v => by rw [cnt_self]⟩
    rw [cnt_self]
    simp [at', hv]
  · rintro rb ⟨fr, q, t⟩ hrb hrb' ⟨g1, g2, g3⟩
    dsimp only at g1 g2 g3
    obtain ⟨g4, g5⟩ := g2 (by omega)
    have hx := hbn (rb - 1) (by omega)
    rw [Nat.min_eq_right hx] at g4 g5
    have hle : lb * bs ≤ (rb - 1) * bs := Nat.mul_le_mul_right _ (by omega)
    have hle2 : (rb - 1) * bs ≤ rb * bs := Nat.mul_le_mul_right _ (by omega)
    unfold rightStep
    dsimp only
    refine Tot.bind (values_tot h1 h2 hle (by omega) (Nat.min_le_left _ _) g1 g4 g5) ?_
    rintro ⟨fr', q'⟩ ⟨k1, k2, k3⟩
    dsimp only at k1 k2 k3 ⊢
    have hi := idx_lt (bn := bn) (l := lb) (r := rb) hlb (by omega)
    have hsz := g3.1
    rw [wr_eq (by omega), ok_bind]
    refine Tot.pure ⟨k1, fun _ => ?_, by simpa using g3.1, fun l r hl hr => ?_⟩
    · dsimp only
      rw [Nat.add_sub_cancel]
      exact ⟨k2, k3⟩
    · dsimp only
      rw [at_set _ (by omega)]
      by_cases e : lb * (bn + 1) + rb = l * (bn + 1) + r
      · rw [if_pos e]
        obtain ⟨rfl, rfl⟩ := idx_inj (by omega) hr e
        exact ⟨fun _ _ => k3, fun h => by omega⟩
      · rw [if_neg e]
        refine ⟨fun hlr ho => (g3.2 l r hl hr).1 hlr ?_, (g3.2 l r hl hr).2⟩
        rcases ho with ho | ⟨ho, ho'⟩
        · exact .inl ho
        · subst ho
          refine .inr ⟨rfl, ?_⟩
          rcases Nat.lt_succ_iff_lt_or_eq.1 ho' with h | h
          · exact h
          · subst h; exact absurd rfl e
  · rintro ⟨fr, q, t⟩ ⟨-, -, g⟩
    exact Tot.pure ⟨g.1, fun l r hl hr => ⟨fun a b => (g.2 l r hl hr).1 a (by dsimp only; omega), (g.2 l r hl hr).2⟩⟩

/-! ### The constructor -/

/-- What the constructor establishes. -/
structure Rep (a : Array T) (s : State T) : Prop where
  len : s.len = a.size
  bs : 1 ≤ s.bs
  bn : ∀ x, x < s.bn ↔ x * s.bs < a.size
  sorted : s.sorted = srt a
  asz : s.a.size = a.size
  av : ∀ i, i < a.size → at' 0 s.a i = key a i
  ssz : s.start.size = (srt a).size + 1
  sv : ∀ v, v ≤ (srt a).size → at' 0 s.start v = L a v
  psz : s.pos.size = a.size
  pv : ∀ i, i < a.size → at' 0 s.pos (rank (key a) a.size i) = i
  isz : s.posInv.size = a.size
  iv : ∀ i, i < a.size → at' 0 s.posInv i = rank (key a) a.size i
  tab : Tab a s.bs s.bn (fun _ _ => True) s.modes

theorem lt_cld {n b x : Nat} (hb : 1 ≤ b) : x < (n + b - 1) / b ↔ x * b < n := by
  rw [Nat.lt_iff_add_one_le, Nat.le_div_iff_mul_le (by omega), Nat.add_mul, Nat.one_mul]
  omega

theorem build_tot (hn : 1 ≤ a.size) : Tot (build a) (Rep a) := by
  have hb : 1 ≤ a.size.sqrt := Nat.sqrt_pos.2 hn
  unfold build
  dsimp only
  unfold cld
  rw [if_neg (by omega), pure_eq, ok_bind]
  refine Tot.bind (compress_tot a) ?_
  rintro ⟨as, st⟩ ⟨h1, h2, h3, h4⟩
  dsimp only at h1 h2 h3 h4 ⊢
  refine Tot.bind (prefix_tot a h2 h4) ?_
  rintro st' ⟨h5, h6⟩
  refine Tot.bind (place_tot a h1 h3 h5 h6) ?_
  rintro ⟨st'', pos, pi⟩ ⟨g1, g2, g3, g4, g5, g6⟩
  dsimp only at g1 g2 g3 g4 g5 g6 ⊢
  obtain ⟨bn, hbn⟩ : ∃ bn, bn = (a.size + a.size.sqrt - 1) / a.size.sqrt := ⟨_, rfl⟩
  rw [← hbn]
  have hlt : ∀ x, x < bn ↔ x * a.size.sqrt < a.size := fun x => by rw [hbn]; exact lt_cld hb
  refine Tot.bind (Tot.forUp (P := fun lb t => Tab a a.size.sqrt bn (fun l _ => l < lb) t) (Nat.zero_le _) ⟨by simp, fun l r hl hr => ⟨fun _ h => by omega, fun _ => ?_⟩⟩
    fun lb t _ hlb ht => left_tot hn h1 h3 (by omega) (fun x hx => ((hlt x).1 hx).le) ht) ?_
  · have := idx_lt hl hr
    simp [at', this]
  · intro t ht
    exact Tot.pure ⟨rfl, hb, hlt, rfl, h1, h3, g1, g4, g2, g5, g3, g6, ht.1, fun l r hl hr => ⟨fun h _ => (ht.2 l r hl hr).1 h (Nat.lt_succ_of_le hl), (ht.2 l r hl hr).2⟩⟩

/-! ### Queries -/

variable {s : State T}

theorem pos_occ (h : Rep a s) {v c : Nat} (hc : c < C a v a.size) (hv : v < (srt a).size) : ∃ x, x < a.size ∧ key a x = v ∧ C a v x = c ∧ L a v + c < s.pos.size ∧ at' 0 s.pos (L a v + c) = x := by
  have h2 : L a v + c < L a (v + 1) := by rw [L_succ]; omega
  obtain ⟨x, hx, hk, hr⟩ := rank_surj (key := key a) (n := a.size) (d := v) (q := L a v + c) (Nat.le_add_right _ _) h2
  have hlt := rank_lt (key := key a) hx
  refine ⟨x, hx, hk, ?_, by rw [h.psz]; omega, ?_⟩
  · rw [rank_eq', hk] at hr
    omega
  · rw [← hr]
    exact h.pv x hx

/-- `_check_right_bound` tells if there are more than `f` occurrences at the positions `i..r-1`. -/
theorem checkRight_tot (h : Rep a s) {i r f : Nat} (hi : i < a.size) (hr : r ≤ a.size) :
    checkRight s (key a i) (rank (key a) a.size i + f) r = .ok (decide (C a (key a i) i + f < C a (key a i) r)) := by
  have hk := key_lt hi
  have h1 := h.ssz
  unfold checkRight
  rw [rd_at 0 (by omega), ok_bind, h.sv _ (by omega), L_succ, rank_eq', Nat.add_assoc]
  have hm := C_mono a (key a i) hr
  by_cases c : C a (key a i) i + f < C a (key a i) a.size
  · rw [if_pos (by omega)]
    obtain ⟨x, e1, e2, e3, e4, e5⟩ := pos_occ h c hk
    rw [rd_at 0 e4, ok_bind, e5, ← e3]
    refine congrArg Except.ok (decide_eq_decide.2 ⟨fun hx => ?_, fun hx => ?_⟩)
    · have := C_mono a (key a i) (show x + 1 ≤ r from hx)
      rw [C_succ, if_pos e2.symm] at this
      omega
    · by_contra hh
      have := C_mono a (key a i) (show r ≤ x by omega)
      omega
  · rw [if_neg (by omega), decide_eq_false (by omega)]
    rfl

/-- `_check_left_bound` tells if there are more than `f` occurrences at the positions `l..i`. -/
theorem checkLeft_tot (h : Rep a s) {i l f : Nat} (hi : i < a.size) (hl : l ≤ i) :
    checkLeft s (key a i) ((rank (key a) a.size i : Int) - f) l = .ok (decide (C a (key a i) l + f < C a (key a i) (i + 1))) := by
  have hk := key_lt hi
  have h1 := h.ssz
  unfold checkLeft
  rw [rd_at 0 (by omega), ok_bind, h.sv _ (by omega), rank_eq']
  have hm := C_mono a (key a i) hl
  have hm' : C a (key a i) (i + 1) ≤ C a (key a i) a.size := C_mono a (key a i) hi
  have hs : C a (key a i) (i + 1) = C a (key a i) i + 1 := by rw [C_succ, if_pos rfl]
  by_cases c : f ≤ C a (key a i) i
  · rw [if_pos (by omega)]
    obtain ⟨x, e1, e2, e3, e4, e5⟩ := pos_occ h (v := key a i) (c := C a (key a i) i - f) (by omega) hk
    rw [show (((L a (key a i) + C a (key a i) i : Nat) : Int) - (f : Int)).toNat = L a (key a i) + (C a (key a i) i - f) by omega, rd_at 0 e4, ok_bind, e5]
    refine congrArg Except.ok (decide_eq_decide.2 ⟨fun hx => ?_, fun hx => ?_⟩)
    · have := C_mono a (key a i) hx
      omega
    · by_contra hh
      have := C_mono a (key a i) (show x + 1 ≤ l by omega)
      rw [C_succ, if_pos e2.symm] at this
      omega
  · rw [if_neg (by omega), decide_eq_false (by omega)]
    rfl

/-- The counting loops, for any check that is a comparison. -/
theorem extend_tot {g : Nat → M Bool} {lim n : Nat} (hg : ∀ f, g f = .ok (decide (f < lim))) (hn : lim ≤ n) {f : Nat} (hf : f ≤ lim) :
    loop (fun f => do if (← g f) then return some (f + 1) else return none) n f = .ok lim := by
  have : Tot (loop (fun f => do if (← g f) then return some (f + 1) else return none) n f) fun x => x = lim := by
    refine Tot.loop (P := fun f => f ≤ lim) (fun f => lim - f) ?_ hf (by omega)
    intro f hf
    rw [hg, ok_bind]
    by_cases c : f < lim
    · rw [decide_eq_true c, if_pos rfl]
      exact Tot.pure ⟨by omega, by omega⟩
    · rw [decide_eq_false c, if_neg (by decide)]
      exact Tot.pure (by omega)
  obtain ⟨x, e, rfl⟩ := this
  exact e

theorem fromLeft_eq (h : Rep a s) {i r : Nat} (hi : i < r) (hr : r ≤ a.size) (q : Nat × Nat) :
    fromLeft s r i q = .ok (if q.1 < cnt a (key a i) i r then (cnt a (key a i) i r, key a i) else q) := by
  have h1 := h.asz
  have h2 := h.isz
  unfold fromLeft
  rw [rd_at 0 (by omega), ok_bind, h.av i (by omega), rd_at 0 (by omega), ok_bind, h.iv i (by omega), checkRight_tot h (by omega) hr, ok_bind]
  have hm := C_mono a (key a i) (show i ≤ r by omega)
  have hle : C a (key a i) r ≤ r := Nat.count_le _
  have hl := h.len
  unfold cnt
  by_cases c : C a (key a i) i + q.1 < C a (key a i) r
  · rw [decide_eq_true c, if_neg (by decide), if_pos (by omega), extend_tot (lim := C a (key a i) r - C a (key a i) i) (fun f => ?_) (by omega) (by omega)]
    · rfl
    · rw [checkRight_tot h (by omega) hr]
      exact congrArg Except.ok (decide_eq_decide.2 (by omega))
  · rw [decide_eq_false c, if_pos (by decide), if_neg (by omega)]
    rfl

theorem fromRight_eq (h : Rep a s) {i l : Nat} (hi : l ≤ i) (hr : i < a.size) (q : Nat × Nat) :
    fromRight s l i q = .ok (if q.1 < cnt a (key a i) l (i + 1) then (cnt a (key a i) l (i + 1), key a i) else q) := by
  have h1 := h.asz
  have h2 := h.isz
  unfold fromRight
  rw [rd_at 0 (by omega), ok_bind, h.av i (by omega), rd_at 0 (by omega), ok_bind, h.iv i (by omega), checkLeft_tot h (by omega) hi, ok_bind]
  have hm := C_mono a (key a i) (show l ≤ i + 1 by omega)
  have hle : C a (key a i) (i + 1) ≤ i + 1 := Nat.count_le _
  have hl := h.len
  unfold cnt
  by_cases c : C a (key a i) l + q.1 < C a (key a i) (i + 1)
  · rw [decide_eq_true c, if_neg (by decide), if_pos (by omega), extend_tot (lim := C a (key a i) (i + 1) - C a (key a i) l) (fun f => ?_) (by omega) (by omega)]
    · rfl
    · rw [checkLeft_tot h (by omega) hi]
      exact congrArg Except.ok (decide_eq_decide.2 (by omega))
  · rw [decide_eq_false c, if_pos (by decide), if_neg (by omega)]
    rfl

theorem cnt_mono (a : Array T) (v : Nat) {l l' r r' : Nat} (h1 : l ≤ l') (h2 : r' ≤ r) : cnt a v l' r' ≤ cnt a v l r := by
  have := C_mono a v h1
  have := C_mono a v h2
  unfold cnt
  omega

/-- No occurrence between two positions. -/
theorem C_eq_of_none (a : Array T) (v : Nat) {i j : Nat} (h : i ≤ j) (hx : ∀ x, i ≤ x → x < j → key a x ≠ v) : C a v i = C a v j := by
  obtain ⟨k, rfl⟩ := Nat.exists_eq_add_of_le h
  clear h
  induction k with
  | zero => rfl
  | succ k ih =>
    rw [← Nat.add_assoc, C_succ, if_neg (hx (i + k) (by omega) (by omega)).symm, ih fun x h1 h2 => hx x h1 (by omega)]
    rfl

theorem query_tot (h : Rep a s) {l r : Nat} (hl : l < r) (hr : r ≤ a.size) : Tot (query s l r) fun q => ∃ m, (srt a)[m]? = some q.1 ∧ cnt a m l r = q.2 ∧ ∀ v, cnt a v l r ≤ q.2 := by
  have hlen := h.len
  have hb := h.bs
  unfold query
  rw [decide_eq_true (by omega), check_true, ok_bind, Int.toNat_natCast, Int.toNat_natCast]
  dsimp only
  unfold cld fld
  rw [if_neg (by omega), if_neg (by omega), pure_eq, ok_bind, pure_eq, ok_bind]
  obtain ⟨lb, hlb⟩ : ∃ lb, lb = (l + s.bs - 1) / s.bs := ⟨_, rfl⟩
  obtain ⟨rb, hrb⟩ : ∃ rb, rb = r / s.bs := ⟨_, rfl⟩
  rw [← hlb, ← hrb]
  have hlb' : ∀ x, x < lb ↔ x * s.bs < l := fun x => by rw [hlb]; exact lt_cld hb
  have hl1 : l ≤ lb * s.bs := by
    by_contra hc
    have := (hlb' lb).2 (by omega)
    omega
  have hl2 : lb ≤ s.bn := by
    by_contra hc
    have h1 := (hlb' s.bn).1 (by omega)
    have := (h.bn s.bn).2 (by omega)
    omega
  have hr1 : rb * s.bs ≤ r := by rw [hrb]; exact Nat.div_mul_le_self _ _
  have hr2 : rb ≤ s.bn := by
    by_contra hc
    have h1 : (s.bn + 1) * s.bs ≤ rb * s.bs := Nat.mul_le_mul_right _ (by omega)
    have : ¬ s.bn * s.bs < a.size := fun hh => by have := (h.bn s.bn).2 hh; omega
    rw [Nat.add_mul] at h1
    omega
  have hr3 : r < (rb + 1) * s.bs := by
    rw [hrb, Nat.add_mul, Nat.one_mul, Nat.mul_comm]
    exact Nat.lt_mul_div_succ _ hb
  have hidx := idx_lt hl2 hr2
  have hsz := h.tab.1
  rw [rd_at (0, 0) (by omega), ok_bind]
  obtain ⟨t1, t2⟩ := h.tab.2 lb rb hl2 hr2
  obtain ⟨q, hq⟩ : ∃ q, q = at' (0, 0) s.modes (lb * (s.bn + 1) + rb) := ⟨_, rfl⟩
  rw [← hq] at t1 t2 ⊢
  have hk0 := key_lt (a := a) (i := 0) (by omega)
  have q1 : q.2 < (srt a).size ∧ q.1 ≤ cnt a q.2 l r ∧ ∀ v, lb < rb → cnt a v (lb * s.bs) (rb * s.bs) ≤ q.1 := by
    by_cases c : lb < rb
    · obtain ⟨a1, a2, a3⟩ := t1 c trivial
      rw [Nat.min_eq_right (by omega)] at a2 a3
      exact ⟨a1, a2.trans (cnt_mono a _ (by omega) (by omega)), fun v _ => a3 v⟩
    · rw [t2 (by omega)]
      exact ⟨by dsimp only; omega, Nat.zero_le _, fun v hh => absurd hh c⟩
  -- the left part
  refine Tot.bind (Tot.forUp (P := fun i (q' : Nat × Nat) => q'.2 < (srt a).size ∧ q'.1 ≤ cnt a q'.2 l r ∧ q.1 ≤ q'.1 ∧ ∀ x, l ≤ x → x < i → cnt a (key a x) x r ≤ q'.1) (by omega)
    ⟨q1.1, q1.2.1, le_rfl, fun _ _ _ => by omega⟩ ?_) ?_
  · rintro i q' hi hi' ⟨a1, a2, a3, a4⟩
    rw [fromLeft_eq h (by omega) hr]
    refine Tot.pure ?_
    split
    next c =>
      refine ⟨key_lt (by omega), cnt_mono a _ hi le_rfl, by dsimp only; omega, fun x hx hx' => ?_⟩
      dsimp only
      by_cases e : x = i
      · rw [e]
      · have := a4 x hx (by omega)
        omega
    next c =>
      refine ⟨a1, a2, a3, fun x hx hx' => ?_⟩
      by_cases e : x = i
      · rw [e]; omega
      · exact a4 x hx (by omega)
  rintro q2 ⟨a1, a2, a3, a4⟩
  -- the right part
  refine Tot.bind (Tot.forDown (P := fun i (q' : Nat × Nat) => q'.2 < (srt a).size ∧ q'.1 ≤ cnt a q'.2 l r ∧ q2.1 ≤ q'.1 ∧ ∀ x, i ≤ x → x < r → cnt a (key a x) l (x + 1) ≤ q'.1) (by omega)
    ⟨a1, a2, le_rfl, fun _ _ _ => by omega⟩ ?_) ?_
  · rintro i q' hi hi' ⟨b1, b2, b3, b4⟩
    rw [fromRight_eq h (by omega) (by omega)]
    refine Tot.pure ?_
    split
    next c =>
      refine ⟨key_lt (by omega), cnt_mono a _ le_rfl hi', by dsimp only; omega, fun x hx hx' => ?_⟩
      dsimp only
      by_cases e : x = i
      · rw [e]
      · have := b4 x (by omega) hx'
        omega
    next c =>
      refine ⟨b1, b2, b3, fun x hx hx' => ?_⟩
      by_cases e : x = i
      · rw [e]; omega
      · exact b4 x (by omega) hx'
  rintro q3 ⟨b1, b2, b3, b4⟩
  have hall : ∀ v, cnt a v l r ≤ q3.1 := by
    intro v
    by_cases c1 : ∃ x, l ≤ x ∧ x < min r (lb * s.bs) ∧ key a x = v
    · classical
      obtain ⟨hx1, hx2, hx3⟩ := Nat.find_spec c1
      have hmin : ∀ y, l ≤ y → y < Nat.find c1 → key a y ≠ v := fun y hy hy' he => Nat.find_min c1 hy' ⟨hy, by omega, he⟩
      have := a4 _ hx1 hx2
      rw [hx3] at this
      have e := C_eq_of_none a v hx1 hmin
      unfold cnt at this ⊢
      omega
    · have hno : ∀ x, l ≤ x → x < min r (lb * s.bs) → key a x ≠ v := fun x h1 h2 h3 => c1 ⟨x, h1, h2, h3⟩
      by_cases c2 : ∃ d, d < r - max l (rb * s.bs) ∧ key a (r - 1 - d) = v
      · classical
        obtain ⟨hx1, hx2⟩ := Nat.find_spec c2
        have hmin : ∀ y, r - 1 - Nat.find c2 + 1 ≤ y → y < r → key a y ≠ v := fun y hy hy' he =>
          Nat.find_min c2 (m := r - 1 - y) (by omega) ⟨by omega, by rw [show r - 1 - (r - 1 - y) = y by omega]; exact he⟩
        have := b4 (r - 1 - Nat.find c2) (by omega) (by omega)
        rw [hx2] at this
        have e := C_eq_of_none a v (show r - 1 - Nat.find c2 + 1 ≤ r by omega) hmin
        unfold cnt at this ⊢
        omega
      · have hno2 : ∀ x, max l (rb * s.bs) ≤ x → x < r → key a x ≠ v := fun x h1 h2 h3 =>
          c2 ⟨r - 1 - x, by omega, by rw [show r - 1 - (r - 1 - x) = x by omega]; exact h3⟩
        by_cases c3 : lb < rb
        · have hm : (lb + 1) * s.bs ≤ rb * s.bs := Nat.mul_le_mul_right _ c3
          have hm' : lb * s.bs ≤ rb * s.bs := Nat.mul_le_mul_right _ c3.le
          have e1 := C_eq_of_none a v hl1 fun x h1 h2 => hno x h1 (by omega)
          have e2 := C_eq_of_none a v hr1 fun x h1 h2 => hno2 x (by omega) h2
          have := q1.2.2 v c3
          unfold cnt at this ⊢
          omega
        · have hm : rb * s.bs ≤ lb * s.bs := Nat.mul_le_mul_right _ (by omega)
          have e1 := C_eq_of_none a v hl.le fun x h1 h2 => by
            by_cases d : x < lb * s.bs
            · exact hno x h1 (by omega)
            · exact hno2 x (by omega) h2
          unfold cnt
          omega
  rw [h.sorted, rd_eq b1, ok_bind]
  exact Tot.pure ⟨q3.2, Array.getElem?_eq_getElem b1, le_antisymm (hall _) b2, hall⟩

/-! ### Occurrences in the array -/

theorem C_count {j : Nat} (hj : j ≤ a.size) {v : Nat} {x : T} (hx : (srt a)[v]? = some x) : C a v j = (a.toList.take j).count x := by
  induction j with
  | zero => simp [C]
  | succ j ih =>
    rw [C_succ, ih (by omega), List.take_add_one, List.count_append]
    have hj' : j < a.size := hj
    rw [show a.toList[j]? = some a[j] by rw [Array.getElem?_toList, Array.getElem?_eq_getElem hj']]
    have := key_eq_iff hj' hx
    by_cases c : key a j = v
    · rw [if_pos c.symm, this.1 c]
      simp
    · rw [if_neg (Ne.symm c)]
      have hne : a[j] ≠ x := fun hh => c (this.2 hh)
      simp [hne]

theorem occ_eq {l r : Nat} (hl : l ≤ r) (hr : r ≤ a.size) {v : Nat} {x : T} (hx : (srt a)[v]? = some x) : Spec.occ a l r x = cnt a v l r := by
  unfold Spec.occ cnt
  rw [C_count hr hx, C_count (hl.trans hr) hx]
  have e : a.toList.take r = a.toList.take l ++ (a.toList.drop l).take (r - l) := by
    rw [← List.take_add]
    congr 1
    omega
  rw [e, List.count_append]
  omega

theorem occ_mem {l r : Nat} {x : T} (h : Spec.occ a l r x ≠ 0) : ∃ v : Nat, (srt a)[v]? = some x := by
  unfold Spec.occ at h
  have h1 := List.count_pos_iff.1 (Nat.pos_of_ne_zero h)
  have h2 := (mem_srt a x).2 (List.mem_of_mem_drop (List.mem_of_mem_take h1))
  obtain ⟨i, hi, e⟩ := List.getElem_of_mem h2
  exact ⟨i, by rw [← Array.getElem?_toList, List.getElem?_eq_getElem hi, e]⟩

end RangeMode
