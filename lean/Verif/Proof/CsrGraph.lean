import Verif.Spec.CsrGraph

/-!
# Adjacency lists in one array
-/

namespace CsrGraph
open Cxx Spec
variable {W : Type}

theorem moveFwd_tot {e : Array (Nat × W)} {src dst cnt : Nat} (h : dst ≤ src) (hs : src + cnt ≤ e.size) :
    Tot (moveFwd e src dst cnt) fun e' => e'.size = e.size ∧
      ∀ k, e'[k]? = if dst ≤ k ∧ k < dst + cnt then e[k - dst + src]? else e[k]? := by
  unfold moveFwd
  refine (Tot.forUp (P := fun c e' => e'.size = e.size ∧
      ∀ k, e'[k]? = if dst ≤ k ∧ k < dst + c then e[k - dst + src]? else e[k]?) (Nat.zero_le _) ⟨rfl, fun k => ?_⟩ ?_).mono
    fun _ h => h
  · rw [if_neg (by omega)]
  · rintro c e' - hc ⟨hz, hv⟩
    have h1 : src + c < e'.size := by omega
    rw [rd_eq h1, ok_bind, wr_eq (by omega)]
    refine Tot.pure ⟨by simp [hz], fun k => ?_⟩
    have hx := hv (src + c)
    rw [if_neg (by omega)] at hx
    rw [Array.getElem?_setIfInBounds]
    by_cases hk : dst + c = k
    · subst hk
      rw [if_pos rfl, if_pos (by omega), if_pos (by omega), show dst + c - dst + src = src + c by omega, ← hx]
      simp [h1]
    · rw [if_neg hk, hv]
      by_cases h2 : dst ≤ k ∧ k < dst + c
      · rw [if_pos h2, if_pos (by omega)]
      · rw [if_neg h2, if_neg (by omega)]

theorem moveBwd_tot {e : Array (Nat × W)} {src num cnt : Nat} (h : 0 < num ∨ cnt = 0) (hs : src + num + cnt ≤ e.size) :
    Tot (moveBwd e src num cnt) fun e' => e'.size = e.size ∧
      ∀ k, e'[k]? = if src + num ≤ k ∧ k < src + num + cnt then e[k - num]? else e[k]? := by
  unfold moveBwd
  rw [if_neg (by omega)]
  refine (Tot.forDown (P := fun c e' => e'.size = e.size ∧
      ∀ k, e'[k]? = if src + num + c ≤ k ∧ k < src + num + cnt then e[k - num]? else e[k]?) (Nat.zero_le _) ⟨rfl, fun k => ?_⟩
    ?_).mono fun _ h => h
  · rw [if_neg (by omega)]
  · rintro c e' - hc ⟨hz, hv⟩
    have h1 : src + c < e'.size := by omega
    rw [rd_eq h1, ok_bind, wr_eq (by omega)]
    refine Tot.pure ⟨by simp [hz], fun k => ?_⟩
    have hx := hv (src + c)
    rw [if_neg (by omega)] at hx
    rw [Array.getElem?_setIfInBounds]
    by_cases hk : src + num + c = k
    · subst hk
      rw [if_pos rfl, if_pos (by omega), if_pos (by omega), show src + num + c - num = src + c by omega, ← hx]
      simp [h1]
    · rw [if_neg hk, hv]
      by_cases h2 : src + num + (c + 1) ≤ k ∧ k < src + num + cnt
      · rw [if_pos h2, if_pos (by omega)]
      · rw [if_neg h2, if_neg (by omega)]

theorem copyTo_tot {e xs : Array (Nat × W)} {p : Nat} (hs : p + xs.size ≤ e.size) :
    Tot (copyTo e p xs) fun e' => e'.size = e.size ∧
      ∀ k, e'[k]? = if p ≤ k ∧ k < p + xs.size then xs[k - p]? else e[k]? := by
  unfold copyTo
  refine (Tot.forUp (P := fun c e' => e'.size = e.size ∧
      ∀ k, e'[k]? = if p ≤ k ∧ k < p + c then xs[k - p]? else e[k]?) (Nat.zero_le _) ⟨rfl, fun k => ?_⟩ ?_).mono
    fun _ h => h
  · rw [if_neg (by omega)]
  · rintro c e' - hc ⟨hz, hv⟩
    rw [rd_eq hc, ok_bind, wr_eq (by omega)]
    refine Tot.pure ⟨by simp [hz], fun k => ?_⟩
    rw [Array.getElem?_setIfInBounds]
    by_cases hk : p + c = k
    · subst hk
      rw [if_pos rfl, if_pos (by omega), if_pos (by omega)]
      simp [hc]
    · rw [if_neg hk, hv]
      by_cases h2 : p ≤ k ∧ k < p + c
      · rw [if_pos h2, if_pos (by omega)]
      · rw [if_neg h2, if_neg (by omega)]

/-- The segment of `e` that starts at `o` is the list `l`. -/
def Seg (e : Array (Nat × W)) (o : Nat) (l : List (Nat × W)) : Prop := ∀ j < l.length, e[o + j]? = l[j]?

theorem elems_eq {e : Array (Nat × W)} {a : Adj} {l : List (Nat × W)} (h : Seg e a.offset l) (hz : a.siz = l.length) :
    elems e a = .ok l := by
  rw [← tot_eq]
  unfold elems
  refine (Tot.forUp (P := fun c r => r = l.take c) (Nat.zero_le _) (by simp) ?_).mono ?_
  · rintro c r - hc rfl
    have hx := h c (by omega)
    rw [rd_some (hx.trans (List.getElem?_eq_getElem (by omega))), ok_bind]
    exact Tot.pure (by rw [List.take_succ_eq_append_getElem])
  · rintro r rfl
    rw [hz, List.take_length]

theorem relems_eq {e : Array (Nat × W)} {a : Adj} {l : List (Nat × W)} (h : Seg e a.offset l) (hz : a.siz = l.length)
    (hs : a.offset + a.siz ≤ e.size) : relems e a = .ok l.reverse := by
  rw [← tot_eq]
  unfold relems
  refine (Tot.forUp (P := fun c r => r = l.reverse.take c) (Nat.zero_le _) (by simp) ?_).mono ?_
  · rintro c r - hc rfl
    have hx := h (l.length - 1 - c) (by omega)
    rw [show e.size - 1 - (e.size - (a.offset + a.siz) + c) = a.offset + (l.length - 1 - c) by omega,
      rd_some (hx.trans (List.getElem?_eq_getElem (by omega))), ok_bind]
    refine Tot.pure ?_
    rw [List.take_succ_eq_append_getElem (by simp; omega), List.getElem_reverse]
  · rintro r rfl
    rw [hz, ← List.length_reverse, List.take_length]

/-- The graph stores the state: the list of `i` has the places `off i, …, off i + room i - 1`. -/
structure Rep (g : Graph W) (S : State W) (off room : Nat → Nat) : Prop where
  n : g.n = S.n
  sz : g.adj.size = S.n
  adj : ∀ i < S.n, g.adj[i]? = some ⟨(S.v i).fresh, (S.v i).cap, off i, (S.v i).list.length⟩
  fit : ∀ i < S.n, (S.v i).list.length ≤ room i ∧ (S.v i).cap ≤ room i ∧ off i + room i ≤ g.edges.size
  dis : ∀ i j, i < j → j < S.n → off i + room i ≤ off j
  val : ∀ i < S.n, Seg g.edges (off i) (S.v i).list

variable {g : Graph W} {S : State W} {off room : Nat → Nat}

theorem query_tot (h : Rep g S off room) {i : Nat} (hi : i < S.n) {f : Array (Nat × W) → Adj → M (Out W)} {o : Out W}
    (hf : f g.edges ⟨true, (S.v i).cap, off i, (S.v i).list.length⟩ = .ok o) :
    Tot (query g i f) fun q => q.2 = o ∧ Rep q.1 (S.put i (S.v i).list) off room := by
  unfold query access
  rw [rd_some (h.adj i hi), ok_bind, wr_eq (by rw [h.sz]; exact hi)]
  simp only [ok_bind, pure_eq]
  rw [hf, ok_bind]
  refine Tot.pure ⟨rfl, h.n, by simp [h.sz, State.put], fun j hj => ?_, fun j hj => ?_, h.dis, fun j hj => ?_⟩
  · dsimp only [State.put] at hj ⊢
    rw [Array.getElem?_setIfInBounds]
    by_cases e : i = j
    · subst e; simp [h.sz, hi]
    · rw [if_neg e, if_neg (Ne.symm e)]; exact h.adj j hj
  · dsimp only [State.put] at hj ⊢
    by_cases e : j = i
    · subst e; rw [if_pos rfl]; exact h.fit j hj
    · rw [if_neg e]; exact h.fit j hj
  · dsimp only [State.put] at hj ⊢
    by_cases e : j = i
    · subst e; rw [if_pos rfl]; exact h.val j hj
    · rw [if_neg e]; exact h.val j hj

theorem modify_tot (h : Rep g S off room) {i : Nat} (hi : i < S.n) {f : Array (Nat × W) → Adj → M (Array (Nat × W) × Adj)}
    {l : List (Nat × W)} (hl : l.length ≤ room i)
    (hf : Tot (f g.edges ⟨true, (S.v i).cap, off i, (S.v i).list.length⟩) fun q => q.2 = ⟨true, (S.v i).cap, off i, l.length⟩ ∧
      q.1.size = g.edges.size ∧ (∀ k, k < off i ∨ off i + room i ≤ k → q.1[k]? = g.edges[k]?) ∧ Seg q.1 (off i) l) :
    Tot (modify g i f) fun q => q.2 = .unit ∧ Rep q.1 (S.put i l) off room := by
  unfold modify access
  rw [rd_some (h.adj i hi), ok_bind, wr_eq (by rw [h.sz]; exact hi)]
  simp only [ok_bind, pure_eq]
  refine Tot.bind hf ?_
  rintro ⟨e', a'⟩ ⟨h1, h2, h3, h4⟩
  dsimp only at h1 h2 h3 h4 ⊢
  subst h1
  rw [wr_eq (by simp [h.sz, hi]), ok_bind]
  refine Tot.pure ⟨rfl, h.n, by simp [h.sz, State.put], fun j hj => ?_, fun j hj => ?_, h.dis, fun j hj => ?_⟩
  · dsimp only [State.put] at hj ⊢
    rw [Array.getElem?_setIfInBounds]
    by_cases e : i = j
    · subst e; simp [h.sz, hi]
    · rw [if_neg e, if_neg (Ne.symm e), Array.getElem?_setIfInBounds, if_neg e]; exact h.adj j hj
  · dsimp only [State.put] at hj ⊢
    by_cases e : j = i
    · subst e; rw [if_pos rfl]; dsimp only; rw [h2]; exact ⟨hl, (h.fit j hj).2⟩
    · rw [if_neg e, h2]; exact h.fit j hj
  · dsimp only [State.put] at hj ⊢
    by_cases e : j = i
    · subst e; rw [if_pos rfl]; exact h4
    · rw [if_neg e]
      intro k hk
      have hf := (h.fit j hj).1
      rw [h3 _ ?_]
      · exact h.val j hj k hk
      · rcases Nat.lt_or_gt_of_ne e with e | e
        · have := h.dis j i e hi; omega
        · have := h.dis i j e hj; omega

/-- Insertion of `xs` at `k`. -/
theorem insert_tot {e : Array (Nat × W)} {c : Int} {o r k num : Nat} {l xs : List (Nat × W)} (hk : k ≤ l.length)
    (hn : num = xs.length) (hc : (l.length : Int) + num ≤ c) (hcr : c ≤ r) (hr : o + r ≤ e.size) (hv : Seg e o l)
    (hnum : 0 < num ∨ k = l.length) :
    Tot (shiftBack e ⟨true, c, o, l.length⟩ k num) fun q => q.2 = ⟨true, c, o, (l.take k ++ xs ++ l.drop k).length⟩ ∧
      q.1.size = e.size ∧ ∀ q', q'.size = e.size → (∀ m, q'[m]? = if o + k ≤ m ∧ m < o + k + num then xs[m - (o + k)]? else q.1[m]?) →
        (∀ m, m < o ∨ o + r ≤ m → q'[m]? = e[m]?) ∧ Seg q' o (l.take k ++ xs ++ l.drop k) := by
  unfold shiftBack
  dsimp only
  rw [show decide (((l.length + num : Nat) : Int) ≤ c) = true from by simp; omega, check_true]
  simp only [ok_bind, pure_eq]
  refine Tot.bind (moveBwd_tot (by omega) (by omega)) ?_
  rintro e' ⟨h1, h2⟩
  refine Tot.pure ⟨by simp; omega, h1, ?_⟩
  intro q' hq hq'
  constructor
  · intro m hm
    rw [hq', if_neg (by omega), h2, if_neg (by omega)]
  · intro j hj
    have hj' : j < l.length + num := by simp at hj; omega
    rw [hq', h2]
    by_cases a1 : j < k
    · rw [if_neg (by omega), if_neg (by omega), hv j (by omega)]
      grind
    · by_cases a2 : j < k + num
      · rw [if_pos (by omega)]
        grind
      · rw [if_neg (by omega), if_pos (by omega), show o + j - num = o + (j - num) by omega, hv _ (by omega)]
        grind

theorem erase_tot {e : Array (Nat × W)} {c : Int} {o r a b : Nat} {l : List (Nat × W)} (hab : a ≤ b) (hb : b ≤ l.length)
    (hlr : l.length ≤ r) (hr : o + r ≤ e.size) (hv : Seg e o l) :
    Tot (erase e ⟨true, c, o, l.length⟩ a b) fun q => q.2 = ⟨true, c, o, (l.take a ++ l.drop b).length⟩ ∧
      q.1.size = e.size ∧ (∀ m, m < o ∨ o + r ≤ m → q.1[m]? = e[m]?) ∧ Seg q.1 o (l.take a ++ l.drop b) := by
  unfold erase
  rw [show decide (a ≤ b) = true from by simpa using hab, check_true]
  simp only [ok_bind, pure_eq]
  by_cases h0 : b - a = 0
  · rw [if_pos h0]
    obtain rfl : a = b := by omega
    rw [List.take_append_drop]
    exact Tot.pure ⟨rfl, rfl, fun _ _ => rfl, hv⟩
  · rw [if_neg h0, show decide (a + (b - a) ≤ l.length) = true from by simp; omega, check_true]
    simp only [ok_bind]
    refine Tot.bind (moveFwd_tot (by omega) (by omega)) ?_
    rintro e' ⟨h1, h2⟩
    refine Tot.pure ⟨by simp; omega, h1, fun m hm => by rw [h2, if_neg (by omega)], fun j hj => ?_⟩
    have hj' : j < l.length - (b - a) := by simp at hj; omega
    rw [h2]
    by_cases a1 : j < a
    · rw [if_neg (by omega), hv j (by omega)]
      grind
    · rw [if_pos (by omega), show o + j - (o + a) + (o + a + (b - a)) = o + (j + (b - a)) by omega, hv _ (by omega)]
      grind

theorem Rep.seg_some (h : Rep g S off room) {i j : Nat} (hi : i < S.n) (hj : j < (S.v i).list.length) :
    g.edges[off i + j]? = some (S.v i).list[j] := (h.val i hi j hj).trans (List.getElem?_eq_getElem hj)

theorem moved_rep (h : Rep g S off room) : Rep (moved g) (next S .moved) off room := by
  refine ⟨h.n, by simp [moved, next, h.sz], fun i hi => ?_, h.fit, h.dis, h.val⟩
  simp [moved, next, h.adj i hi]

/-- The calls on a list. -/
theorem list_step_tot [Inhabited W] (h : Rep g S off room) (c : Op W) (hc : Pre S c) (hs : c ≠ .shrinkToFit) :
    Tot (step g c) fun r => Rep r.1 (next S c) off room ∧ Ans S c r.2 := by
  cases c with
  | size i =>
    dsimp only [step]
    exact Tot.mono (query_tot h hc rfl) fun r hr => ⟨hr.2, hr.1⟩
  | capacity i =>
    dsimp only [step]
    exact Tot.mono (query_tot h hc rfl) fun r hr => ⟨hr.2, hr.1⟩
  | list i =>
    dsimp only [step]
    refine Tot.mono (query_tot h hc (o := .list (S.v i).list) ?_) fun r hr => ⟨hr.2, hr.1⟩
    rw [elems_eq (l := (S.v i).list) (h.val i hc) rfl]; rfl
  | rlist i =>
    dsimp only [step]
    refine Tot.mono (query_tot h hc (o := .list (S.v i).list.reverse) ?_) fun r hr => ⟨hr.2, hr.1⟩
    rw [relems_eq (l := (S.v i).list) (h.val i hc) rfl (by have := h.fit i hc; dsimp only; omega)]; rfl
  | get i j =>
    dsimp only [step]
    refine Tot.mono (query_tot h hc.1 (o := .edge ((S.v i).list[j]'hc.2)) ?_) fun r hr => ⟨hr.2, _, List.getElem?_eq_getElem hc.2, hr.1⟩
    rw [rd_some (h.seg_some hc.1 hc.2)]; rfl
  | «at» i j =>
    dsimp only [step]
    refine Tot.mono (query_tot h hc.1 (o := .edge ((S.v i).list[j]'hc.2)) ?_) fun r hr => ⟨hr.2, _, List.getElem?_eq_getElem hc.2, hr.1⟩
    rw [show decide (j < (S.v i).list.length) = true from by simpa using hc.2, check_true, rd_some (h.seg_some hc.1 hc.2)]; rfl
  | set i j x =>
    dsimp only [step]
    refine Tot.mono (modify_tot h hc.1 (l := (S.v i).list.set j x) (by simpa using (h.fit i hc.1).1) ?_) fun r hr => ⟨hr.2, hr.1⟩
    have hf := h.fit i hc.1
    have hj : j < (S.v i).list.length := hc.2
    dsimp only
    rw [wr_eq (by omega)]
    refine Tot.pure ⟨by simp, by simp, fun k hk => ?_, fun k hk => ?_⟩
    · rw [Array.getElem?_setIfInBounds, if_neg (by omega)]
    · have hk' : k < (S.v i).list.length := by simpa using hk
      rw [Array.getElem?_setIfInBounds, List.getElem?_set]
      by_cases e : j = k
      · subst e; rw [if_pos rfl, if_pos rfl, if_pos hj, if_pos (by omega)]
      · rw [if_neg (by omega), if_neg e]; exact h.val i hc.1 k hk'
  | front i =>
    dsimp only [step]
    have hp : 0 < (S.v i).list.length := List.length_pos_iff.mpr hc.2
    refine Tot.mono (query_tot h hc.1 (o := .edge ((S.v i).list[0]'hp)) ?_)
      fun r hr => ⟨hr.2, _, by rw [List.head?_eq_getElem?, List.getElem?_eq_getElem hp], hr.1⟩
    have := h.seg_some hc.1 hp
    rw [Nat.add_zero] at this
    rw [rd_some this]; rfl
  | back i =>
    dsimp only [step]
    have hp : 0 < (S.v i).list.length := List.length_pos_iff.mpr hc.2
    have hp' : (S.v i).list.length - 1 < (S.v i).list.length := by omega
    refine Tot.mono (query_tot h hc.1 (o := .edge ((S.v i).list[(S.v i).list.length - 1]'hp')) ?_)
      fun r hr => ⟨hr.2, _, by rw [List.getLast?_eq_getElem?, List.getElem?_eq_getElem hp'], hr.1⟩
    have := h.seg_some hc.1 hp'
    dsimp only
    rw [if_neg (by omega), show off i + (S.v i).list.length - 1 = off i + ((S.v i).list.length - 1) by omega, rd_some this]; rfl
  | erase i a b =>
    dsimp only [step]
    have hf := h.fit i hc.1
    obtain ⟨hi, hab, hb⟩ := hc
    exact Tot.mono (modify_tot h hi (l := (S.v i).list.take a ++ (S.v i).list.drop b) (by simp; omega)
      (erase_tot hab hb hf.1 hf.2.2 (h.val i hi))) fun r hr => ⟨hr.2, hr.1⟩
  | popBack i =>
    dsimp only [step]
    have hf := h.fit i hc.1
    have hp : (S.v i).list.length ≠ 0 := by simpa using hc.2
    refine Tot.mono (modify_tot h hc.1 (l := (S.v i).list.dropLast) (by simp; omega) ?_) fun r hr => ⟨hr.2, hr.1⟩
    unfold popBack
    rw [show decide ((S.v i).list.length ≠ 0) = true from by simpa using hc.2, check_true]
    refine Tot.pure ⟨by simp, rfl, fun _ _ => rfl, fun j hj => ?_⟩
    have hj' : j < (S.v i).list.length - 1 := by simpa using hj
    rw [h.val i hc.1 j (by omega)]
    grind
  | clear i =>
    dsimp only [step]
    refine Tot.mono (modify_tot h hc (l := []) (by simp) ?_) fun r hr => ⟨hr.2, hr.1⟩
    exact Tot.pure ⟨rfl, rfl, fun _ _ => rfl, fun j hj => absurd hj (by simp)⟩
  | pushBack i x =>
    dsimp only [step]
    obtain ⟨hi, hcp⟩ := hc
    have hf := h.fit i hi
    refine Tot.mono (modify_tot h hi (l := (S.v i).list ++ [x]) (by simp; omega) ?_) fun r hr => ⟨hr.2, hr.1⟩
    unfold pushBack
    dsimp only
    rw [show decide ((((S.v i).list.length + 1 : Nat) : Int) ≤ (S.v i).cap) = true from by simp; omega, check_true]
    simp only [ok_bind]
    rw [wr_eq (by omega)]
    refine Tot.pure ⟨by simp, by simp, fun k hk => ?_, fun j hj => ?_⟩
    · rw [Array.getElem?_setIfInBounds, if_neg (by omega)]
    · have hj' : j < (S.v i).list.length + 1 := by simpa using hj
      rw [Array.getElem?_setIfInBounds]
      by_cases e : j = (S.v i).list.length
      · subst e; rw [if_pos (by omega), if_pos (by omega)]; simp
      · rw [if_neg (by omega), h.val i hi j (by omega), List.getElem?_append_left (by omega)]
  | insertN i k num x =>
    dsimp only [step]
    obtain ⟨hi, hk, hcp, hn⟩ := hc
    have hf := h.fit i hi
    refine Tot.mono (modify_tot h hi (l := (S.v i).list.take k ++ List.replicate num x ++ (S.v i).list.drop k) (by simp; omega) ?_)
      fun r hr => ⟨hr.2, hr.1⟩
    unfold insertN
    rw [show decide (k ≤ (S.v i).list.length) = true from by simpa using hk, check_true]
    simp only [ok_bind]
    refine Tot.bind (insert_tot (xs := List.replicate num x) hk (by simp) hcp hf.2.1 hf.2.2 (h.val i hi) hn) ?_
    rintro ⟨e', a'⟩ ⟨rfl, hz, hq⟩
    dsimp only at hz hq ⊢
    refine Tot.bind (copyTo_tot (by simp [hz]; omega)) ?_
    rintro q ⟨hz', hq'⟩
    refine Tot.pure ⟨rfl, hz'.trans hz, hq q (hz'.trans hz) fun m => ?_⟩
    rw [hq' m]
    simp only [Array.size_replicate]
    congr 1
    simp [Array.getElem?_replicate, List.getElem?_replicate]
  | insertRange i k xs =>
    dsimp only [step]
    obtain ⟨hi, hk, hcp, hn⟩ := hc
    have hf := h.fit i hi
    refine Tot.mono (modify_tot h hi (l := (S.v i).list.take k ++ xs.toList ++ (S.v i).list.drop k) (by simp; omega) ?_)
      fun r hr => ⟨hr.2, hr.1⟩
    unfold insertRange
    rw [show decide (k ≤ (S.v i).list.length) = true from by simpa using hk, check_true]
    simp only [ok_bind]
    refine Tot.bind (insert_tot (xs := xs.toList) hk (by simp) hcp hf.2.1 hf.2.2 (h.val i hi) hn) ?_
    rintro ⟨e', a'⟩ ⟨rfl, hz, hq⟩
    dsimp only at hz hq ⊢
    refine Tot.bind (copyTo_tot (by simp [hz]; omega)) ?_
    rintro q ⟨hz', hq'⟩
    refine Tot.pure ⟨rfl, hz'.trans hz, hq q (hz'.trans hz) fun m => ?_⟩
    rw [hq' m, Array.getElem?_toList]
  | emplace i k x =>
    dsimp only [step]
    obtain ⟨hi, hk, hcp⟩ := hc
    have hf := h.fit i hi
    refine Tot.mono (modify_tot h hi (l := (S.v i).list.take k ++ [x] ++ (S.v i).list.drop k) (by simp; omega) ?_)
      fun r hr => ⟨hr.2, hr.1⟩
    unfold emplace
    rw [show decide (k ≤ (S.v i).list.length) = true from by simpa using hk, check_true]
    simp only [ok_bind]
    refine Tot.bind (insert_tot (xs := [x]) (num := 1) hk rfl (by simpa using hcp) hf.2.1 hf.2.2 (h.val i hi) (by simp)) ?_
    rintro ⟨e', a'⟩ ⟨rfl, hz, hq⟩
    dsimp only at hz hq ⊢
    rw [wr_eq (by omega)]
    refine Tot.pure ⟨rfl, by simpa using hz, hq _ (by simpa using hz) fun m => ?_⟩
    rw [Array.getElem?_setIfInBounds]
    by_cases e : off i + k + 1 - 1 = m
    · subst e; rw [if_pos rfl, if_pos (by omega), if_pos (by omega)]; simp
    · rw [if_neg e, if_neg (by omega)]
  | shrinkToFit => exact absurd rfl hs
  | moved => exact Tot.pure ⟨moved_rep h, rfl⟩

/-! ### `shrink_to_fit` -/

/-- The sum of `f 0, …, f (i - 1)`. -/
def offs (f : Nat → Nat) (i : Nat) : Nat := ((List.range i).map f).sum

theorem offs_succ (f : Nat → Nat) (i : Nat) : offs f (i + 1) = offs f i + f i := by
  simp [offs, List.range_succ]

theorem offs_mono (f : Nat → Nat) {i j : Nat} (h : i ≤ j) : offs f i ≤ offs f j := by
  induction h with
  | refl => exact Nat.le_refl _
  | step _ ih => rw [offs_succ]; omega

theorem offs_dis (f : Nat → Nat) {i j : Nat} (h : i < j) : offs f i + f i ≤ offs f j := by
  rw [← offs_succ]; exact offs_mono f h

theorem shrink_tot [Inhabited W] (h : Rep g S off room) (hp : ∀ i < S.n, (S.v i).fresh = true) :
    Tot (shrinkToFit g) fun g' => Rep g' (next S .shrinkToFit) (offs fun i => (S.v i).list.length) fun i => (S.v i).list.length := by
  obtain ⟨o, ho⟩ : ∃ o, o = offs fun i => (S.v i).list.length := ⟨_, rfl⟩
  have ho1 : ∀ i, o (i + 1) = o i + (S.v i).list.length := fun i => by rw [ho]; exact offs_succ _ _
  have hom : ∀ {i j}, i ≤ j → o i ≤ o j := fun h => by rw [ho]; exact offs_mono _ h
  have ho0 : o 0 = 0 := by rw [ho]; rfl
  have hsum : (g.adj.toList.map Adj.siz).sum = o S.n := by
    rw [ho]
    unfold offs
    congr 1
    apply List.ext_getElem?
    intro i
    by_cases hi : i < S.n
    · simp [h.adj i hi, hi]
    · simp [hi]; rw [h.sz]; omega
  unfold shrinkToFit
  dsimp only
  rw [hsum, h.n, ← ho]
  refine Tot.bind (Tot.forUp (P := fun i st => st.1.size = S.n ∧ st.2.1.size = o S.n ∧ st.2.2 = o i ∧
      (∀ j < S.n, st.1[j]? = if j < i then some ⟨(S.v j).fresh, (S.v j).list.length, o j, (S.v j).list.length⟩
        else some ⟨(S.v j).fresh, (S.v j).cap, off j, (S.v j).list.length⟩) ∧
      ∀ j < i, Seg st.2.1 (o j) (S.v j).list) (Nat.zero_le _)
      ⟨h.sz, by simp, by simp [ho0], fun j hj => by rw [if_neg (by omega)]; exact h.adj j hj, fun j hj => absurd hj (by omega)⟩ ?_) ?_
  · rintro i ⟨adj, ne, it⟩ - hi ⟨h1, h2, h3, h4, h5⟩
    dsimp only at h1 h2 h3 h4 h5
    have hi4 := h4 i hi
    rw [if_neg (by omega)] at hi4
    unfold shrinkStep deref
    dsimp only
    rw [rd_some hi4, ok_bind]
    dsimp only
    rw [if_pos (hp i hi)]
    simp only [ok_bind]
    rw [elems_eq (l := (S.v i).list) (h.val i hi) rfl, ok_bind]
    have := hom (show i + 1 ≤ S.n from hi)
    rw [ho1] at this
    refine Tot.bind (copyTo_tot (by simp; omega)) ?_
    rintro ne' ⟨hz, hv⟩
    rw [wr_eq (by omega), ok_bind]
    refine Tot.pure ⟨by simp [h1], hz.trans h2, by dsimp only; rw [h3, ho1], fun j hj => ?_, fun j hj => ?_⟩
    · dsimp only
      rw [Array.getElem?_setIfInBounds]
      by_cases e : i = j
      · subst e; rw [if_pos rfl, if_pos (by omega), if_pos (by omega), h3]
      · rw [if_neg e, h4 j hj]
        by_cases h' : j < i
        · rw [if_pos h', if_pos (by omega)]
        · rw [if_neg h', if_neg (by omega)]
    · dsimp only
      intro k hk
      rw [hv, h3]
      simp only [List.size_toArray]
      by_cases e : j = i
      · subst e
        rw [if_pos (by omega)]
        simp
      · have := hom (show j + 1 ≤ i by omega)
        rw [ho1] at this
        rw [if_neg (by omega)]
        exact h5 j (by omega) k hk
  · rintro ⟨adj, ne, it⟩ ⟨h1, h2, h3, h4, h5⟩
    dsimp only at h1 h2 h3 h4 h5 ⊢
    refine Tot.pure ⟨rfl, h1, fun i hi => ?_, fun i hi => ⟨Nat.le_refl _, Int.le_refl _, ?_⟩, fun i j hij hj => ?_, fun i hi => h5 i hi⟩
    · have := h4 i hi
      rw [if_pos (show i < S.n from hi)] at this
      exact this
    · dsimp only
      rw [h2, ← ho1]
      exact hom hi
    · rw [← ho1]
      exact hom hij

end CsrGraph
