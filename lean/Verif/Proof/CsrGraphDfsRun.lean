import Mathlib.Data.List.Perm.Subperm
import Verif.Proof.CsrGraphDfs

/-!
# Depth-first search: the loops
-/

namespace CsrGraph
open Cxx Spec
variable {W : Type} {n : Nat} {L : Nat → List (Nat × W)}

/-! ### Arrays -/

theorem ne_of_in {l : List Nat} {x c : Nat} (hx : x ∈ l) (hc : c ∉ l) : x ≠ c := by
  rintro rfl
  exact hc hx

structure Arr {β : Type} (a : Array β) (n : Nat) (f : Nat → β) : Prop where
  size : a.size = n
  get : ∀ i < n, a[i]? = some (f i)

theorem Arr.rd {β : Type} {a : Array β} {f : Nat → β} (h : Arr a n f) {i : Nat} (hi : i < n) : Cxx.rd a i = .ok (f i) :=
  rd_some (h.get i hi)

theorem Arr.wr {β : Type} {a : Array β} {f : Nat → β} (h : Arr a n f) {i : Nat} (hi : i < n) (x : β) :
    Cxx.wr a i x = .ok (a.setIfInBounds i x) ∧ Arr (a.setIfInBounds i x) n (upd f i x) := by
  refine ⟨wr_eq (by rw [h.size]; exact hi), by rw [Array.size_setIfInBounds, h.size], fun j hj => ?_⟩
  rw [Array.getElem?_setIfInBounds]
  by_cases hji : i = j
  · rw [if_pos hji, if_pos (by rw [h.size]; exact hi), ← hji, upd_eq]
  · rw [if_neg hji, upd_ne _ _ (Ne.symm hji)]
    exact h.get j hj

theorem Arr.replicate {β : Type} (n : Nat) (x : β) : Arr (Array.replicate n x) n fun _ => x :=
  ⟨by simp, fun i hi => by simp [hi]⟩

/-- The first `k` entries are `Q`. -/
structure Pfx (a : Array Nat) (k n : Nat) (Q : List Nat) : Prop where
  size : a.size = n
  len : k = Q.length
  get : ∀ j < k, a[j]? = Q[j]?

theorem Pfx.push {a : Array Nat} {k : Nat} {Q : List Nat} (h : Pfx a k n Q) (hk : k < n) (c : Nat) :
    Cxx.wr a k c = .ok (a.setIfInBounds k c) ∧ Pfx (a.setIfInBounds k c) (k + 1) n (Q ++ [c]) := by
  refine ⟨wr_eq (by rw [h.size]; exact hk), by rw [Array.size_setIfInBounds, h.size], by simp [h.len], fun j hj => ?_⟩
  rw [Array.getElem?_setIfInBounds]
  by_cases hji : k = j
  · rw [if_pos hji, if_pos (by rw [h.size]; exact hk), ← hji, h.len]
    simp
  · rw [if_neg hji, h.get j (by omega), List.getElem?_append_left (by have := h.len; omega)]

theorem nodup_le {l : List Nat} (h : l.Nodup) (hl : ∀ x ∈ l, x < n) : l.length ≤ n := by
  have := (List.subperm_of_subset h (fun x hx => List.mem_range.mpr (hl x hx))).length_le
  simpa using this

theorem offs_congr {f f' : Nat → Nat} {n : Nat} (h : ∀ i < n, f i = f' i) : offs f n = offs f' n := by
  induction n with
  | zero => rfl
  | succ n ih => rw [offs_succ, offs_succ, ih (fun i hi => h i (by omega)), h n (by omega)]

theorem offs_le {f f' : Nat → Nat} {n : Nat} (h : ∀ i < n, f i ≤ f' i) : offs f n ≤ offs f' n := by
  induction n with
  | zero => exact Nat.le_refl _
  | succ n ih =>
    have := ih (fun i hi => h i (by omega))
    have := h n (by omega)
    rw [offs_succ, offs_succ]; omega

theorem offs_lt {f f' : Nat → Nat} {n i : Nat} (h : ∀ j < n, f j ≤ f' j) (hi : i < n) (hf : f i < f' i) : offs f n < offs f' n := by
  induction n with
  | zero => omega
  | succ n ih =>
    rw [offs_succ, offs_succ]
    by_cases hn : i = n
    · subst hn
      have := offs_le (fun j (hj : j < i) => h j (by omega))
      omega
    · have := ih (fun j hj => h j (by omega)) (by omega)
      have := h n (by omega)
      omega

/-! ### The positions -/

/-- The positions in the lists: `-1` for a vertex not yet entered, the length for a completed one. -/
structure EI (L : Nat → List (Nat × W)) (P F Q : List Nat) (E Pa : Nat → Int) : Prop where
  eU : ∀ x : Nat, x ∉ P ++ F → E x = -1
  eF : ∀ x ∈ F, E x = (L x).length
  eP : ∀ x ∈ P, -1 ≤ E x ∧ E x < (L x).length
  eT : ∀ x ∈ P.tail, 0 ≤ E x
  qn : Q.Nodup
  qm : ∀ x : Nat, x ∈ Q ↔ 0 ≤ E x
  qo : ∀ (A : List Nat) (x : Nat) (R : List Nat), Q = A ++ x :: R → ∀ u : Nat, Pa x = (u : Int) → u ∈ A

/-- The arcs seen. -/
def seen (L : Nat → List (Nat × W)) (E : Nat → Int) (x : Nat) : List (Nat × W) := (L x).take (E x + 1).toNat

/-- The vertices entered after the next arc of the top vertex is looked at. -/
def entered (Q : List Nat) (c : Nat) (k : Int) : List Nat := if k = 0 then Q ++ [c] else Q

variable {P F Q : List Nat} {T B : List (Nat × Nat × W)} {E Pa : Nat → Int} {PW : Nat → Option W} {pr : Nat → List (Nat × W)} {c : Nat}

theorem EI.lo (h : EI L P F Q E Pa) (x : Nat) : -1 ≤ E x := by
  by_cases hx : x ∈ P ++ F
  · rcases List.mem_append.mp hx with hx | hx
    · exact (h.eP x hx).1
    · rw [h.eF x hx]; omega
  · rw [h.eU x hx]; omega

theorem EI.adv (h : EI L (c :: P) F Q E Pa) (hC : Core n L (c :: P) F T B Pa PW pr) :
    (entered Q c (E c + 1)).Nodup ∧ (∀ x, x ∈ entered Q c (E c + 1) ↔ 0 ≤ upd E c (E c + 1) x) ∧
    (∀ (A : List Nat) (x : Nat) (R : List Nat), entered Q c (E c + 1) = A ++ x :: R → ∀ u : Nat, Pa x = (u : Int) → u ∈ A) ∧
    (E c + 1 = 0 → Q.length < n) := by
  have hlo := h.lo c
  have hQn : ∀ x ∈ Q, x < n := fun x hx => by
    refine hC.lt x ?_
    by_contra hn
    have h1 := h.eU x hn
    have h2 := (h.qm x).mp hx
    omega
  unfold entered
  by_cases hk : E c + 1 = 0
  · have hcQ : c ∉ Q := fun hc => by
      have := (h.qm c).mp hc
      omega
    have hnd : (Q ++ [c]).Nodup := by
      refine List.nodup_append.mpr ⟨h.qn, by simp, fun a ha b hb => ?_⟩
      rw [List.mem_singleton.mp hb]
      rintro rfl
      exact hcQ ha
    rw [if_pos hk]
    refine ⟨hnd, fun x => ?_, fun A x R hA u hu => ?_, fun _ => ?_⟩
    · by_cases hx : x = c
      · subst hx; rw [upd_eq]; simp; omega
      · rw [upd_ne _ _ hx, ← h.qm]; simp [hx]
    · rcases split_snoc hA with ⟨-, rfl, rfl⟩ | ⟨R', hQ⟩
      · obtain ⟨r', hr⟩ := hC.ch.head hu
        refine (h.qm u).mpr (h.eT u ?_)
        simp [hr]
      · exact h.qo A x R' hQ u hu
    · have := nodup_le (n := n) hnd fun x hx => by
        rcases List.mem_append.mp hx with hx | hx
        · exact hQn x hx
        · rw [List.mem_singleton.mp hx]; exact hC.lt c (by simp)
      simp at this
      omega
  · rw [if_neg hk]
    refine ⟨h.qn, fun x => ?_, h.qo, fun h' => absurd h' hk⟩
    by_cases hx : x = c
    · subst hx; rw [upd_eq, h.qm]; omega
    · rw [upd_ne _ _ hx, ← h.qm]

theorem EI.finish (h : EI L (c :: P) F Q E Pa) (hC : Core n L (c :: P) F T B Pa PW pr) (hk : E c + 1 = (L c).length) :
    EI L P (F ++ [c]) (entered Q c (E c + 1)) (upd E c (E c + 1)) Pa := by
  obtain ⟨a1, a2, a3, -⟩ := h.adv hC
  have hnd := hC.nd
  have hcP : c ∉ P := by simp at hnd; tauto
  have hcF : c ∉ F := by simp at hnd; tauto
  refine ⟨fun x hx => ?_, fun x hx => ?_, fun x hx => ?_, fun x hx => ?_, a1, a2, a3⟩
  · rw [upd_ne _ _ (fun h' => hx (by simp [h']))]
    refine h.eU x (fun h' => hx ?_)
    simp at h' ⊢
    tauto
  · rcases List.mem_append.mp hx with hx | hx
    · rw [upd_ne _ _ (ne_of_in hx hcF)]
      exact h.eF x hx
    · rw [List.mem_singleton.mp hx, upd_eq]; exact hk
  · rw [upd_ne _ _ (ne_of_in hx hcP)]
    exact h.eP x (List.mem_cons_of_mem _ hx)
  · have hx' := List.mem_of_mem_tail hx
    rw [upd_ne _ _ (ne_of_in hx' hcP)]
    exact h.eT x hx'

theorem EI.stay (h : EI L (c :: P) F Q E Pa) (hC : Core n L (c :: P) F T B Pa PW pr) (hk : E c + 1 < (L c).length) :
    EI L (c :: P) F (entered Q c (E c + 1)) (upd E c (E c + 1)) Pa := by
  obtain ⟨a1, a2, a3, -⟩ := h.adv hC
  have hlo := h.lo c
  have hnd := hC.nd
  have hcP : c ∉ P := by simp at hnd; tauto
  have hcF : c ∉ F := by simp at hnd; tauto
  refine ⟨fun x hx => ?_, fun x hx => ?_, fun x hx => ?_, fun x hx => ?_, a1, a2, a3⟩
  · rw [upd_ne _ _ (fun h' => hx (by simp [h']))]
    exact h.eU x hx
  · rw [upd_ne _ _ (ne_of_in hx hcF)]
    exact h.eF x hx
  · by_cases hxc : x = c
    · subst hxc; rw [upd_eq]; omega
    · rw [upd_ne _ _ hxc]; exact h.eP x hx
  · rw [upd_ne _ _ (ne_of_in hx hcP)]
    exact h.eT x hx

theorem EI.push {e : Nat} (h : EI L (c :: P) F Q E Pa) (hc : 0 ≤ E c) (he : e ∉ c :: P ++ F) :
    EI L (e :: c :: P) F Q E (upd Pa e c) := by
  have hE := h.eU e he
  refine ⟨fun x hx => h.eU x (fun h' => hx (List.mem_cons_of_mem _ h')), h.eF, fun x hx => ?_, fun x hx => ?_, h.qn, h.qm,
    fun A x R hA u hu => ?_⟩
  · rcases List.mem_cons.mp hx with rfl | hx
    · omega
    · exact h.eP x hx
  · rcases List.mem_cons.mp hx with rfl | hx
    · exact hc
    · exact h.eT x hx
  · have hx : x ≠ e := by
      rintro rfl
      have := (h.qm x).mp (by rw [hA]; simp)
      omega
    rw [upd_ne _ _ hx] at hu
    exact h.qo A x R hA u hu

theorem EI.root {e : Nat} (h : EI L [] F Q E Pa) (he : e ∉ F) : EI L [e] F Q E (upd Pa e (-1)) := by
  have hE := h.eU e (by simpa using he)
  refine ⟨fun x hx => h.eU x (fun h' => hx (by simp at h' ⊢; tauto)), h.eF, fun x hx => ?_, fun x hx => ?_, h.qn, h.qm,
    fun A x R hA u hu => ?_⟩
  · rw [List.mem_singleton.mp hx]; omega
  · simp at hx
  · have hx : x ≠ e := by
      rintro rfl
      have := (h.qm x).mp (by rw [hA]; simp)
      omega
    rw [upd_ne _ _ hx] at hu
    exact h.qo A x R hA u hu

theorem Core.root {e : Nat} (h : Core n L [] F T B Pa PW pr) (he : e ∉ F) (hlt : e < n) :
    Core n L [e] F T B (upd Pa e (-1)) PW pr := by
  have hPe : Pa e = -2 := (h.par e).mpr (by simpa using he)
  refine ⟨?_, ?_, ?_, ?_, upd_eq _ _ _, ?_, ?_, ?_, h.Tn, ?_, ?_, h.cl⟩
  · exact List.nodup_cons.mpr ⟨he, by simpa using h.nd⟩
  · intro x hx
    rcases List.mem_cons.mp hx with rfl | hx
    · exact hlt
    · exact h.lt x (by simpa using hx)
  · intro x
    by_cases hx : x = e
    · subst hx; rw [upd_eq]; simp
    · rw [upd_ne _ _ hx, h.par]; simp [hx]
  · intro x
    unfold upd
    split
    · omega
    · exact h.pl x
  · intro A x R hF y hy
    by_cases hx : y = e
    · subst hx; rw [upd_eq] at hy; omega
    · rw [upd_ne _ _ hx] at hy; exact h.fo A x R hF y hy
  · intro x hx
    have := h.T1 x hx
    rw [upd_ne _ _ (fun h' => by rw [h'] at this; omega)]
    exact this
  · intro x u hx
    by_cases hxe : x = e
    · subst hxe; rw [upd_eq] at hx; omega
    · rw [upd_ne _ _ hxe] at hx; exact h.T2 x u hx
  · intro x hx
    exact ⟨List.mem_cons_of_mem _ (by simpa using (h.B1 x hx).1), (h.B1 x hx).2⟩
  · intro x hx
    exact h.un x (fun h' => hx (List.mem_cons_of_mem _ (by simpa using h')))

theorem seen_finish (hk : E c + 1 = (L c).length) : seen L (upd E c (E c + 1)) = seen L E := by
  funext x
  unfold seen
  by_cases hx : x = c
  · subst hx
    rw [upd_eq, List.take_of_length_le (by omega), List.take_of_length_le (by omega)]
  · rw [upd_ne _ _ hx]

theorem seen_arc {e : Nat × W} (h0 : -1 ≤ E c) (he : (L c)[(E c + 1).toNat]? = some e) :
    seen L (upd E c (E c + 1)) = upd (seen L E) c (seen L E c ++ [e]) := by
  funext x
  by_cases hx : x = c
  · subst hx
    rw [upd_eq]
    unfold seen
    rw [upd_eq, show (E x + 1 + 1).toNat = (E x + 1).toNat + 1 by omega, List.take_add_one, he]
    rfl
  · rw [upd_ne _ _ hx]
    unfold seen
    rw [upd_ne _ _ hx]

/-! ### The loops -/

/-- What is used of the graph. -/
structure GOk (g : Graph W) (n : Nat) (L : Nat → List (Nat × W)) (off : Nat → Nat) : Prop where
  gn : g.n = n
  sz : g.adj.size = n
  adj : ∀ i < n, ∃ a, g.adj[i]? = some a ∧ a.own = true ∧ a.offset = off i ∧ a.siz = (L i).length
  val : ∀ i < n, Seg g.edges (off i) (L i)
  tgt : ∀ i < n, ∀ e ∈ L i, e.1 < n

/-- The state of the program. -/
structure St (n : Nat) (L : Nat → List (Nat × W)) (s : Dfs W) (P F Q : List Nat) (E Pa : Nat → Int) (PW : Nat → Option W) : Prop where
  pre : Pfx s.pre s.preN n Q
  pst : Pfx s.pst s.pstN n F
  eid : Arr s.eid n E
  par : Arr s.par n Pa
  parW : Arr s.parW n PW
  core : Core n L P F s.tree s.back Pa PW (seen L E)
  ei : EI L P F Q E Pa

/-- The steps left. -/
def left (n : Nat) (L : Nat → List (Nat × W)) (E : Nat → Int) : Nat := offs (fun v => ((L v).length - E v).toNat) n

theorem left_lt (hc : c < n) (hk : E c < (L c).length) : left n L (upd E c (E c + 1)) < left n L E := by
  refine offs_lt (i := c) (fun j _ => ?_) hc ?_
  · by_cases hj : j = c
    · subst hj; rw [upd_eq]; omega
    · rw [upd_ne _ _ hj]; exact Nat.le_refl _
  · rw [upd_eq]; omega

/-- The vertex at the top of the stack. -/
def top : List Nat → Int
  | [] => -1
  | c :: _ => c

/-- The first vertex entered is the root `r`, or it is just going to be. -/
def Fst (r : Nat) (P Q : List Nat) (Pa : Nat → Int) : Prop := Pa r = -1 ∧ (Q.head? = some r ∨ P = [r] ∧ Q = [])

theorem Fst.next {r : Nat} (h : Fst r (c :: P) Q Pa) (hE : EI L (c :: P) F Q E Pa) : (entered Q c (E c + 1)).head? = some r := by
  unfold entered
  rcases h.2 with h1 | ⟨h1, rfl⟩
  · split
    · rw [List.head?_append, h1]; rfl
    · exact h1
  · have hlo := hE.lo c
    have : ¬ 0 ≤ E c := fun h' => by simpa using (hE.qm c).mpr h'
    rw [if_pos (by omega)]
    have : c = r := by simpa using congrArg List.head? h1
    simp [this]

/-- The invariant of the inner loop, with `k` steps left: all vertices in `V` have been discovered. -/
def Inner (n : Nat) (L : Nat → List (Nat × W)) (r : Nat) (V : List Nat) (k : Nat) (q : Int × Dfs W) : Prop :=
  ∃ P F Q E Pa PW, St n L q.2 P F Q E Pa PW ∧ q.1 = top P ∧ k = left n L E ∧ (∀ x ∈ V, x ∈ P ++ F) ∧ Fst r P Q Pa

theorem Chain.top {P : List Nat} (h : Chain Pa (c :: P)) : Pa c = top P := by
  cases P with
  | nil => exact h
  | cons y r => exact h.1

variable [DecidableEq W] {g : Graph W} {off : Nat → Nat}

theorem dfsStep_tot (hg : GOk g n L off) {r : Nat} {V : List Nat} {k : Nat} {q : Int × Dfs W} (h : Inner n L r V k q) :
    Tot (dfsStep g q) fun
      | none => q.1 < 0 ∧ Inner n L r V k q
      | some q' => ∃ k' < k, Inner n L r V k' q' := by
  obtain ⟨cur, s⟩ := q
  obtain ⟨P, F, Q, E, Pa, PW, hs, hcur, hk, hV, hr⟩ := h
  dsimp only at hs hcur ⊢
  subst hcur
  unfold dfsStep
  dsimp only
  cases P with
  | nil =>
    rw [if_pos (show top [] < 0 from by decide)]
    exact Tot.pure ⟨by decide, _, _, _, _, _, _, hs, rfl, hk, hV, hr⟩
  | cons c P =>
    rw [if_neg (show ¬ top (c :: P) < 0 from by dsimp only [top]; omega)]
    have hct : (top (c :: P)).toNat = c := by dsimp only [top]; omega
    rw [hct]
    have hc : c < n := hs.core.lt c (by simp)
    have hlo := hs.ei.lo c
    have hhi := (hs.ei.eP c (by simp)).2
    obtain ⟨w1, w2⟩ := hs.eid.wr hc (E c + 1)
    obtain ⟨a1, a2, a3, a4⟩ := hs.ei.adv hs.core
    have hr' := hr.next hs.ei
    rw [hs.eid.rd hc, ok_bind, w1, ok_bind]
    -- entering
    obtain ⟨pre, preN, hen, hpre⟩ : ∃ pre preN, enter c (E c + 1) { s with eid := s.eid.setIfInBounds c (E c + 1) } =
        .ok { s with eid := s.eid.setIfInBounds c (E c + 1), pre := pre, preN := preN } ∧ Pfx pre preN n (entered Q c (E c + 1)) := by
      unfold enter entered
      by_cases hk0 : E c + 1 = 0
      · obtain ⟨p1, p2⟩ := hs.pre.push (by rw [hs.pre.len]; exact a4 hk0) c
        rw [if_pos hk0, if_pos hk0]
        dsimp only
        rw [p1, ok_bind]
        exact ⟨_, _, rfl, p2⟩
      · rw [if_neg hk0, if_neg hk0]
        exact ⟨s.pre, s.preN, rfl, hs.pre⟩
    rw [hen, ok_bind]
    obtain ⟨a, ha, hown, hoff, hsiz⟩ := hg.adj c hc
    rw [rd_some ha, ok_bind, hsiz]
    have hlt := left_lt (L := L) (E := E) hc hhi
    rw [← hk] at hlt
    by_cases hfin : E c + 1 = (L c).length
    · rw [if_pos hfin]
      have hFn : F.length < n := by
        have := nodup_le hs.core.nd hs.core.lt
        simp at this
        omega
      obtain ⟨p1, p2⟩ := hs.pst.push (by rw [hs.pst.len]; exact hFn) c
      dsimp only
      rw [p1, ok_bind, hs.par.rd hc, ok_bind]
      refine Tot.pure ⟨_, hlt, P, F ++ [c], _, _, Pa, PW, ⟨hpre, p2, w2, hs.par, hs.parW, ?_, hs.ei.finish hs.core hfin⟩,
        hs.core.ch.top, rfl, fun x hx => ?_, hr.1, Or.inl hr'⟩
      · rw [seen_finish hfin]
        exact hs.core.finish
      · have := hV x hx
        simp at this ⊢
        tauto
    · rw [if_neg hfin]
      have hkl : E c + 1 < (L c).length := by omega
      have hst := hs.ei.stay hs.core hkl
      obtain ⟨e, he⟩ : ∃ e, (L c)[(E c + 1).toNat]? = some e := ⟨_, List.getElem?_eq_getElem (by omega)⟩
      have heL : e ∈ L c := List.mem_of_getElem? he
      have hen := hg.tgt c hc e heL
      have hsv := hg.val c hc (E c + 1).toNat (by omega)
      rw [he] at hsv
      unfold deref
      rw [if_pos hown, ok_bind, hoff, rd_some hsv, ok_bind]
      have hseen := seen_arc (L := L) (E := E) hlo he
      unfold arcStep
      dsimp only
      rw [hs.par.rd hen, ok_bind]
      by_cases htree : Pa e.1 = -2
      · rw [if_pos htree]
        obtain ⟨x1, x2⟩ := hs.par.wr hen (c : Int)
        obtain ⟨y1, y2⟩ := hs.parW.wr hen (some e.2)
        rw [x1, ok_bind, y1, ok_bind]
        refine Tot.pure ⟨_, hlt, e.1 :: c :: P, F, _, _, _, _, ⟨hpre, hs.pst, w2, x2, y2, ?_, ?_⟩, rfl, rfl, fun x hx =>
          List.mem_cons_of_mem _ (hV x hx), ?_, Or.inl hr'⟩
        · rw [hseen]
          exact hs.core.tree htree heL hen
        · exact hst.push (by rw [upd_eq]; omega) ((hs.core.par _).mp htree)
        · rw [upd_ne _ _ (fun h' => by have := hr.1; rw [h', htree] at this; omega)]
          exact hr.1
      · rw [if_neg htree]
        obtain ⟨a', ha', -, -, hsiz'⟩ := hg.adj e.1 hen
        rw [w2.rd hen, ok_bind, rd_some ha', ok_bind, hsiz']
        have hvis : e.1 ∈ c :: P ++ F := by
          by_contra hn
          exact htree ((hs.core.par _).mpr hn)
        by_cases hopen : upd E c (E c + 1) e.1 ≠ ((L e.1).length : Int)
        · rw [if_pos hopen]
          have hePs : e.1 ∈ c :: P := by
            rcases List.mem_append.mp hvis with h' | h'
            · exact h'
            · exact absurd (hst.eF _ h') hopen
          unfold backStep
          dsimp only
          rw [hs.par.rd hc, ok_bind, hs.parW.rd hc, ok_bind]
          by_cases hb : Pa c ≠ e.1 ∨ PW c ≠ some e.2
          · rw [if_pos hb]
            refine Tot.pure ⟨_, hlt, c :: P, F, _, _, _, _, ⟨hpre, hs.pst, w2, hs.par, hs.parW, ?_, hst⟩, rfl, rfl, hV, hr.1, Or.inl hr'⟩
            rw [hseen]
            exact hs.core.back hePs hb
          · rw [if_neg hb]
            obtain ⟨hb1, hb2⟩ : Pa c = e.1 ∧ PW c = some e.2 := by
              constructor
              · by_contra h'; exact hb (Or.inl h')
              · by_contra h'; exact hb (Or.inr h')
            obtain ⟨y1, y2⟩ := hs.parW.wr hc none
            rw [y1, ok_bind, if_neg (by rw [hb2]; simp)]
            refine Tot.pure ⟨_, hlt, c :: P, F, _, _, _, _, ⟨hpre, hs.pst, w2, hs.par, y2, ?_, hst⟩, rfl, rfl, hV, hr.1, Or.inl hr'⟩
            rw [hseen]
            exact hs.core.skip hb1 hb2
        · rw [if_neg hopen]
          have heF : e.1 ∈ F := by
            rcases List.mem_append.mp hvis with h' | h'
            · exact absurd (hst.eP _ h').2 (by omega)
            · exact h'
          refine Tot.pure ⟨_, hlt, c :: P, F, _, _, _, _, ⟨hpre, hs.pst, w2, hs.par, hs.parW, ?_, hst⟩, rfl, rfl, hV, hr.1, Or.inl hr'⟩
          rw [hseen]
          exact hs.core.done heF

theorem sum_siz (hg : GOk g n L off) : (g.adj.toList.map Adj.siz).sum = offs (fun v => (L v).length) n := by
  unfold offs
  congr 1
  refine List.ext_getElem (by simp [hg.sz]) fun i h1 h2 => ?_
  have hi : i < n := by simpa using h2
  obtain ⟨a, ha, -, -, hs⟩ := hg.adj i hi
  have hi' : i < g.adj.size := by rw [hg.sz]; exact hi
  rw [Array.getElem?_eq_getElem hi'] at ha
  have : g.adj[i] = a := by simpa using ha
  simp [this, hs]

theorem left_le (hlo : ∀ x, -1 ≤ E x) : left n L E ≤ n + offs (fun v => (L v).length) n := by
  unfold left
  induction n with
  | zero => simp [offs]
  | succ n ih =>
    rw [offs_succ, offs_succ]
    have := hlo n
    omega

theorem rootStep_tot (hg : GOk g n L off) {start i r : Nat} {s : Dfs W} {V : List Nat} (hi : i < n)
    (h : ∃ F Q E Pa PW, St n L s [] F Q E Pa PW ∧ (∀ x ∈ V, x ∈ F) ∧ (Q.head? = some r ∧ Pa r = -1 ∨ Q = [] ∧ (start + i) % n = r)) :
    Tot (rootStep g start i s) fun s' => ∃ F Q E Pa PW, St n L s' [] F Q E Pa PW ∧ (∀ x ∈ (start + i) % n :: V, x ∈ F) ∧
      Q.head? = some r ∧ Pa r = -1 := by
  obtain ⟨F, Q, E, Pa, PW, hs, hV, hr⟩ := h
  unfold rootStep
  rw [hg.gn]
  dsimp only
  obtain ⟨c, hc⟩ : ∃ c, c = (start + i) % n := ⟨_, rfl⟩
  have hcn : c < n := by rw [hc]; exact Nat.mod_lt _ (by omega)
  rw [← hc, hs.par.rd hcn, ok_bind]
  by_cases hp : Pa c ≠ -2
  · rw [if_pos hp]
    have hcF : c ∈ F := by
      by_contra hn
      exact hp ((hs.core.par _).mpr (by simpa using hn))
    refine Tot.pure ⟨F, Q, E, Pa, PW, hs, fun x hx => ?_, ?_⟩
    · rcases List.mem_cons.mp hx with rfl | hx
      · exact hcF
      · exact hV x hx
    · rcases hr with hr | ⟨rfl, -⟩
      · exact hr
      · have := (hs.ei.qm c).mpr (by rw [hs.ei.eF c hcF]; omega)
        simp at this
  · rw [if_neg hp]
    have hcF : c ∉ F := by
      have := (hs.core.par c).mp (not_not.mp hp)
      simpa using this
    obtain ⟨x1, x2⟩ := hs.par.wr hcn (-1)
    rw [x1, ok_bind]
    refine Tot.bind (Tot.loopG (P := Inner n L r (c :: V)) (Q := fun q => q.1 < 0 ∧ ∃ k, Inner n L r (c :: V) k q)
      (fun k q hq => (dfsStep_tot hg hq).mono ?_) (k := left n L E)
      ⟨[c], F, Q, E, _, PW, ⟨hs.pre, hs.pst, hs.eid, x2, hs.parW, hs.core.root hcF hcn, hs.ei.root hcF⟩, rfl, rfl, ?_, ?_⟩ ?_) ?_
    · intro r hr
      cases r with
      | none => exact ⟨hr.1, _, hr.2⟩
      | some q' => exact hr
    · intro x hx
      rcases List.mem_cons.mp hx with rfl | hx
      · simp
      · exact List.mem_cons_of_mem _ (hV x hx)
    · rcases hr with ⟨hr1, hr2⟩ | ⟨rfl, hr⟩
      · refine ⟨?_, Or.inl hr1⟩
        rw [upd_ne _ _ (fun h' => by rw [h'] at hr2; rw [hr2] at hp; simp at hp)]
        exact hr2
      · rw [← hc] at hr
        subst hr
        exact ⟨upd_eq _ _ _, Or.inr ⟨rfl, rfl⟩⟩
    · rw [sum_siz hg]
      exact left_le hs.ei.lo
    · rintro ⟨cur, s'⟩ ⟨hneg, k, P, F', Q', E', Pa', PW', hs', hcur, -, hV', hr'⟩
      dsimp only at hneg hs' hcur
      cases P with
      | nil => exact Tot.pure ⟨F', Q', E', Pa', PW', hs', fun x hx => by simpa using hV' x hx,
        hr'.2.resolve_right (by simp), hr'.1⟩
      | cons a b =>
        dsimp only [top] at hcur
        omega

end CsrGraph
