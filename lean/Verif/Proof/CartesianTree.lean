import Verif.Model.CartesianTree
import Verif.Spec.CartesianTree
import Verif.Proof.GraphBasic

/-! # Proofs about Cartesian trees -/

namespace CartesianTree
open Cxx
variable {α : Type}

/-- The order of positions. -/
def wof (lt : α → α → Bool) (d : α) (a : Array α) (i j : Nat) : Bool := lt (at' d a i) (at' d a j)

theorem wof_strict {lt : α → α → Bool} (h : StrictWeak lt) (d : α) (a : Array α) : StrictWeak (wof lt d a) :=
  ⟨fun _ => h.irrefl _, fun _ _ _ => h.trans _ _ _, fun _ _ _ => h.neg _ _ _⟩

section Order
variable {w : Nat → Nat → Bool}

theorem lt_of_lt_of_nlt (h : StrictWeak w) {x y z : Nat} (h1 : w x y = true) (h2 : w z y = false) : w x z = true := by
  by_contra hc
  have := h.neg x z y (by simpa using hc) h2
  rw [h1] at this; cases this

theorem lt_of_nlt_of_lt (h : StrictWeak w) {x y z : Nat} (h1 : w y x = false) (h2 : w y z = true) : w x z = true := by
  by_contra hc
  have := h.neg y x z h1 (by simpa using hc)
  rw [h2] at this; cases this

/-- `[l, v]`: `v` is strictly smaller than everything before it from `l` on, and `l` cannot be moved. -/
structure LB (w : Nat → Nat → Bool) (v l : Nat) : Prop where
  le : l ≤ v
  all : ∀ j, l ≤ j → j < v → w v j = true
  stop : l = 0 ∨ w v (l - 1) = false

/-- Nothing after `v` before `r` is smaller than `v`, and `r` cannot be moved. -/
structure RB (w : Nat → Nat → Bool) (n v r : Nat) : Prop where
  lt : v < r
  le : r ≤ n
  all : ∀ j, v < j → j < r → w j v = false
  stop : r = n ∨ w r v = true

theorem LB.unique {v l l' : Nat} (h : LB w v l) (h' : LB w v l') : l = l' := by
  rcases Nat.lt_trichotomy l l' with hlt | e | hlt
  · rcases h'.stop with e | e
    · omega
    · have := h.all (l' - 1) (by omega) (by have := h'.le; omega)
      rw [e] at this; cases this
  · exact e
  · rcases h.stop with e | e
    · omega
    · have := h'.all (l - 1) (by omega) (by have := h.le; omega)
      rw [e] at this; cases this

theorem RB.unique {n v r r' : Nat} (h : RB w n v r) (h' : RB w n v r') : r = r' := by
  rcases Nat.lt_trichotomy r r' with hlt | e | hlt
  · rcases h.stop with e | e
    · have := h'.le; omega
    · have := h'.all r h.lt hlt
      rw [e] at this; cases this
  · exact e
  · rcases h'.stop with e | e
    · have := h.le; omega
    · have := h.all r' h'.lt hlt
      rw [e] at this; cases this

theorem FirstMin.unique (hs : StrictWeak w) {l r i i' : Nat} (h : FirstMin w l r i) (h' : FirstMin w l r i') : i = i' := by
  rcases Nat.lt_trichotomy i i' with hlt | e | hlt
  · have := h'.before i h.lo hlt
    rw [h.after i' hlt h'.hi] at this; cases this
  · exact e
  · have := h.before i' h'.lo hlt
    rw [h'.after i hlt h.hi] at this; cases this

theorem FirstMin.exists (hs : StrictWeak w) {l r : Nat} (h : l < r) : ∃ i, FirstMin w l r i := by
  induction r with
  | zero => omega
  | succ r ih =>
    by_cases hl : l < r
    · obtain ⟨i, hi⟩ := ih hl
      cases hw : w r i with
      | false =>
        refine ⟨i, hi.lo, by have := hi.hi; omega, hi.before, fun j h1 h2 => ?_⟩
        rcases Nat.lt_succ_iff_lt_or_eq.mp h2 with h2 | rfl
        · exact hi.after j h1 h2
        · exact hw
      | true =>
        refine ⟨r, by omega, by omega, fun j h1 h2 => ?_, fun j h1 h2 => by omega⟩
        rcases Nat.lt_trichotomy j i with hj | rfl | hj
        · exact hs.trans _ _ _ hw (hi.before j h1 hj)
        · exact hw
        · exact lt_of_lt_of_nlt hs hw (hi.after j hj h2)
    · have : l = r := by omega
      subst this
      exact ⟨l, le_refl _, by omega, fun j h1 h2 => by omega, fun j h1 h2 => by omega⟩

/-- The parent of a node with the boundaries `l` and `r`. -/
def parOf (w : Nat → Nat → Bool) (n l r : Nat) : Int := if r = n ∨ (0 < l ∧ w r (l - 1) = true) then (l : Int) - 1 else (r : Int)

/-- `x` is the parent of `v` in the Cartesian tree of the first `n` elements. -/
def Par (w : Nat → Nat → Bool) (n v : Nat) (x : Int) : Prop := ∃ l r, LB w v l ∧ RB w n v r ∧ x = parOf w n l r

/-- A node without a smaller one after it so far. -/
def Open (w : Nat → Nat → Bool) (n v : Nat) : Prop := ∀ j, v < j → j < n → w j v = false

theorem Par.of_open {n v : Nat} {x : Int} (h : Par w n v x) (ho : Open w n v) : ∃ l, LB w v l ∧ x = (l : Int) - 1 := by
  obtain ⟨l, r, hl, hr, rfl⟩ := h
  refine ⟨l, hl, ?_⟩
  have : r = n := by
    rcases hr.stop with e | e
    · exact e
    · by_contra hc
      have := ho r hr.lt (by have := hr.le; omega)
      rw [e] at this; cases this
  unfold parOf
  rw [if_pos (.inl this)]

end Order

/-! ### `calc_par` -/

section Calc
variable {lt : α → α → Bool} {a : Array α} {d : α}

/-- The state of the inner loop. -/
structure Climb (w : Nat → Nat → Bool) (i : Nat) (s : Int × Nat) : Prop where
  lo : -1 ≤ s.1
  lt : s.1 < s.2
  le : s.2 ≤ i
  all : ∀ j : Nat, s.1 < j → j < i → w i j = true
  lb : s.2 = i ∧ s.1 = (i : Int) - 1 ∨ s.2 < i ∧ Open w i s.2 ∧ LB w s.2 (s.1 + 1).toNat

theorem Climb.open {w : Nat → Nat → Bool} (hs : StrictWeak w) {i : Nat} {s : Int × Nat} (h : Climb w i s) (hp : 0 ≤ s.1) : Open w i s.1.toNat := by
  intro j h1 h2
  have hlt := h.lt
  rcases h.lb with ⟨e1, e2⟩ | ⟨h3, h4, h5⟩
  · omega
  · have h6 : w s.2 s.1.toNat = false := by
      rcases h5.stop with e | e
      · omega
      · rwa [show (s.1 + 1).toNat - 1 = s.1.toNat by omega] at e
    rcases Nat.lt_trichotomy j s.2 with hj | rfl | hj
    · have h7 := h5.all j (by omega) hj
      by_contra hc
      have := hs.trans _ _ _ h7 (by simpa using hc)
      rw [h6] at this; cases this
    · exact h6
    · exact hs.neg _ _ _ (h4 j hj h2) h6

theorem climb_tot (hs : StrictWeak lt) {i : Nat} (hi : i < a.size) {par : Array Int} (hsz : par.size = a.size)
    (hp : ∀ v, v < i → Par (wof lt d a) i v (at' 0 par v)) {s : Int × Nat} (h : Climb (wof lt d a) i s) :
    Tot (climb lt a (at' d a i) par s) fun o => match o with
      | none => s.1 = -1 ∨ (0 ≤ s.1 ∧ wof lt d a i s.1.toNat = false)
      | some s' => Climb (wof lt d a) i s' ∧ s'.2 < s.2 := by
  have hw := wof_strict hs d a
  unfold climb
  have hlo := h.lo
  have hle := h.le
  have hlt := h.lt
  by_cases h0 : s.1 ≥ 0
  · rw [if_pos h0, rd_at d (by omega), ok_bind]
    cases hc : lt (at' d a i) (at' d a s.1.toNat) with
    | false =>
      rw [if_neg (by simp)]
      exact Tot.pure (.inr ⟨h0, hc⟩)
    | true =>
      rw [if_pos rfl, rd_at 0 (by omega), ok_bind]
      have ho := h.open hw h0
      obtain ⟨l, hl, e⟩ := (hp s.1.toNat (by omega)).of_open ho
      refine Tot.pure ⟨?_, by dsimp only; omega⟩
      rw [e]
      have := hl.le
      refine ⟨by dsimp only; omega, by dsimp only; omega, by dsimp only; omega, ?_, .inr ⟨by dsimp only; omega, ho, ?_⟩⟩
      · intro j h1 h2
        dsimp only at h1
        rcases Nat.lt_trichotomy j s.1.toNat with hj | rfl | hj
        · exact hw.trans _ _ _ hc (hl.all j (by omega) hj)
        · exact hc
        · exact h.all j (by omega) h2
      · show LB _ _ ((l : Int) - 1 + 1).toNat
        rw [show ((l : Int) - 1 + 1).toNat = l by omega]
        exact hl
  · rw [if_neg h0]
    exact Tot.pure (.inl (by omega))

theorem par_step (hw : StrictWeak (wof lt d a)) {i : Nat} {p : Int} {l : Nat} (h : Climb (wof lt d a) i (p, l))
    (hend : p = -1 ∨ (0 ≤ p ∧ wof lt d a i p.toNat = false)) {x : Nat → Int} (hp : ∀ v, v < i → Par (wof lt d a) i v (x v)) {v : Nat} (hv : v < i + 1) :
    Par (wof lt d a) (i + 1) v (if v = i then p else if v = l then (i : Int) else x v) := by
  obtain ⟨w, ew⟩ : ∃ w, w = wof lt d a := ⟨_, rfl⟩
  rw [← ew] at hw h hend hp ⊢
  have hlo := h.lo
  have hlt := h.lt
  have hle := h.le
  have hall := h.all
  dsimp only at hlo hlt hle hall
  by_cases hvi : v = i
  · subst hvi
    rw [if_pos rfl]
    refine ⟨(p + 1).toNat, v + 1, ⟨by omega, fun j h1 h2 => hall j (by omega) h2, ?_⟩, ⟨by omega, le_refl _, fun j h1 h2 => by omega, .inl rfl⟩, ?_⟩
    · rcases hend with e | ⟨e, e'⟩
      · left; omega
      · right; rwa [show (p + 1).toNat - 1 = p.toNat by omega]
    · unfold parOf
      rw [if_pos (.inl rfl)]
      omega
  · rw [if_neg hvi]
    have hv' : v < i := by omega
    by_cases hvl : v = l
    · subst hvl
      rw [if_pos rfl]
      rcases h.lb with ⟨e, -⟩ | ⟨-, ho, hl⟩
      · exact absurd e hvi
      · dsimp only at ho hl
        refine ⟨(p + 1).toNat, i, hl, ⟨hv', by omega, fun j h1 h2 => ho j h1 h2, .inr (hall v (by omega) hv')⟩, ?_⟩
        unfold parOf
        rw [if_neg]
        rintro (e | ⟨e1, e2⟩)
        · omega
        · rcases hend with e | ⟨e, e'⟩
          · omega
          · rw [show (p + 1).toNat - 1 = p.toNat by omega, e'] at e2
            cases e2
    · rw [if_neg hvl]
      obtain ⟨L, R, hL, hR, e⟩ := hp v hv'
      by_cases hRi : R = i
      · -- no smaller element before `i`
        have ho : Open w i v := by rw [← hRi]; exact hR.all
        have ex : x v = (L : Int) - 1 := by rw [e]; unfold parOf; rw [if_pos (.inl hRi)]
        cases hc : w i v with
        | false =>
          refine ⟨L, i + 1, hL, ⟨by omega, le_refl _, fun j h1 h2 => ?_, .inl rfl⟩, ?_⟩
          · rcases Nat.lt_succ_iff_lt_or_eq.mp h2 with h2 | rfl
            · exact ho j h1 h2
            · exact hc
          · rw [ex]; unfold parOf; rw [if_pos (.inl rfl)]
        | true =>
          refine ⟨L, i, hL, ⟨hv', by omega, ho, .inr hc⟩, ?_⟩
          have hpv : p < v := by
            by_contra hcon
            rcases hend with e | ⟨e1, e2⟩
            · omega
            · by_cases hq : v = p.toNat
              · rw [hq, e2] at hc; cases hc
              · have h5 := ho p.toNat (by omega) (by omega)
                have := hw.neg _ _ _ e2 h5
                rw [hc] at this; cases this
          have hlv : l < v := by
            rcases h.lb with ⟨e1, e2⟩ | ⟨e1, ho', hl'⟩
            · dsimp only at e1 e2; omega
            · dsimp only at e1 ho' hl'
              by_contra hcon
              have h5 := hl'.all v (by omega) (by omega)
              rw [ho l (by omega) (by omega)] at h5
              cases h5
          have hlL : l < L := by
            by_contra hcon
            have h5 := hL.all l (by omega) hlv
            rcases h.lb with ⟨e1, e2⟩ | ⟨e1, ho', hl'⟩
            · dsimp only at e1; omega
            · dsimp only at ho'
              rw [ho' v hlv hv'] at h5
              cases h5
          rw [ex]
          unfold parOf
          have := hL.le
          rw [if_pos (.inr ⟨by omega, hall (L - 1) (by omega) (by omega)⟩)]
      · have := hR.le
        refine ⟨L, R, hL, ⟨hR.lt, by omega, hR.all, ?_⟩, ?_⟩
        · rcases hR.stop with e | e
          · exact absurd e hRi
          · exact .inr e
        · rw [e]
          unfold parOf
          have e1 : (R = i ∨ 0 < L ∧ w R (L - 1) = true) ↔ (R = i + 1 ∨ 0 < L ∧ w R (L - 1) = true) := by
            constructor
            · rintro (e | e)
              · exact absurd e hRi
              · exact .inr e
            · rintro (e | e)
              · omega
              · exact .inr e
          simp only [e1]

theorem calcPar_tot (hs : StrictWeak lt) (d : α) (a : Array α) :
    Tot (calcPar lt a) fun par => par.size = a.size ∧ ∀ v, v < a.size → Par (wof lt d a) a.size v (at' 0 par v) := by
  have hw := wof_strict hs d a
  unfold calcPar
  by_cases h0 : a.size = 0
  · have : forUp 1 a.size (Array.replicate a.size (-1)) (parStep lt a) = .ok (Array.replicate a.size (-1)) := by
      unfold forUp
      rw [h0]; rfl
    rw [this]
    exact Tot.pure ⟨by simp, fun v hv => by omega⟩
  · refine Tot.forUp (lo := 1) (hi := a.size) (s := Array.replicate a.size (-1)) (P := fun i par => par.size = a.size ∧ ∀ v, v < i → Par (wof lt d a) i v (at' 0 par v)) (by omega) ⟨by simp, ?_⟩ ?_
    · intro v hv
      have : v = 0 := by omega
      subst this
      refine ⟨0, 1, ⟨le_refl _, fun j h1 h2 => by omega, .inl rfl⟩, ⟨by omega, le_refl _, fun j h1 h2 => by omega, .inl rfl⟩, ?_⟩
      unfold parOf
      rw [if_pos (.inl rfl)]
      simp [at', show 0 < a.size by omega]
    · rintro i par h1 hi ⟨hsz, hp⟩
      unfold parStep
      rw [rd_at d hi, ok_bind]
      refine Tot.bind (Tot.loop (P := Climb (wof lt d a) i)
        (Q := fun s => Climb (wof lt d a) i s ∧ (s.1 = -1 ∨ (0 ≤ s.1 ∧ wof lt d a i s.1.toNat = false))) (fun s => s.2) ?_ ?_ ?_) fun s hq => ?_
      · intro s hc
        refine (climb_tot hs hi hsz hp hc).mono fun o ho => ?_
        cases o with
        | none => exact ⟨hc, ho⟩
        | some s' => exact ho
      · exact ⟨by dsimp only; omega, by dsimp only; omega, le_refl _, fun j h2 h3 => by dsimp only at h2; omega, .inl ⟨rfl, rfl⟩⟩
      · exact le_refl _
      · obtain ⟨⟨p, l⟩, hs'⟩ : ∃ q, q = s := ⟨s, rfl⟩
        subst hs'
        obtain ⟨hc, hend⟩ := hq
        dsimp only at hend
        have hle := hc.le
        dsimp only at hle
        dsimp only
        rw [wr_eq (by omega), ok_bind, wr_eq (by simp; omega)]
        refine Tot.pure ⟨by simp [hsz], fun v hv => ?_⟩
        have := par_step (x := fun v => at' 0 par v) hw hc hend hp hv
        rw [Graph.at_set' 0 (by simp; omega), Graph.at_set' 0 (by omega)]
        exact this

end Calc

/-! ### `build` -/

section Build
variable {w : Nat → Nat → Bool}

/-- The parent of a node determines the segment of the node. -/
theorem par_left (hs : StrictWeak w) {n v p : Nat} (hv : v < p) (hp : p < n) : Par w n v p ↔ ∃ l, LB w p l ∧ FirstMin w l p v := by
  constructor
  · rintro ⟨l, r, hl, hr, e⟩
    have hlv := hl.le
    unfold parOf at e
    split_ifs at e with hc
    · omega
    · have hr' : r = p := by omega
      subst hr'
      have hw : w r v = true := by
        rcases hr.stop with e' | e'
        · exact absurd (.inl e') hc
        · exact e'
      have hf : FirstMin w l r v := ⟨hl.le, hr.lt, hl.all, hr.all⟩
      refine ⟨l, ⟨by omega, fun j h1 h2 => ?_, ?_⟩, hf⟩
      · rcases Nat.lt_trichotomy j v with hj | rfl | hj
        · exact hs.trans _ _ _ hw (hl.all j h1 hj)
        · exact hw
        · exact lt_of_lt_of_nlt hs hw (hr.all j hj h2)
      · by_cases h0 : l = 0
        · exact .inl h0
        · right
          by_contra hcon
          exact hc (.inr ⟨by omega, by simpa using hcon⟩)
  · rintro ⟨l, hl, hf⟩
    have hw : w p v = true := hl.all v hf.lo hf.hi
    refine ⟨l, p, ⟨hf.lo, hf.before, ?_⟩, ⟨hv, by omega, hf.after, .inr hw⟩, ?_⟩
    · rcases hl.stop with e | e
      · exact .inl e
      · right
        by_contra hcon
        have := hs.trans _ _ _ hw (show w v (l - 1) = true by simpa using hcon)
        rw [e] at this; cases this
    · unfold parOf
      rw [if_neg]
      rintro (e | ⟨e1, e2⟩)
      · omega
      · rcases hl.stop with e | e
        · omega
        · rw [e] at e2; cases e2

theorem par_right (hs : StrictWeak w) {n v p : Nat} (hv : p < v) (hp : v < n) : Par w n v p ↔ ∃ r, RB w n p r ∧ FirstMin w (p + 1) r v := by
  constructor
  · rintro ⟨l, r, hl, hr, e⟩
    have hlv := hl.le
    have hlt := hr.lt
    unfold parOf at e
    split_ifs at e with hc
    · have hl' : l = p + 1 := by omega
      subst hl'
      have hw : w v p = false := by
        rcases hl.stop with e' | e'
        · omega
        · simpa using e'
      refine ⟨r, ⟨by omega, hr.le, fun j h1 h2 => ?_, ?_⟩, ⟨by omega, hr.lt, hl.all, hr.all⟩⟩
      · rcases Nat.lt_trichotomy j v with hj | rfl | hj
        · by_contra hcon
          have := hs.trans _ _ _ (hl.all j (by omega) hj) (show w j p = true by simpa using hcon)
          rw [hw] at this; cases this
        · exact hw
        · exact hs.neg _ _ _ (hr.all j hj h2) hw
      · rcases hc with e' | ⟨e1, e2⟩
        · exact .inl e'
        · exact .inr (by simpa using e2)
    · omega
  · rintro ⟨r, hr, hf⟩
    have hlo := hf.lo
    have hw : w v p = false := hr.all v hv hf.hi
    refine ⟨p + 1, r, ⟨hf.lo, hf.before, .inr hw⟩, ⟨hf.hi, hr.le, hf.after, ?_⟩, ?_⟩
    · rcases hr.stop with e | e
      · exact .inl e
      · right
        exact lt_of_lt_of_nlt hs e hw
    · unfold parOf
      rw [if_pos]
      · omega
      · rcases hr.stop with e | e
        · exact .inl e
        · exact .inr ⟨by omega, e⟩

theorem par_root {n v : Nat} : Par w n v (-1) ↔ FirstMin w 0 n v := by
  constructor
  · rintro ⟨l, r, hl, hr, e⟩
    unfold parOf at e
    split_ifs at e with hc
    · have hl' : l = 0 := by omega
      subst hl'
      rcases hc with rfl | ⟨h, -⟩
      · exact ⟨hl.le, hr.lt, hl.all, hr.all⟩
      · omega
  · intro hf
    refine ⟨0, n, ⟨hf.lo, hf.before, .inl rfl⟩, ⟨hf.hi, le_refl _, hf.after, .inl rfl⟩, ?_⟩
    unfold parOf
    rw [if_pos (.inl rfl)]; rfl

theorem par_cases {n v : Nat} {x : Int} (h : Par w n v x) : x = -1 ∨ (0 ≤ x ∧ x < n ∧ x ≠ v) := by
  obtain ⟨l, r, hl, hr, rfl⟩ := h
  have := hl.le
  have := hr.lt
  have := hr.le
  unfold parOf
  split_ifs with hc
  · omega
  · have : r ≠ n := fun e => hc (.inl e)
    omega

/-- What the children arrays hold after the first `i` nodes. -/
structure Built (par : Array Int) (n i : Nat) (s : Int × Array (Int × Int)) : Prop where
  size : s.2.size = n
  root : ∀ v, v < i → at' 0 par v = -1 → s.1 = v
  rootv : s.1 = -1 ∨ ∃ v : Nat, s.1 = v ∧ v < i ∧ at' 0 par v = -1
  left : ∀ v p : Nat, v < i → v < p → p < n → at' 0 par v = p → (at' (0, 0) s.2 p).1 = v
  leftv : ∀ p : Nat, p < n → (at' (0, 0) s.2 p).1 = -1 ∨ ∃ v : Nat, (at' (0, 0) s.2 p).1 = v ∧ v < i ∧ v < p ∧ at' 0 par v = p
  right : ∀ v p : Nat, v < i → p < v → p < n → at' 0 par v = p → (at' (0, 0) s.2 p).2 = v
  rightv : ∀ p : Nat, p < n → (at' (0, 0) s.2 p).2 = -1 ∨ ∃ v : Nat, (at' (0, 0) s.2 p).2 = v ∧ v < i ∧ p < v ∧ at' 0 par v = p

theorem build_step (hs : StrictWeak w) {par : Array Int} {n i : Nat} (hsz : par.size = n) (hp : ∀ v, v < n → Par w n v (at' 0 par v))
    (hi : i < n) {s : Int × Array (Int × Int)} (h : Built par n i s) : Tot (buildStep par i s) (Built par n (i + 1)) := by
  have hsize := h.size
  unfold buildStep
  rw [rd_at 0 (by omega), ok_bind]
  obtain ⟨x, hx⟩ : ∃ x, x = at' 0 par i := ⟨_, rfl⟩
  rw [← hx]
  have hpi := hp i hi
  rw [← hx] at hpi
  rcases par_cases hpi with rfl | ⟨h0, h1, h2⟩
  · rw [if_neg (by omega)]
    refine Tot.pure ⟨hsize, ?_, ?_, ?_, ?_, ?_, ?_⟩
    · intro v hv e
      have hf := par_root.mp hpi
      have hv' := par_root.mp (e ▸ hp v (by omega))
      show (i : Int) = v
      rw [FirstMin.unique hs hf hv']
    · exact .inr ⟨i, rfl, by omega, hx.symm⟩
    · intro v p hv hvp hpn e
      rcases Nat.lt_succ_iff_lt_or_eq.mp hv with hv | rfl
      · exact h.left v p hv hvp hpn e
      · omega
    · intro p hpn
      rcases h.leftv p hpn with e | ⟨v, e1, e2, e3⟩
      · exact .inl e
      · exact .inr ⟨v, e1, by omega, e3⟩
    · intro v p hv hvp hpn e
      rcases Nat.lt_succ_iff_lt_or_eq.mp hv with hv | rfl
      · exact h.right v p hv hvp hpn e
      · omega
    · intro p hpn
      rcases h.rightv p hpn with e | ⟨v, e1, e2, e3⟩
      · exact .inl e
      · exact .inr ⟨v, e1, by omega, e3⟩
  · obtain ⟨q, rfl⟩ : ∃ q : Nat, x = q := ⟨x.toNat, by omega⟩
    have hq : q < n := by omega
    rw [if_pos (by omega)]
    unfold setChild
    rw [show ((q : Int)).toNat = q by omega, rd_at (0, 0) (by omega), ok_bind, wr_eq (by omega), ok_bind]
    have hroot : ∀ v, v < i + 1 → at' 0 par v = -1 → s.1 = v := by
      intro v hv e
      rcases Nat.lt_succ_iff_lt_or_eq.mp hv with hv | rfl
      · exact h.root v hv e
      · omega
    have hrootv : s.1 = -1 ∨ ∃ v : Nat, s.1 = v ∧ v < i + 1 ∧ at' 0 par v = -1 := by
      rcases h.rootv with e | ⟨v, e1, e2, e3⟩
      · exact .inl e
      · exact .inr ⟨v, e1, by omega, e3⟩
    by_cases hqi : q ≤ i
    · have hd : decide ((q : Int) ≤ i) = true := by simpa using hqi
      rw [hd, if_pos rfl]
      have hlt : q < i := by omega
      refine Tot.pure ⟨by simp [hsize], hroot, hrootv, ?_, ?_, ?_, ?_⟩
      · intro v p hv hvp hpn e
        show (at' (0, 0) (s.2.setIfInBounds q _) p).1 = v
        rw [Graph.at_set' _ (by omega)]
        have hv' : v < i := by
          rcases Nat.lt_succ_iff_lt_or_eq.mp hv with hv | rfl
          · exact hv
          · omega
        split_ifs with hc
        · subst hc; exact h.left v p hv' hvp hpn e
        · exact h.left v p hv' hvp hpn e
      · intro p hpn
        show (at' (0, 0) (s.2.setIfInBounds q _) p).1 = -1 ∨ ∃ v : Nat, (at' (0, 0) (s.2.setIfInBounds q _) p).1 = v ∧ _
        rw [Graph.at_set' _ (by omega)]
        have : (if p = q then ((at' (0, 0) s.2 q).1, (i : Int)) else at' (0, 0) s.2 p).1 = (at' (0, 0) s.2 p).1 := by
          split_ifs with hc
          · subst hc; rfl
          · rfl
        rw [this]
        rcases h.leftv p hpn with e | ⟨v, e1, e2, e3⟩
        · exact .inl e
        · exact .inr ⟨v, e1, by omega, e3⟩
      · intro v p hv hvp hpn e
        show (at' (0, 0) (s.2.setIfInBounds q _) p).2 = v
        rw [Graph.at_set' _ (by omega)]
        split_ifs with hc
        · subst hc
          obtain ⟨r, hr, hf⟩ := (par_right hs hlt hi).mp hpi
          obtain ⟨r', hr', hf'⟩ := (par_right hs hvp (by omega)).mp (e ▸ hp v (by omega))
          rw [RB.unique hr' hr] at hf'
          show (i : Int) = v
          rw [FirstMin.unique hs hf hf']
        · rcases Nat.lt_succ_iff_lt_or_eq.mp hv with hv | rfl
          · exact h.right v p hv hvp hpn e
          · rw [← hx] at e; exact absurd (Int.ofNat.inj e).symm hc
      · intro p hpn
        show (at' (0, 0) (s.2.setIfInBounds q _) p).2 = -1 ∨ ∃ v : Nat, (at' (0, 0) (s.2.setIfInBounds q _) p).2 = v ∧ _
        rw [Graph.at_set' _ (by omega)]
        split_ifs with hc
        · subst hc
          exact .inr ⟨i, rfl, by omega, hlt, hx.symm⟩
        · rcases h.rightv p hpn with e | ⟨v, e1, e2, e3⟩
          · exact .inl e
          · exact .inr ⟨v, e1, by omega, e3⟩
    · have hd : decide ((q : Int) ≤ i) = false := by simpa using hqi
      rw [hd, if_neg (by simp)]
      have hlt : i < q := by omega
      refine Tot.pure ⟨by simp [hsize], hroot, hrootv, ?_, ?_, ?_, ?_⟩
      · intro v p hv hvp hpn e
        show (at' (0, 0) (s.2.setIfInBounds q _) p).1 = v
        rw [Graph.at_set' _ (by omega)]
        split_ifs with hc
        · subst hc
          obtain ⟨r, hr, hf⟩ := (par_left hs hlt hpn).mp hpi
          obtain ⟨r', hr', hf'⟩ := (par_left hs hvp hpn).mp (e ▸ hp v (by omega))
          rw [LB.unique hr' hr] at hf'
          show (i : Int) = v
          rw [FirstMin.unique hs hf hf']
        · rcases Nat.lt_succ_iff_lt_or_eq.mp hv with hv | rfl
          · exact h.left v p hv hvp hpn e
          · rw [← hx] at e; exact absurd (Int.ofNat.inj e).symm hc
      · intro p hpn
        show (at' (0, 0) (s.2.setIfInBounds q _) p).1 = -1 ∨ ∃ v : Nat, (at' (0, 0) (s.2.setIfInBounds q _) p).1 = v ∧ _
        rw [Graph.at_set' _ (by omega)]
        split_ifs with hc
        · subst hc
          exact .inr ⟨i, rfl, by omega, hlt, hx.symm⟩
        · rcases h.leftv p hpn with e | ⟨v, e1, e2, e3⟩
          · exact .inl e
          · exact .inr ⟨v, e1, by omega, e3⟩
      · intro v p hv hvp hpn e
        show (at' (0, 0) (s.2.setIfInBounds q _) p).2 = v
        rw [Graph.at_set' _ (by omega)]
        have hv' : v < i := by
          rcases Nat.lt_succ_iff_lt_or_eq.mp hv with hv | rfl
          · exact hv
          · omega
        split_ifs with hc
        · subst hc; exact h.right v p hv' hvp hpn e
        · exact h.right v p hv' hvp hpn e
      · intro p hpn
        show (at' (0, 0) (s.2.setIfInBounds q _) p).2 = -1 ∨ ∃ v : Nat, (at' (0, 0) (s.2.setIfInBounds q _) p).2 = v ∧ _
        rw [Graph.at_set' _ (by omega)]
        have : (if p = q then ((i : Int), (at' (0, 0) s.2 q).2) else at' (0, 0) s.2 p).2 = (at' (0, 0) s.2 p).2 := by
          split_ifs with hc
          · subst hc; rfl
          · rfl
        rw [this]
        rcases h.rightv p hpn with e | ⟨v, e1, e2, e3⟩
        · exact .inl e
        · exact .inr ⟨v, e1, by omega, e3⟩

/-- The link to the tree of a segment. -/
def Link (w : Nat → Nat → Bool) (l r : Nat) (x : Int) : Prop := (x = -1 ∧ l = r) ∨ ∃ v : Nat, x = v ∧ FirstMin w l r v

theorem link_left (hs : StrictWeak w) {par : Array Int} {n : Nat} (hp : ∀ v, v < n → Par w n v (at' 0 par v))
    {s : Int × Array (Int × Int)} (h : Built par n n s) {p l : Nat} (hpn : p < n) (hl : LB w p l) : Link w l p (at' (0, 0) s.2 p).1 := by
  have hle := hl.le
  by_cases hlp : l < p
  · right
    obtain ⟨v, hv⟩ := FirstMin.exists hs hlp
    have hvp := hv.hi
    have e := (par_left hs hvp hpn).mpr ⟨l, hl, hv⟩
    have : at' 0 par v = p := by
      obtain ⟨l1, r1, hl1, hr1, e1⟩ := e
      obtain ⟨l2, r2, hl2, hr2, e2⟩ := hp v (by omega)
      rw [e1, e2, LB.unique hl1 hl2, RB.unique hr1 hr2]
    exact ⟨v, h.left v p (by omega) hvp hpn this, hv⟩
  · left
    refine ⟨?_, by omega⟩
    rcases h.leftv p hpn with e | ⟨v, e1, e2, e3, e4⟩
    · exact e
    · obtain ⟨l', hl', hf⟩ := (par_left hs e3 hpn).mp (e4 ▸ hp v (by omega))
      have := hf.lo
      rw [LB.unique hl' hl] at this
      omega

theorem link_right (hs : StrictWeak w) {par : Array Int} {n : Nat} (hp : ∀ v, v < n → Par w n v (at' 0 par v))
    {s : Int × Array (Int × Int)} (h : Built par n n s) {p r : Nat} (hpn : p < n) (hr : RB w n p r) : Link w (p + 1) r (at' (0, 0) s.2 p).2 := by
  have hlt := hr.lt
  have hle := hr.le
  by_cases hlp : p + 1 < r
  · right
    obtain ⟨v, hv⟩ := FirstMin.exists hs hlp
    have hvp := hv.lo
    have hvr := hv.hi
    have e := (par_right hs (show p < v by omega) (by omega)).mpr ⟨r, hr, hv⟩
    have : at' 0 par v = p := by
      obtain ⟨l1, r1, hl1, hr1, e1⟩ := e
      obtain ⟨l2, r2, hl2, hr2, e2⟩ := hp v (by omega)
      rw [e1, e2, LB.unique hl1 hl2, RB.unique hr1 hr2]
    exact ⟨v, h.right v p (by omega) (by omega) hpn this, hv⟩
  · left
    refine ⟨?_, by omega⟩
    rcases h.rightv p hpn with e | ⟨v, e1, e2, e3, e4⟩
    · exact e
    · obtain ⟨l', hl', hf⟩ := (par_right hs e3 e2).mp (e4 ▸ hp v (by omega))
      have := hf.lo
      have := hf.hi
      rw [RB.unique hl' hr] at this
      omega

theorem isCart_of_link (hs : StrictWeak w) {par : Array Int} {n : Nat} (hp : ∀ v, v < n → Par w n v (at' 0 par v))
    {s : Int × Array (Int × Int)} (h : Built par n n s) : ∀ (k l r : Nat) (x : Int), r - l ≤ k → r ≤ n → Link w l r x →
      (l = 0 ∨ ∀ j, l ≤ j → j < r → w j (l - 1) = false) → (r = n ∨ ∀ j, l ≤ j → j < r → w r j = true) → IsCart w s.2 l x r := by
  intro k
  induction k with
  | zero =>
    intro l r x hk _ hx _ _
    rcases hx with ⟨rfl, rfl⟩ | ⟨v, rfl, hv⟩
    · exact .nil l
    · have := hv.lo; have := hv.hi; omega
  | succ k ih =>
    intro l r x hk hrn hx hbl hbr
    rcases hx with ⟨rfl, rfl⟩ | ⟨v, rfl, hv⟩
    · exact .nil l
    · have h1 := hv.lo
      have h2 := hv.hi
      have hL : LB w v l := ⟨hv.lo, hv.before, by
        rcases hbl with e | e
        · exact .inl e
        · exact .inr (e v h1 h2)⟩
      have hR : RB w n v r := ⟨hv.hi, hrn, hv.after, by
        rcases hbr with e | e
        · exact .inl e
        · exact .inr (e v h1 h2)⟩
      have hsz := h.size
      have hg : s.2[v]? = some ((at' (0, 0) s.2 v).1, (at' (0, 0) s.2 v).2) := by
        unfold at'
        rw [Array.getElem?_eq_getElem (by omega)]
        rfl
      refine .node hv hg ?_ ?_
      · refine ih l v _ (by omega) (by omega) (link_left hs hp h (by omega) hL) ?_ (.inr hv.before)
        rcases hbl with e | e
        · exact .inl e
        · exact .inr fun j h3 h4 => e j h3 (by omega)
      · refine ih (v + 1) r _ (by omega) hrn (link_right hs hp h (by omega) hR) (.inr fun j h3 h4 => ?_) ?_
        · exact hv.after j (by omega) h4
        · rcases hbr with e | e
          · exact .inl e
          · exact .inr fun j h3 h4 => e j (by omega) h4

end Build

theorem build_tot {lt : α → α → Bool} (hs : StrictWeak lt) (d : α) (a : Array α) :
    Tot (build lt a) fun t => t.2.size = a.size ∧ IsCart (wof lt d a) t.2 0 t.1 a.size ∧
      ∃ par, calcPar lt a = .ok par ∧ par.size = a.size ∧ Built par a.size a.size t ∧ ∀ v, v < a.size → Par (wof lt d a) a.size v (at' 0 par v) := by
  have hw := wof_strict hs d a
  unfold build
  obtain ⟨par, e, hsz, hp⟩ := calcPar_tot hs d a
  rw [e, ok_bind]
  have hb : Tot (forUp 0 a.size (-1, Array.replicate a.size (-1, -1)) (buildStep par)) (Built par a.size a.size) := by
    refine Tot.forUp (lo := 0) (hi := a.size) (P := Built par a.size) (Nat.zero_le _) ?_ fun i s _ hi h => build_step hw hsz hp hi h
    have e0 : ∀ p, p < a.size → at' (0, 0) (Array.replicate a.size ((-1 : Int), (-1 : Int))) p = (-1, -1) := by
      intro p hp
      simp [at', hp]
    exact ⟨by simp, fun v hv => by omega, .inl rfl, fun v p hv => by omega, fun p hp => .inl (by rw [e0 p hp]), fun v p hv => by omega,
      fun p hp => .inl (by rw [e0 p hp])⟩
  refine hb.mono fun t ht => ⟨ht.size, ?_, par, rfl, hsz, ht, hp⟩
  refine isCart_of_link hw hp ht a.size 0 a.size t.1 (by omega) (le_refl _) ?_ (.inl rfl) (.inl rfl)
  by_cases h0 : a.size = 0
  · left
    refine ⟨?_, h0.symm⟩
    rcases ht.rootv with e | ⟨v, -, e2, -⟩
    · exact e
    · omega
  · right
    obtain ⟨v, hv⟩ := FirstMin.exists hw (show 0 < a.size by omega)
    have hlt := hv.hi
    refine ⟨v, ht.root v hlt ?_, hv⟩
    obtain ⟨l1, r1, hl1, hr1, e1⟩ := par_root.mpr hv
    obtain ⟨l2, r2, hl2, hr2, e2⟩ := hp v hlt
    rw [e2, ← LB.unique hl1 hl2, ← RB.unique hr1 hr2, ← e1]

/-! ### `ranges` -/

theorem ranges_tot {w : Nat → Nat → Bool} {g : Array (Int × Int)} {n l r : Nat} {x : Int} (h : IsCart w g l x r) (hr : r ≤ n) :
    (l = 0 ∨ ∀ j, l ≤ j → j < r → w j (l - 1) = false) → (r = n ∨ ∀ j, l ≤ j → j < r → w r j = true) →
    l ≤ r ∧ ∀ (f : Nat), r - l < f → ∀ res, Tot (rangesRec g f l x r res) fun out => ∃ seg : List (Int × Int), out = res ++ seg ∧ seg.length = r - l ∧
      ∀ i, l ≤ i → i < r → ∃ L R : Nat, seg[i - l]? = some ((L : Int), (R : Int)) ∧ MaxRange w n i L R := by
  induction h with
  | nil l =>
    intro _ _
    refine ⟨le_refl _, fun f hf res => ?_⟩
    obtain ⟨f, rfl⟩ : ∃ f', f = f' + 1 := ⟨f - 1, by omega⟩
    unfold rangesRec
    rw [if_pos rfl]
    exact Tot.pure ⟨[], by simp, by simp, fun i h1 h2 => by omega⟩
  | @node l m r a b hm hg _ _ ihl ihr =>
    intro hbl hbr
    have h1 := hm.lo
    have h2 := hm.hi
    obtain ⟨_, h3⟩ := ihl (by omega) (by
      rcases hbl with e | e
      · exact .inl e
      · exact .inr fun j h3 h4 => e j h3 (by omega)) (.inr hm.before)
    obtain ⟨_, h4⟩ := ihr hr (.inr fun j h3 h4 => by simpa using hm.after j (by omega) h4) (by
      rcases hbr with e | e
      · exact .inl e
      · exact .inr fun j h3 h4 => e j (by omega) h4)
    refine ⟨by omega, fun f hf res => ?_⟩
    obtain ⟨f, rfl⟩ : ∃ f', f = f' + 1 := ⟨f - 1, by omega⟩
    unfold rangesRec
    rw [if_neg (by omega), if_neg (by omega), show ((m : Int)).toNat = m by omega, rd_some hg, ok_bind]
    refine Tot.bind (h3 f (by omega) res) fun res' hres' => ?_
    obtain ⟨s1, rfl, hs1, hq1⟩ := hres'
    have h5 := h4 f (by omega) (res ++ s1 ++ [((l : Int), (r : Int))])
    rw [show ((m + 1 : Nat) : Int) = (m : Int) + 1 by push_cast; rfl] at h5
    refine h5.mono fun out ho => ?_
    obtain ⟨s2, rfl, hs2, hq2⟩ := ho
    refine ⟨s1 ++ ((l : Int), (r : Int)) :: s2, by simp, by simp [hs1, hs2]; omega, fun i h6 h7 => ?_⟩
    rcases Nat.lt_trichotomy i m with hi | rfl | hi
    · obtain ⟨L, R, e, hM⟩ := hq1 i h6 hi
      refine ⟨L, R, ?_, hM⟩
      rw [List.getElem?_append_left (by omega)]
      exact e
    · refine ⟨l, r, ?_, hm, hr, ?_, ?_⟩
      · rw [List.getElem?_append_right (by omega), hs1, Nat.sub_self]; rfl
      · rcases hbl with e | e
        · exact .inl e
        · exact .inr (e i h6 h7)
      · rcases hbr with e | e
        · exact .inl e
        · exact .inr (e i h6 h7)
    · obtain ⟨L, R, e, hM⟩ := hq2 i (by omega) h7
      refine ⟨L, R, ?_, hM⟩
      rw [List.getElem?_append_right (by omega), hs1, show i - l - (m - l) = (i - (m + 1)) + 1 by omega]
      exact e

end CartesianTree
