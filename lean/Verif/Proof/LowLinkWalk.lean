import Verif.Proof.LowLink

/-!
# A second depth-first search over the same adjacency lists visits the vertices in the order of the first one
-/

namespace LowLink
open Cxx Cut

variable {n : Nat} {E : List (Nat × Nat)} {o : Obj} {v : V}

/-- `c` vertices have been visited when the second search is at `u`. -/
structure Walk (n : Nat) (v : V) (u : Nat) (c : Int) : Prop where
  lo : v.pre u < c
  hi : c ≤ v.fin u
  full : ∀ q, q < n → v.pre u < v.pre q → v.pre q < c → v.fin q ≤ c

theorem Built.fin_mono (B : Built n E o v) {w q : Nat} (hw : w < n) (hq : q < n) (h : v.In w q) : v.fin q ≤ v.fin w := by
  by_contra hc
  have h0 := (B.cert.done w hw).vis
  have hw2 := (B.cert.done w hw).lt
  have := B.finle q hq
  obtain ⟨x, h1, h2⟩ := B.onto (v.fin w) (by omega) (by omega)
  have hx : v.In q x := ⟨by have := h.2; omega, by omega⟩
  -- follow the parents of `x` down to `q`
  have key : ∀ k : Nat, ∀ x, x < n → v.In q x → v.fin w ≤ v.pre x → (v.pre x).toNat ≤ k → False := by
    intro k
    induction k with
    | zero =>
      intro x _ a b c
      have := h.1
      omega
    | succ k ih =>
      intro x hx a b c
      have hne : x ≠ q := by rintro rfl; have := h.2; omega
      obtain ⟨p, i, p1, p2, p3, p4, p5, p6⟩ := B.cert.par_in hq hx a hne
      by_cases h3 : v.fin w ≤ v.pre p
      · exact ih p p1 p5 h3 (by have := (B.cert.done p p1).vis; omega)
      · have := (B.cert.done w hw).closed p x i p1 (by have := h.1; have := p5.1; omega) (by omega) p4.symm
        omega
  exact key _ x h1 hx (by omega) (le_refl _)

theorem Built.walk_start (B : Built n E o v) {u : Nat} (hu : u < n) : Walk n v u (v.pre u + 1) := by
  have := (B.cert.done u hu).lt
  exact ⟨by omega, by omega, fun q _ h1 h2 => by omega⟩

theorem Built.next (B : Built n E o v) {u : Nat} {c : Int} (hu : u < n) (W : Walk n v u c) (hc : c < v.fin u) :
    ∃ x, x < n ∧ v.pre x = c ∧ v.par x = u := by
  have h0 := (B.cert.done u hu).vis
  have h1 := W.lo
  have := B.finle u hu
  obtain ⟨x, h2, h3⟩ := B.onto c (by omega) (by omega)
  refine ⟨x, h2, h3, ?_⟩
  obtain ⟨p, i, p1, p2, p3, p4, p5, p6⟩ := B.cert.par_in hu h2 (w := u) ⟨by omega, by omega⟩ (by rintro rfl; omega)
  rw [p2]
  by_cases e : p = u
  · rw [e]
  · have h4 : v.pre u < v.pre p := lt_of_le_of_ne p5.1 (fun e' => e (B.cert.inj _ _ hu p1 e').symm)
    have h5 := W.full p p1 h4 (by omega)
    have h6 := (B.cert.done p p1).closed p x i p1 (le_refl _) (B.cert.done p p1).lt p4.symm
    omega

/-- The next neighbour that has not been visited is the next child. -/
theorem Built.next_edge (B : Built n E o v) {u y i : Nat} {c : Int} {A C : List (Nat × Nat)} (hu : u < n) (W : Walk n v u c)
    (hA : at' [] o.g u = A ++ (y, i) :: C) (h : ∀ e ∈ A, v.pre e.1 < c) (hy : c ≤ v.pre y) :
    y < n ∧ v.pre y = c ∧ v.par y = u ∧ v.pe y = i := by
  have hin : Inc E u y i := (B.graph.adj u hu y i).mp (by rw [hA]; simp)
  have hyn := (B.graph.bnd _ _ _ hin).2
  have h1 := (B.cert.done u hu).closed u y i hu (le_refl _) (B.cert.done u hu).lt hin
  obtain ⟨x, h2, h3, h4⟩ := B.next hu W (by omega)
  have hlo := W.lo
  obtain ⟨l1, j, l2, b0, b1, b2⟩ := B.first u hu x h2 (by omega) (by omega) h4
  rw [hA] at b1
  have hl : l1.length = A.length := by
    rcases Nat.lt_trichotomy l1.length A.length with hlt | heq | hlt
    · exfalso
      have e : (A ++ (y, i) :: C)[l1.length]? = some (x, j) := by rw [b1]; simp
      rw [List.getElem?_append_left hlt] at e
      have := h _ (List.mem_of_getElem? e)
      dsimp only at this
      omega
    · exact heq
    · exfalso
      have e : (l1 ++ (x, j) :: l2)[A.length]? = some (y, i) := by rw [← b1]; simp
      rw [List.getElem?_append_left hlt] at e
      have := b2 _ (List.mem_of_getElem? e)
      dsimp only at this
      omega
  have := (List.append_inj b1 hl.symm).2
  simp only [List.cons.injEq, Prod.mk.injEq] at this
  obtain ⟨⟨rfl, rfl⟩, -⟩ := this
  exact ⟨hyn, h3, h4, b0⟩

theorem Built.walk_child (B : Built n E o v) {u y : Nat} {c : Int} (hu : u < n) (hy : y < n) (W : Walk n v u c) (h1 : v.pre y = c) (h2 : v.par y = u) :
    Walk n v u (v.fin y) := by
  have h3 := (B.cert.done y hy).lt
  have hlo := W.lo
  have h4 := B.cert.child_in hu hy h2 (B.cert.in_self hu)
  refine ⟨by omega, B.fin_mono hu hy h4, fun q hq a b => ?_⟩
  by_cases h5 : v.pre q < c
  · have := W.full q hq a h5; omega
  · exact B.fin_mono hy hq ⟨by omega, b⟩

theorem Built.walk_end (B : Built n E o v) {u : Nat} {c : Int} (hu : u < n) (W : Walk n v u c) (h : ∀ e ∈ at' [] o.g u, v.pre e.1 < c) : c = v.fin u := by
  by_contra hne
  have := W.hi
  obtain ⟨x, h2, h3, h4⟩ := B.next hu W (by omega)
  obtain ⟨p, i, p1, p2, p3, p4, p5, p6⟩ := B.cert.par_of h2 (by omega)
  have : p = u := by omega
  subst this
  have := h (x, i) ((B.graph.adj p p1 x i).mpr p4.symm)
  dsimp only at this
  omega

/-- The next root. -/
theorem Built.next_root (B : Built n E o v) {i : Nat} {c : Int} (hi : i < n) (h0 : 0 ≤ c) (hs : ∀ x, x < i → v.pre x < c)
    (hf : ∀ q, q < n → v.pre q < c → v.fin q ≤ c) (hc : c ≤ v.pre i) : v.pre i = c ∧ v.par i = -1 := by
  have := B.lt i hi
  obtain ⟨x, h2, h3⟩ := B.onto c h0 (by omega)
  have hr : v.par x = -1 := by
    by_contra hne
    obtain ⟨p, j, p1, p2, p3, p4, p5, p6⟩ := B.cert.par_of h2 hne
    have h5 := hf p p1 (by omega)
    have h6 := (B.cert.done p p1).closed p x j p1 (le_refl _) (B.cert.done p p1).lt p4.symm
    omega
  have hx : x = i := by
    rcases Nat.lt_trichotomy x i with h | h | h
    · have := hs x h; omega
    · exact h
    · have := B.rt x h2 hr i h; omega
  subst hx
  exact ⟨h3, hr⟩

end LowLink
