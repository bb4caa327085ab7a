import Verif.Model.LowLink
import Verif.Proof.LowLinkStatic
import Verif.Proof.GraphBasic

namespace LowLink
open Cxx Cut

/-- The adjacency lists belong to the edges. -/
structure GOk (n : Nat) (E : List (Nat × Nat)) (g : Array (List (Nat × Nat))) : Prop where
  size : g.size = n
  adj : ∀ u, u < n → ∀ y i, (y, i) ∈ at' [] g u ↔ Inc E u y i
  bnd : ∀ x y i, Inc E x y i → x < n ∧ y < n
  nd : ∀ u, u < n → ((at' [] g u).filter fun e => e.1 ≠ u).Nodup

/-- Children come in the order of the adjacency list. -/
def First (n : Nat) (A : List (Nat × Nat)) (v : V) (w : Nat) : Prop :=
  ∀ x, x < n → v.pre w < v.pre x → v.pre x < v.fin w → v.par x = w → ∃ (l1 : List (Nat × Nat)) (i : Nat) (l2 : List (Nat × Nat)), v.pe x = i ∧ A = l1 ++ (x, i) :: l2 ∧ ∀ e ∈ l1, v.pre e.1 < v.pre x

/-- `w` has been finished. -/
def DoneG (n : Nat) (E : List (Nat × Nat)) (g : Array (List (Nat × Nat))) (v : V) (w : Nat) : Prop :=
  Done n E v w ∧ First n (at' [] g w) v w

section
variable {n : Nat} {E : List (Nat × Nat)} {g : Array (List (Nat × Nat))}

/-- Finished vertices stay finished. -/
theorem DoneG.ext (G : GOk n E g) {v v' : V} {w : Nat} (hwn : w < n) (h : DoneG n E g v w) {o : Int} (hfin : v.fin w ≤ o)
    (hp : ∀ x, 0 ≤ v.pre x → v'.pre x = v.pre x ∧ v'.par x = v.par x)
    (hn : ∀ x, x < n → v.pre x < 0 → 0 ≤ v'.pre x → o ≤ v'.pre x)
    (h1 : v'.low w = v.low w) (hq : ∀ x, 0 ≤ v.pre x → v'.pe x = v.pe x) (h3 : v'.fin w = v.fin w) : DoneG n E g v' w := by
  obtain ⟨h, hf⟩ := h
  have hw := hp w h.vis
  have h2 := hq w h.vis
  have back : ∀ x, x < n → v'.pre w ≤ v'.pre x → v'.pre x < v'.fin w → 0 ≤ v.pre x ∧ v'.pre x = v.pre x ∧ v'.par x = v.par x := by
    intro x hx a b
    have h0 : 0 ≤ v.pre x := by
      by_contra hc
      have := hn x hx (by omega) (by have := h.vis; omega)
      omega
    exact ⟨h0, hp x h0⟩
  refine ⟨⟨by rw [hw.1]; exact h.vis, by rw [hw.1, h3]; exact h.lt, ?_, ?_, ?_, by rw [h1, hw.1]; exact h.lowle, ?_⟩, ?_⟩
  · rcases h.up with h4 | ⟨p, i, a1, a2, a3, a4, a5, a6⟩
    · left; rw [h2, hw.2]; exact h4
    · right
      refine ⟨p, i, a1, by rw [hw.2, a2], by rw [h2, a3], a4, by rw [(hp p a5).1]; exact a5, by rw [(hp p a5).1, hw.1]; exact a6⟩
  · intro x y i hx a b he
    obtain ⟨b0, b1, b2⟩ := back x hx a b
    have := h.closed x y i hx (by omega) (by omega) he
    rw [(hp y this.1).1]
    omega
  · intro x hx a b
    obtain ⟨b0, b1, b2⟩ := back x hx (by omega) b
    obtain ⟨p, c1, c2, c3⟩ := h.inside x hx (by omega) (by omega)
    refine ⟨p, c1, by rw [b2, c2], ?_⟩
    rw [(hp p (by have := h.vis; omega)).1, hw.1]
    exact c3
  · intro t ht
    rw [h1, h.lows t (by omega)]
    constructor
    · rintro ⟨x, y, i, a1, a2, a3, a4, a5, a6⟩
      have hx := hp x (by have := h.vis; omega)
      have hy := hp y (h.closed x y i a1 a2 a3 a4).1
      exact ⟨x, y, i, a1, by omega, by omega, a4, by omega, by omega⟩
    · rintro ⟨x, y, i, a1, a2, a3, a4, a5, a6⟩
      obtain ⟨b0, b1, b2⟩ := back x a1 a2 a3
      have hc := h.closed x y i a1 (by omega) (by omega) a4
      have hy := hp y hc.1
      exact ⟨x, y, i, a1, by omega, by omega, a4, by omega, by omega⟩
  · intro x hx a b c
    obtain ⟨b0, b1, b2⟩ := back x hx (by omega) b
    obtain ⟨l1, i, l2, c0, c1, c2⟩ := hf x hx (by omega) (by omega) (by omega)
    refine ⟨l1, i, l2, by rw [hq x b0, c0], c1, fun e he => ?_⟩
    have hin : Inc E w e.1 e.2 := (G.adj w hwn e.1 e.2).mp (by rw [c1]; exact List.mem_append_left _ he)
    have := h.closed w e.1 e.2 hwn (le_refl _) h.lt hin
    rw [(hp _ this.1).1, b1]
    exact c2 e he

theorem Br.ext {v v' : V} {w : Nat} (h : Done n E v w)
    (hp : ∀ x, 0 ≤ v.pre x → v'.pre x = v.pre x ∧ v'.par x = v.par x) (h1 : v'.low w = v.low w) : v'.Br n w ↔ v.Br n w := by
  unfold V.Br
  have hw := hp w h.vis
  rw [hw.2, h1]
  rcases h.up with h4 | ⟨p, i, a1, a2, a3, a4, a5, a6⟩
  · rw [h4.2]
    constructor
    · rintro ⟨p, -, h, -⟩; omega
    · rintro ⟨p, -, h, -⟩; omega
  · constructor
    · rintro ⟨q, c1, c2, c3⟩
      have : q = p := by omega
      subst this
      exact ⟨q, c1, c2, by rw [← (hp q a5).1]; exact c3⟩
    · rintro ⟨q, c1, c2, c3⟩
      have : q = p := by omega
      subst this
      exact ⟨q, c1, c2, by rw [(hp q a5).1]; exact c3⟩

theorem Art.ext {v v' : V} {x : Nat} (h : Done n E v x) {o : Int} (hfin : v.fin x ≤ o)
    (hp : ∀ x, 0 ≤ v.pre x → v'.pre x = v.pre x ∧ v'.par x = v.par x)
    (hn : ∀ x, x < n → v.pre x < 0 → 0 ≤ v'.pre x → o ≤ v'.pre x)
    (hl : ∀ w, v.pre x < v.pre w → v'.low w = v.low w) (h2 : v'.pe x = v.pe x) (h3 : v'.fin x = v.fin x) : v'.Art n x ↔ v.Art n x := by
  have hx := hp x h.vis
  have key : ∀ w, (w < n ∧ v'.pre x < v'.pre w ∧ v'.pre w < v'.fin x ∧ v'.par w = x) ↔ (w < n ∧ v.pre x < v.pre w ∧ v.pre w < v.fin x ∧ v.par w = x) := by
    intro w
    constructor
    · rintro ⟨a1, a2, a3, a4⟩
      have h0 : 0 ≤ v.pre w := by
        by_contra hc
        have := hn w a1 (by omega) (by have := h.vis; omega)
        omega
      have := hp w h0
      exact ⟨a1, by omega, by omega, by omega⟩
    · rintro ⟨a1, a2, a3, a4⟩
      have := hp w (by have := h.vis; omega)
      exact ⟨a1, by omega, by omega, by omega⟩
  unfold V.Art
  simp only [key, h2]
  refine or_congr (and_congr Iff.rfl ?_) Iff.rfl
  constructor
  · rintro ⟨w, a1, a2, a3, a4, a5⟩
    have hk := (key w).mp ⟨a1, a2, a3, a4⟩
    refine ⟨w, hk.1, hk.2.1, hk.2.2.1, hk.2.2.2, ?_⟩
    have := hl w hk.2.1
    omega
  · rintro ⟨w, a1, a2, a3, a4, a5⟩
    have hk := (key w).mpr ⟨a1, a2, a3, a4⟩
    refine ⟨w, hk.1, hk.2.1, hk.2.2.1, hk.2.2.2, ?_⟩
    have := hl w a2
    omega

/-- The view agrees with the arrays. -/
structure Rep (n : Nat) (s : St) (v : V) : Prop where
  s1 : s.pre.size = n
  s2 : s.low.size = n
  s3 : s.par.size = n
  e1 : v.pre = at' (-1) s.pre
  e2 : v.low = at' 0 s.low
  e3 : v.par = at' (-1) s.par

/-- The order numbers. -/
structure Base (n : Nat) (o : Int) (v : V) : Prop where
  o0 : 0 ≤ o
  lt : ∀ x, v.pre x < o
  inj : ∀ x y, x < n → y < n → 0 ≤ v.pre x → v.pre x = v.pre y → x = y
  onto : ∀ t, 0 ≤ t → t < o → ∃ x, x < n ∧ v.pre x = t
  card : (((Finset.range n).filter fun x => 0 ≤ v.pre x).card : Int) = o

/-- The output lists. -/
structure Outs (n : Nat) (E : List (Nat × Nat)) (s : St) (v : V) : Prop where
  bn : s.bridges.Nodup
  bv : ∀ i, i ∈ s.bridges → ∀ x y, Inc E x y i → 0 ≤ v.pre x
  an : s.arts.Nodup
  av : ∀ x, x ∈ s.arts → 0 ≤ v.pre x

structure PreD (n : Nat) (E : List (Nat × Nat)) (s : St) (v : V) (u : Nat) (prev : Int) : Prop where
  rep : Rep n s v
  base : Base n s.ord v
  outs : Outs n E s v
  un : u < n
  fresh : v.pre u < 0
  up : (prev = -1 ∧ v.par u = -1) ∨ ∃ p i : Nat, p < n ∧ v.par u = p ∧ prev = i ∧ Inc E u p i ∧ 0 ≤ v.pre p
  unv : ∀ x, x ≠ u → v.pre x < 0 → v.par x = -1

/-- Old vertices are unchanged. -/
def Same (v0 v : V) : Prop :=
  ∀ x, 0 ≤ v0.pre x → v.pre x = v0.pre x ∧ v.par x = v0.par x ∧ v.low x = v0.low x ∧ v.pe x = v0.pe x ∧ v.fin x = v0.fin x

structure Post (n : Nat) (E : List (Nat × Nat)) (g : Array (List (Nat × Nat))) (s0 : St) (v0 : V) (u : Nat) (prev : Int) (s : St) (v : V) : Prop where
  rep : Rep n s v
  base : Base n s.ord v
  outs : Outs n E s v
  ord : s0.ord < s.ord
  preu : v.pre u = s0.ord
  finu : v.fin u = s.ord
  peu : v.pe u = prev
  paru : v.par u = v0.par u
  same : Same v0 v
  new : ∀ x, x < n → v0.pre x < 0 → 0 ≤ v.pre x → s0.ord ≤ v.pre x ∧ DoneG n E g v x ∧ v.fin x ≤ s.ord
  unv : ∀ x, v.pre x < 0 → v.par x = -1
  bm : ∀ i, i ∈ s.bridges ↔ i ∈ s0.bridges ∨ ∃ w, w < n ∧ s0.ord < v.pre w ∧ v.pe w = i ∧ v.Br n w
  am : ∀ x, x ∈ s.arts ↔ x ∈ s0.arts ∨ (x < n ∧ s0.ord ≤ v.pre x ∧ v.Art n x)

structure LInv (n : Nat) (E : List (Nat × Nat)) (g : Array (List (Nat × Nat))) (s0 : St) (v0 : V) (u : Nat) (prev : Int)
    (A : List (Nat × Nat)) (l : Loc) (v : V) : Prop where
  rep : Rep n l.s v
  base : Base n l.s.ord v
  outs : Outs n E l.s v
  ord : s0.ord < l.s.ord
  preu : v.pre u = s0.ord
  peu : v.pe u = prev
  paru : v.par u = v0.par u
  same : Same v0 v
  new : ∀ x, x < n → v0.pre x < 0 → x ≠ u → 0 ≤ v.pre x →
    s0.ord < v.pre x ∧ DoneG n E g v x ∧ v.fin x ≤ l.s.ord ∧ ∃ p : Nat, p < n ∧ v.par x = p ∧ s0.ord ≤ v.pre p
  unv : ∀ x, v.pre x < 0 → v.par x = -1
  bm : ∀ i, i ∈ l.s.bridges ↔ i ∈ s0.bridges ∨ ∃ w, w < n ∧ s0.ord < v.pre w ∧ v.pe w = i ∧ v.Br n w
  am : ∀ x, x ∈ l.s.arts ↔ x ∈ s0.arts ∨ (x < n ∧ s0.ord < v.pre x ∧ v.Art n x)
  a1 : ∀ e ∈ A, 0 ≤ v.pre e.1
  lowle : v.low u ≤ s0.ord
  lows : ∀ t, t ≤ s0.ord → (v.low u < t ↔ (∃ e ∈ A, (e.2 : Int) ≠ prev ∧ v.pre e.1 < t) ∨
    ∃ x y i : Nat, x < n ∧ s0.ord < v.pre x ∧ Inc E x y i ∧ (i : Int) ≠ prev ∧ v.pre y < t)
  first : ∀ x, x < n → s0.ord < v.pre x → v.par x = u → ∃ (l1 : List (Nat × Nat)) (i : Nat) (l2 : List (Nat × Nat)), v.pe x = i ∧ A = l1 ++ (x, i) :: l2 ∧ ∀ e ∈ l1, v.pre e.1 < v.pre x
  ch : l.ch = ((Finset.range n).filter fun x => s0.ord < v.pre x ∧ v.par x = u).card
  art : l.isArt = true ↔ 0 ≤ prev ∧ ∃ w, w < n ∧ s0.ord < v.pre w ∧ v.par w = u ∧ s0.ord ≤ v.low w

/-- Vertices visited after `u`. -/
theorem LInv.later {s0 : St} {v0 : V} {u : Nat} {prev : Int} {A : List (Nat × Nat)} {l : Loc} {v : V} (P : PreD n E s0 v0 u prev)
    (h : LInv n E g s0 v0 u prev A l v) {x : Nat} (hx : x < n) (hk : s0.ord < v.pre x) :
    DoneG n E g v x ∧ v.fin x ≤ l.s.ord ∧ x ≠ u ∧ v0.pre x < 0 ∧ ∃ p : Nat, p < n ∧ v.par x = p ∧ s0.ord ≤ v.pre p := by
  have h1 : v0.pre x < 0 := by
    by_contra hc
    have := h.same x (by omega)
    have := P.base.lt x
    omega
  have h2 : x ≠ u := by rintro rfl; have := h.preu; omega
  have := h.new x hx h1 h2 (by have := P.base.o0; omega)
  exact ⟨this.2.1, this.2.2.1, h2, h1, this.2.2.2⟩

/-- Changing only `low u` and extending the adjacency prefix. -/
theorem LInv.back (G : GOk n E g) {s0 : St} {v0 : V} {u : Nat} {prev : Int} {A : List (Nat × Nat)} {l : Loc} {v : V} (P : PreD n E s0 v0 u prev)
    (h : LInv n E g s0 v0 u prev A l v) {e : Nat × Nat} (he : (e.2 : Int) ≠ prev) (hv : 0 ≤ v.pre e.1) :
    Tot (backEdge u (v.pre e.1) l) fun l' => ∃ v', LInv n E g s0 v0 u prev (A ++ [e]) l' v' := by
  unfold backEdge
  have hun := P.un
  have hul : u < l.s.low.size := by rw [h.rep.s2]; exact hun
  rw [rd_at 0 hul, ok_bind, wr_eq hul, ok_bind]
  obtain ⟨f, hf⟩ : ∃ f, f = at' 0 (l.s.low.setIfInBounds u (min (at' 0 l.s.low u) (v.pre e.1))) := ⟨_, rfl⟩
  refine Tot.pure ⟨⟨v.pre, f, v.par, v.pe, v.fin⟩, ?_⟩
  have hlow : ∀ x, f x = if u = x then min (v.low u) (v.pre e.1) else v.low x := by
    intro x
    rw [hf, at_set 0 hul, h.rep.e2]
  have hk0 := P.base.o0
  refine ⟨⟨h.rep.s1, by simpa using h.rep.s2, h.rep.s3, h.rep.e1, hf, h.rep.e3⟩, ⟨h.base.o0, h.base.lt, h.base.inj, h.base.onto, h.base.card⟩,
    ⟨h.outs.bn, h.outs.bv, h.outs.an, h.outs.av⟩, h.ord, h.preu, h.peu, h.paru, ?_, ?_, h.unv, ?_, ?_, ?_, ?_, ?_, ?_, h.ch, ?_⟩
  · intro x hx
    have := h.same x hx
    refine ⟨this.1, this.2.1, ?_, this.2.2.2⟩
    dsimp only
    rw [hlow, if_neg]
    · exact this.2.2.1
    · rintro rfl
      have := P.fresh
      omega
  · intro x hx h1 h2 h3
    obtain ⟨a1, a2, a3, a4⟩ := h.new x hx h1 h2 h3
    refine ⟨a1, ?_, a3, a4⟩
    refine DoneG.ext G hx a2 a3 (fun y _ => ⟨rfl, rfl⟩) (fun y _ b1 b2 => by dsimp only at b2; omega) ?_ (fun _ _ => rfl) rfl
    dsimp only
    rw [hlow, if_neg (fun e => h2 e.symm)]
  · intro i
    rw [h.bm i]
    refine or_congr Iff.rfl (exists_congr fun w => ?_)
    constructor
    · rintro ⟨b1, b2, b3, b4⟩
      obtain ⟨d1, d2, d3, d4⟩ := h.later P b1 b2
      refine ⟨b1, b2, b3, (Br.ext (v' := ⟨v.pre, f, v.par, v.pe, v.fin⟩) d1.1 (fun y _ => ⟨rfl, rfl⟩) ?_).mpr b4⟩
      dsimp only
      rw [hlow, if_neg (fun e => d3 e.symm)]
    · rintro ⟨b1, b2, b3, b4⟩
      obtain ⟨d1, d2, d3, d4⟩ := h.later P b1 b2
      refine ⟨b1, b2, b3, (Br.ext (v' := ⟨v.pre, f, v.par, v.pe, v.fin⟩) d1.1 (fun y _ => ⟨rfl, rfl⟩) ?_).mp b4⟩
      dsimp only
      rw [hlow, if_neg (fun e => d3 e.symm)]
  · intro x
    rw [h.am x]
    refine or_congr Iff.rfl (and_congr_right fun b1 => and_congr_right fun b2 => ?_)
    obtain ⟨d1, d2, d3, d4⟩ := h.later P b1 b2
    refine (Art.ext (v' := ⟨v.pre, f, v.par, v.pe, v.fin⟩) d1.1 d2 (fun y _ => ⟨rfl, rfl⟩) (fun y _ b1 b2 => by dsimp only at b2; omega) ?_ rfl rfl).symm
    intro w hw
    dsimp only
    rw [hlow, if_neg]
    rintro rfl
    have := h.preu
    omega
  · intro e' he'
    rw [List.mem_append, List.mem_singleton] at he'
    rcases he' with he' | rfl
    · exact h.a1 e' he'
    · exact hv
  · dsimp only
    rw [hlow, if_pos rfl]
    have := h.lowle
    omega
  · intro t ht
    dsimp only
    rw [hlow, if_pos rfl, min_lt_iff, h.lows t ht]
    constructor
    · rintro ((⟨e', b1, b2⟩ | b) | b)
      · exact .inl ⟨e', List.mem_append_left _ b1, b2⟩
      · exact .inr b
      · exact .inl ⟨e, by simp, he, b⟩
    · rintro (⟨e', b1, b2⟩ | b)
      · rw [List.mem_append, List.mem_singleton] at b1
        rcases b1 with b1 | rfl
        · exact .inl (.inl ⟨e', b1, b2⟩)
        · exact .inr b2.2
      · exact .inl (.inr b)
  · intro x hx h1 h2
    obtain ⟨l1, i, l2, b0, b1, b2⟩ := h.first x hx h1 h2
    exact ⟨l1, i, l2 ++ [e], b0, by rw [b1]; simp, b2⟩
  · dsimp only
    rw [h.art]
    refine and_congr Iff.rfl (exists_congr fun w => and_congr_right fun b1 => and_congr_right fun b2 => and_congr_right fun b3 => ?_)
    rw [hlow, if_neg]
    rintro rfl
    have := h.preu
    omega

/-- The edge to the parent. -/
theorem LInv.skip (G : GOk n E g) {s0 : St} {v0 : V} {u : Nat} {prev : Int} {A : List (Nat × Nat)} {l : Loc} {v : V} (P : PreD n E s0 v0 u prev)
    (h : LInv n E g s0 v0 u prev A l v) {e : Nat × Nat} (he : (e.2 : Int) = prev) (hin : Inc E u e.1 e.2) :
    LInv n E g s0 v0 u prev (A ++ [e]) l v := by
  have hv : 0 ≤ v.pre e.1 := by
    rcases P.up with h1 | ⟨p, i, b1, b2, b3, b4, b5⟩
    · omega
    · have : e.2 = i := by omega
      subst this
      rcases hin.ends b4 with ⟨-, e1⟩ | ⟨e1, -⟩
      · rw [e1, (h.same p b5).1]; exact b5
      · subst e1; have := P.fresh; omega
  refine ⟨h.rep, h.base, h.outs, h.ord, h.preu, h.peu, h.paru, h.same, h.new, h.unv, h.bm, h.am, ?_, h.lowle, ?_, ?_, h.ch, h.art⟩
  · intro e' he'
    rw [List.mem_append, List.mem_singleton] at he'
    rcases he' with he' | rfl
    · exact h.a1 e' he'
    · exact hv
  · intro t ht
    rw [h.lows t ht]
    refine or_congr ⟨?_, ?_⟩ Iff.rfl
    · rintro ⟨e', b1, b2⟩
      exact ⟨e', List.mem_append_left _ b1, b2⟩
    · rintro ⟨e', b1, b2⟩
      rw [List.mem_append, List.mem_singleton] at b1
      rcases b1 with b1 | rfl
      · exact ⟨e', b1, b2⟩
      · exact absurd he b2.1
  · intro x hx h1 h2
    obtain ⟨l1, i, l2, b0, b1, b2⟩ := h.first x hx h1 h2
    exact ⟨l1, i, l2 ++ [e], b0, by rw [b1]; simp, b2⟩

theorem decideCut_s (r : Bool) (i : Nat) (pu lv : Int) (l : Loc) :
    (decideCut r i pu lv l).s.pre = l.s.pre ∧ (decideCut r i pu lv l).s.low = l.s.low ∧ (decideCut r i pu lv l).s.par = l.s.par ∧
    (decideCut r i pu lv l).s.arts = l.s.arts ∧ (decideCut r i pu lv l).s.ord = l.s.ord ∧ (decideCut r i pu lv l).ch = l.ch ∧
    ((decideCut r i pu lv l).s.bridges = if pu < lv then l.s.bridges ++ [i] else l.s.bridges) ∧
    ((decideCut r i pu lv l).isArt = if pu ≤ lv then !r else l.isArt) := by
  unfold decideCut
  by_cases h : pu ≤ lv
  · rw [if_pos h]
    refine ⟨rfl, rfl, rfl, rfl, rfl, rfl, ?_, by rw [if_pos h]⟩
    dsimp only
    by_cases h2 : pu = lv
    · rw [if_neg (by simpa using h2), if_neg (by omega)]
    · rw [if_pos h2, if_pos (by omega)]
  · rw [if_neg h]
    refine ⟨rfl, rfl, rfl, rfl, rfl, rfl, ?_, by rw [if_neg h]⟩
    rw [if_neg (by omega)]

/-- A new vertex. -/
theorem LInv.tree (G : GOk n E g) {s0 : St} {v0 : V} {u : Nat} {prev : Int} {A : List (Nat × Nat)} {l : Loc} {v : V} (P : PreD n E s0 v0 u prev)
    (h : LInv n E g s0 v0 u prev A l v) {y i : Nat} (he : (i : Int) ≠ prev) (hin : Inc E u y i) (hy : v.pre y < 0)
    {rec : Nat → Int → St → M St}
    (hrec : ∀ s v, PreD n E s v y i → s.ord = l.s.ord → Tot (rec y i s) fun s' => ∃ v', Post n E g s v y i s' v') :
    Tot (treeEdge rec u (decide (prev < 0)) (y, i) l) fun l' => ∃ v', LInv n E g s0 v0 u prev (A ++ [(y, i)]) l' v' := by
  obtain ⟨k, hk⟩ : ∃ k, k = s0.ord := ⟨_, rfl⟩
  have hk0 : 0 ≤ k := hk ▸ P.base.o0
  have hun := P.un
  have hyn : y < n := (G.bnd _ _ _ hin).2
  have hpu : v.pre u = k := by rw [h.preu, hk]
  have hyu : y ≠ u := by rintro rfl; omega
  have hko : k < l.s.ord := hk ▸ h.ord
  unfold treeEdge
  dsimp only
  have hyp : y < l.s.par.size := by rw [h.rep.s3]; exact hyn
  rw [wr_eq hyp, ok_bind]
  obtain ⟨f1, hf1⟩ : ∃ f, f = at' (-1) (l.s.par.setIfInBounds y (u : Int)) := ⟨_, rfl⟩
  have hpar1 : ∀ x, f1 x = if y = x then (u : Int) else v.par x := by
    intro x
    rw [hf1, at_set (-1) hyp, h.rep.e3]
  have P1 : PreD n E { l.s with par := l.s.par.setIfInBounds y u } ⟨v.pre, v.low, f1, v.pe, v.fin⟩ y i := by
    refine ⟨⟨h.rep.s1, h.rep.s2, by simpa using h.rep.s3, h.rep.e1, h.rep.e2, hf1⟩, ⟨h.base.o0, h.base.lt, h.base.inj, h.base.onto, h.base.card⟩,
      ⟨h.outs.bn, h.outs.bv, h.outs.an, h.outs.av⟩, hyn, hy, ?_, ?_⟩
    · right
      refine ⟨u, i, hun, ?_, rfl, hin.symm, by dsimp only; omega⟩
      dsimp only
      rw [hpar1, if_pos rfl]
    · intro x h1 h2
      dsimp only
      rw [hpar1, if_neg (fun e => h1 e.symm)]
      exact h.unv x h2
  refine Tot.bind (hrec _ _ P1 rfl) ?_
  rintro s2 ⟨v2, Q⟩
  have hfacts := Q.same
  -- old vertices
  have old : ∀ x, 0 ≤ v.pre x → v2.pre x = v.pre x ∧ v2.par x = v.par x ∧ v2.low x = v.low x ∧ v2.pe x = v.pe x ∧ v2.fin x = v.fin x := by
    intro x hx
    obtain ⟨a1, a2, a3, a4, a5⟩ := Q.same x hx
    dsimp only at a1 a2 a3 a4 a5
    rw [hpar1, if_neg (by rintro rfl; omega)] at a2
    exact ⟨a1, a2, a3, a4, a5⟩
  have new : ∀ x, x < n → v.pre x < 0 → 0 ≤ v2.pre x → l.s.ord ≤ v2.pre x ∧ DoneG n E g v2 x ∧ v2.fin x ≤ s2.ord := Q.new
  have hpy : v2.pre y = l.s.ord := Q.preu
  have hfy : v2.fin y = s2.ord := Q.finu
  have hey : v2.pe y = i := Q.peu
  have hary : v2.par y = u := by
    rw [Q.paru]
    dsimp only
    rw [hpar1, if_pos rfl]
  have hou : l.s.ord < s2.ord := Q.ord
  have hlt := h.base.lt
  have hpu2 : v2.pre u = k := by rw [(old u (by omega)).1, hpu]
  have hlu2 : v2.low u = v.low u := (old u (by omega)).2.2.1
  -- a later vertex is old or new
  have split : ∀ x, x < n → k < v2.pre x → (k < v.pre x ∧ 0 ≤ v.pre x) ∨ (v.pre x < 0 ∧ l.s.ord ≤ v2.pre x) := by
    intro x hx h1
    by_cases h2 : 0 ≤ v.pre x
    · left; have := (old x h2).1; omega
    · right; exact ⟨by omega, (new x hx (by omega) (by omega)).1⟩
  have ne_u : ∀ x, k < v2.pre x → u ≠ x := by rintro x h1 rfl; omega
  -- the parent of a new vertex other than `y` is new
  have parnew : ∀ x, x < n → v.pre x < 0 → 0 ≤ v2.pre x → x ≠ y → ∃ p : Nat, p < n ∧ v2.par x = p ∧ l.s.ord ≤ v2.pre p := by
    intro x hx h1 h2 h3
    have h4 := (new x hx h1 h2).1
    have h5 : v2.pre x ≠ v2.pre y := fun e => h3 (Q.base.inj _ _ hx hyn h2 e)
    obtain ⟨p, b1, b2, b3⟩ := (new y hyn hy (by omega)).2.1.1.inside x hx (by omega) (by rw [hfy]; exact Q.base.lt x)
    exact ⟨p, b1, b2, by omega⟩
  have su : u < s2.low.size := by rw [Q.rep.s2]; exact hun
  have sy : y < s2.low.size := by rw [Q.rep.s2]; exact hyn
  have sp : u < s2.pre.size := by rw [Q.rep.s1]; exact hun
  rw [rd_at 0 su, ok_bind, rd_at 0 sy, ok_bind, wr_eq su, ok_bind, rd_at (-1) sp, ok_bind, ← Q.rep.e2, ← Q.rep.e1, hpu2, hlu2]
  obtain ⟨f, hf⟩ : ∃ f, f = at' 0 (s2.low.setIfInBounds u (min (v.low u) (v2.low y))) := ⟨_, rfl⟩
  have hlow : ∀ x, f x = if u = x then min (v.low u) (v2.low y) else v2.low x := by
    intro x
    rw [hf, at_set 0 su, Q.rep.e2]
  obtain ⟨c1, c2, c3, c4, c5, c6, c7, c8⟩ := decideCut_s (decide (prev < 0)) i k (v2.low y)
    ⟨{ s2 with low := s2.low.setIfInBounds u (min (v.low u) (v2.low y)) }, l.isArt, l.ch + 1⟩
  refine Tot.pure ⟨⟨v2.pre, f, v2.par, v2.pe, v2.fin⟩, ?_⟩
  dsimp only at c1 c2 c3 c4 c5 c6 c7 c8
  obtain ⟨L, hL⟩ : ∃ L, L = decideCut (decide (prev < 0)) i k (v2.low y) ⟨{ s2 with low := s2.low.setIfInBounds u (min (v.low u) (v2.low y)) }, l.isArt, l.ch + 1⟩ := ⟨_, rfl⟩
  rw [← hL] at c1 c2 c3 c4 c5 c6 c7 c8 ⊢
  -- extension facts
  have hp : ∀ x, 0 ≤ v.pre x → v2.pre x = v.pre x ∧ v2.par x = v.par x := fun x hx => ⟨(old x hx).1, (old x hx).2.1⟩
  have hn : ∀ x, x < n → v.pre x < 0 → 0 ≤ v2.pre x → l.s.ord ≤ v2.pre x := fun x h1 h2 h3 => (new x h1 h2 h3).1
  have dnew : ∀ x, x < n → v.pre x < 0 → 0 ≤ v2.pre x → DoneG n E g ⟨v2.pre, f, v2.par, v2.pe, v2.fin⟩ x := by
    intro x h1 h2 h3
    obtain ⟨b1, b2, b3⟩ := new x h1 h2 h3
    refine DoneG.ext G h1 b2 b3 (fun y _ => ⟨rfl, rfl⟩) (fun y _ b1 b2 => by dsimp only at b2; omega) ?_ (fun _ _ => rfl) rfl
    dsimp only
    rw [hlow, if_neg (by rintro rfl; omega)]
  have dold : ∀ x, x < n → k < v.pre x → DoneG n E g ⟨v2.pre, f, v2.par, v2.pe, v2.fin⟩ x := by
    intro x h1 h2
    rw [hk] at h2
    obtain ⟨b1, b2, b3, b4⟩ := h.later P h1 h2
    obtain ⟨a1, a2, a3, a4, a5⟩ := old x (by omega)
    refine DoneG.ext G h1 b1 b2 hp hn ?_ (fun y hy => (old y hy).2.2.2.1) a5
    dsimp only
    rw [hlow, if_neg (fun e => b3 e.symm), a3]
  have brold : ∀ x, x < n → k < v.pre x → (V.Br ⟨v2.pre, f, v2.par, v2.pe, v2.fin⟩ n x ↔ v.Br n x) := by
    intro x h1 h2
    rw [hk] at h2
    obtain ⟨b1, b2, b3, b4⟩ := h.later P h1 h2
    refine Br.ext b1.1 hp ?_
    dsimp only
    rw [hlow, if_neg (fun e => b3 e.symm), (old x (by omega)).2.2.1]
  have brnew : ∀ x, x < n → v.pre x < 0 → 0 ≤ v2.pre x → (V.Br ⟨v2.pre, f, v2.par, v2.pe, v2.fin⟩ n x ↔ v2.Br n x) := by
    intro x h1 h2 h3
    refine Br.ext (new x h1 h2 h3).2.1.1 (fun y _ => ⟨rfl, rfl⟩) ?_
    dsimp only
    rw [hlow, if_neg (by rintro rfl; omega)]
  have bry : V.Br ⟨v2.pre, f, v2.par, v2.pe, v2.fin⟩ n y ↔ k < v2.low y := by
    unfold V.Br
    dsimp only
    rw [hlow, if_neg (fun e => hyu e.symm), hary]
    constructor
    · rintro ⟨p, -, b1, b2⟩
      have : p = u := by omega
      subst this
      omega
    · intro b
      exact ⟨u, hun, rfl, by omega⟩
  -- the edge is not a bridge of the list yet
  have notin : i ∉ s2.bridges := by
    rw [Q.bm]
    rintro (b | ⟨w, b1, b2, b3, -⟩)
    · have := h.outs.bv i b y u hin.symm
      omega
    · dsimp only at b2
      have h0 : v.pre w < 0 := by
        by_contra hc
        have := (old w (by omega)).1
        have := hlt w
        omega
      have hd := (new w b1 h0 (by omega)).2.1.1
      rcases hd.up with ⟨d1, -⟩ | ⟨p, j, d1, d2, d3, d4, d5, d6⟩
      · omega
      · have : j = i := by omega
        subst this
        rcases d4.ends hin with ⟨e1, -⟩ | ⟨e1, -⟩
        · subst e1; omega
        · subst e1; omega
  have hk' := hk
  refine ⟨⟨by rw [c1]; exact Q.rep.s1, by rw [c2]; simpa using Q.rep.s2, by rw [c3]; exact Q.rep.s3, by rw [c1]; exact Q.rep.e1, by rw [c2]; exact hf, by rw [c3]; exact Q.rep.e3⟩,
    ⟨by rw [c5]; exact Q.base.o0, by rw [c5]; exact Q.base.lt, Q.base.inj, by rw [c5]; exact Q.base.onto, by rw [c5]; exact Q.base.card⟩,
    ⟨?_, ?_, by rw [c4]; exact Q.outs.an, by rw [c4]; exact Q.outs.av⟩, by rw [c5]; omega, by rw [← hk]; exact hpu2,
    by dsimp only; rw [(old u (by omega)).2.2.2.1]; exact h.peu, by dsimp only; rw [(old u (by omega)).2.1]; exact h.paru, ?_, ?_, Q.unv, ?_, ?_, ?_, ?_, ?_, ?_, ?_, ?_⟩
  · rw [c7]
    split_ifs
    · rw [List.nodup_append]
      refine ⟨Q.outs.bn, by simp, ?_⟩
      intro a ha b hb
      rw [List.mem_singleton] at hb
      subst hb
      rintro rfl
      exact notin ha
    · exact Q.outs.bn
  · intro j hj x z hz
    dsimp only
    rw [c7] at hj
    split_ifs at hj
    · rw [List.mem_append, List.mem_singleton] at hj
      rcases hj with hj | rfl
      · exact Q.outs.bv j hj x z hz
      · rcases hz.ends hin with ⟨e1, -⟩ | ⟨e1, -⟩ <;> subst e1 <;> omega
    · exact Q.outs.bv j hj x z hz
  · intro x hx
    obtain ⟨a1, a2, a3, a4, a5⟩ := h.same x hx
    obtain ⟨b1, b2, b3, b4, b5⟩ := old x (by omega)
    dsimp only
    refine ⟨by omega, by omega, ?_, by omega, by omega⟩
    rw [hlow, if_neg (by rintro rfl; have := P.fresh; omega)]
    omega
  · intro x hx h1 h2 h3
    dsimp only at h3 ⊢
    rw [← hk, c5]
    by_cases h4 : 0 ≤ v.pre x
    · obtain ⟨b1, b2, b3, p, b4, b5, b6⟩ := h.new x hx h1 h2 h4
      obtain ⟨a1, a2, a3, a4, a5⟩ := old x h4
      refine ⟨by omega, dold x hx (by omega), by omega, p, b4, by omega, ?_⟩
      rw [(old p (by omega)).1]
      omega
    · obtain ⟨b1, b2, b3⟩ := new x hx (by omega) h3
      refine ⟨by omega, dnew x hx (by omega) h3, b3, ?_⟩
      by_cases h5 : x = y
      · subst h5
        exact ⟨u, hun, hary, by omega⟩
      · obtain ⟨p, d1, d2, d3⟩ := parnew x hx (by omega) h3 h5
        exact ⟨p, d1, d2, by omega⟩
  · intro j
    rw [← hk]
    have e1 : j ∈ L.s.bridges ↔ j ∈ s2.bridges ∨ (j = i ∧ k < v2.low y) := by
      rw [c7]
      split_ifs with hc
      · rw [List.mem_append, List.mem_singleton]
        simp [hc]
      · simp [hc]
    rw [e1, Q.bm j]
    dsimp only
    rw [h.bm j, ← hk]
    constructor
    · rintro (((b | ⟨w, b1, b2, b3, b4⟩) | ⟨w, b1, b2, b3, b4⟩) | ⟨b1, b2⟩)
      · exact .inl b
      · obtain ⟨a1, a2, a3, a4, a5⟩ := old w (by omega)
        exact .inr ⟨w, b1, by omega, by omega, (brold w b1 b2).mpr b4⟩
      · have h0 : v.pre w < 0 := by
          by_contra hc
          have := (old w (by omega)).1
          have := hlt w
          omega
        exact .inr ⟨w, b1, by omega, b3, (brnew w b1 h0 (by omega)).mpr b4⟩
      · exact .inr ⟨y, hyn, by omega, by omega, bry.mpr b2⟩
    · rintro (b | ⟨w, b1, b2, b3, b4⟩)
      · exact .inl (.inl (.inl b))
      · rcases split w b1 b2 with ⟨d1, d2⟩ | ⟨d1, d2⟩
        · obtain ⟨a1, a2, a3, a4, a5⟩ := old w d2
          exact .inl (.inl (.inr ⟨w, b1, d1, by omega, (brold w b1 d1).mp b4⟩))
        · by_cases hwy : w = y
          · subst hwy
            exact .inr ⟨by omega, bry.mp b4⟩
          · have : v2.pre w ≠ v2.pre y := fun e => hwy (Q.base.inj _ _ b1 hyn (by omega) e)
            exact .inl (.inr ⟨w, b1, by omega, b3, (brnew w b1 d1 (by omega)).mp b4⟩)
  · intro x
    rw [c4, Q.am x]
    dsimp only
    rw [h.am x, ← hk]
    have aold : ∀ x, x < n → k < v.pre x → (V.Art ⟨v2.pre, f, v2.par, v2.pe, v2.fin⟩ n x ↔ v.Art n x) := by
      intro x h1 h2
      have h2' := h2
      rw [hk] at h2
      obtain ⟨b1, b2, b3, b4⟩ := h.later P h1 h2
      obtain ⟨a1, a2, a3, a4, a5⟩ := old x (by omega)
      refine Art.ext b1.1 b2 hp hn ?_ a4 a5
      intro w hw
      dsimp only
      rw [hlow, if_neg (by rintro rfl; omega), (old w (by omega)).2.2.1]
    have anew : ∀ x, x < n → v.pre x < 0 → 0 ≤ v2.pre x → (V.Art ⟨v2.pre, f, v2.par, v2.pe, v2.fin⟩ n x ↔ v2.Art n x) := by
      intro x h1 h2 h3
      obtain ⟨b1, b2, b3⟩ := new x h1 h2 h3
      refine Art.ext b2.1 b3 (fun y _ => ⟨rfl, rfl⟩) (fun y _ b1 b2 => by dsimp only at b2; omega) ?_ rfl rfl
      intro w hw
      dsimp only
      rw [hlow, if_neg (by rintro rfl; omega)]
    constructor
    · rintro ((b | ⟨b1, b2, b3⟩) | ⟨b1, b2, b3⟩)
      · exact .inl b
      · exact .inr ⟨b1, by rw [(old x (by omega)).1]; exact b2, (aold x b1 b2).mpr b3⟩
      · have h0 : v.pre x < 0 := by
          by_contra hc
          have := (old x (by omega)).1
          have := hlt x
          omega
        exact .inr ⟨b1, by omega, (anew x b1 h0 (by omega)).mpr b3⟩
    · rintro (b | ⟨b1, b2, b3⟩)
      · exact .inl (.inl b)
      · rcases split x b1 b2 with ⟨d1, d2⟩ | ⟨d1, d2⟩
        · exact .inl (.inr ⟨b1, d1, (aold x b1 d1).mp b3⟩)
        · exact .inr ⟨b1, d2, (anew x b1 d1 (by omega)).mp b3⟩
  · intro e he'
    dsimp only
    rw [List.mem_append, List.mem_singleton] at he'
    rcases he' with he' | rfl
    · have := h.a1 e he'
      rw [(old _ this).1]
      exact this
    · dsimp only; omega
  · dsimp only
    rw [hlow, if_pos rfl]
    have := h.lowle
    omega
  · intro t ht
    dsimp only
    rw [hlow, if_pos rfl, min_lt_iff, h.lows t ht, (new y hyn hy (by omega)).2.1.1.lows t (by omega), ← hk]
    rw [← hk] at ht
    -- the two edge numbers do not matter inside the new subtree
    have noprev : ∀ x z j : Nat, v.pre x < 0 → Inc E x z j → (j : Int) ≠ prev := by
      intro x z j h1 h2 h3
      rcases P.up with ⟨b, -⟩ | ⟨p, i', b1, b2, b3, b4, b5⟩
      · omega
      · have : j = i' := by omega
        subst this
        rcases h2.ends b4 with ⟨e1, -⟩ | ⟨e1, -⟩
        · subst e1; omega
        · subst e1; have := (h.same x b5).1; omega
    constructor
    · rintro ((⟨e, b1, b2, b3⟩ | ⟨x, z, j, b1, b2, b3, b4, b5⟩) | ⟨x, z, j, b1, b2, b3, b4, b5, b6⟩)
      · refine .inl ⟨e, List.mem_append_left _ b1, b2, ?_⟩
        rw [(old _ (h.a1 e b1)).1]
        exact b3
      · have hz := (h.later P b1 (by omega)).1.1
        have := (hz.closed x z j b1 (le_refl _) hz.lt b3).1
        refine .inr ⟨x, z, j, b1, by rw [(old x (by omega)).1]; exact b2, b3, b4, by rw [(old z this).1]; exact b5⟩
      · have h0 : v.pre x < 0 := by
          by_contra hc
          have := (old x (by omega)).1
          have := hlt x
          omega
        exact .inr ⟨x, z, j, b1, by omega, b4, noprev x z j h0 b4, b6⟩
    · rintro (⟨e, b1, b2, b3⟩ | ⟨x, z, j, b1, b2, b3, b4, b5⟩)
      · rw [List.mem_append, List.mem_singleton] at b1
        rcases b1 with b1 | rfl
        · refine .inl (.inl ⟨e, b1, b2, ?_⟩)
          rw [(old _ (h.a1 e b1)).1] at b3
          exact b3
        · dsimp only at b3; omega
      · rcases split x b1 b2 with ⟨d1, d2⟩ | ⟨d1, d2⟩
        · have hz := (h.later P b1 (by omega)).1.1
          have := (hz.closed x z j b1 (le_refl _) hz.lt b3).1
          refine .inl (.inr ⟨x, z, j, b1, d1, b3, b4, ?_⟩)
          rw [(old z this).1] at b5
          exact b5
        · refine .inr ⟨x, z, j, b1, by omega, by rw [hfy]; exact Q.base.lt x, b3, ?_, b5⟩
          intro e
          have : j = i := by omega
          subst this
          rcases b3.ends hin with ⟨e1, e2⟩ | ⟨e1, e2⟩
          · subst e1; omega
          · subst e2; omega
  · intro x hx h1 h2
    dsimp only at h1 h2 ⊢
    rw [← hk] at h1
    rcases split x hx h1 with ⟨d1, d2⟩ | ⟨d1, d2⟩
    · obtain ⟨l1, j, l2, b0, b1, b2⟩ := h.first x hx (by omega) (by rw [← (old x d2).2.1]; exact h2)
      refine ⟨l1, j, l2 ++ [(y, i)], by rw [(old x d2).2.2.2.1, b0], by rw [b1]; simp, fun e he' => ?_⟩
      rw [(old _ (h.a1 e (by rw [b1]; exact List.mem_append_left _ he'))).1, (old x d2).1]
      exact b2 e he'
    · by_cases hxy : x = y
      · subst hxy
        refine ⟨A, i, [], Q.peu, rfl, fun e he' => ?_⟩
        rw [(old _ (h.a1 e he')).1, hpy]
        exact hlt _
      · obtain ⟨p, b1, b2, b3⟩ := parnew x hx d1 (by omega) hxy
        have : p = u := by omega
        subst this
        omega
  · dsimp only
    rw [c6, h.ch, ← hk]
    have e1 : ((Finset.range n).filter fun x => k < v2.pre x ∧ v2.par x = u) = insert y ((Finset.range n).filter fun x => k < v.pre x ∧ v.par x = u) := by
      ext x
      rw [Finset.mem_insert, Finset.mem_filter, Finset.mem_filter, Finset.mem_range]
      constructor
      · rintro ⟨b1, b2, b3⟩
        rcases split x b1 b2 with ⟨d1, d2⟩ | ⟨d1, d2⟩
        · exact .inr ⟨b1, d1, by rw [← (old x d2).2.1]; exact b3⟩
        · left
          by_contra hxy
          obtain ⟨p, a1, a2, a3⟩ := parnew x b1 d1 (by omega) hxy
          have : p = u := by omega
          subst this
          omega
      · rintro (rfl | ⟨b1, b2, b3⟩)
        · exact ⟨hyn, by omega, hary⟩
        · obtain ⟨a1, a2, -⟩ := old x (by omega)
          exact ⟨b1, by omega, by omega⟩
    rw [e1, Finset.card_insert_of_notMem]
    rw [Finset.mem_filter]
    rintro ⟨-, b, -⟩
    omega
  · rw [c8, ← hk]
    dsimp only
    by_cases hc : k ≤ v2.low y
    · rw [if_pos hc]
      simp only [Bool.not_eq_true', decide_eq_false_iff_not, not_lt]
      refine ⟨fun b => ⟨b, y, hyn, by omega, hary, ?_⟩, fun b => b.1⟩
      rw [hlow, if_neg (fun e => hyu e.symm)]
      exact hc
    · rw [if_neg hc, h.art, ← hk]
      refine and_congr Iff.rfl ⟨?_, ?_⟩
      · rintro ⟨w, b1, b2, b3, b4⟩
        obtain ⟨a1, a2, a3, a4, a5⟩ := old w (by omega)
        refine ⟨w, b1, by omega, by omega, ?_⟩
        rw [hlow, if_neg (by rintro rfl; omega)]
        omega
      · rintro ⟨w, b1, b2, b3, b4⟩
        rw [hlow, if_neg (ne_u w b2)] at b4
        rcases split w b1 b2 with ⟨d1, d2⟩ | ⟨d1, d2⟩
        · obtain ⟨a1, a2, a3, a4, a5⟩ := old w d2
          exact ⟨w, b1, d1, by omega, by omega⟩
        · exfalso
          by_cases hwy : w = y
          · subst hwy; exact hc b4
          · obtain ⟨p, a1, a2, a3⟩ := parnew w b1 d1 (by omega) hwy
            have : p = u := by omega
            subst this
            omega

/-- Entering a vertex. -/
theorem entry (G : GOk n E g) {s0 : St} {v0 : V} {u : Nat} {prev : Int} (P : PreD n E s0 v0 u prev) :
    LInv n E g s0 v0 u prev [] ⟨{ s0 with pre := s0.pre.setIfInBounds u s0.ord, low := s0.low.setIfInBounds u s0.ord, ord := s0.ord + 1 }, false, 0⟩
      ⟨at' (-1) (s0.pre.setIfInBounds u s0.ord), at' 0 (s0.low.setIfInBounds u s0.ord), v0.par, fun x => if u = x then prev else v0.pe x, v0.fin⟩ := by
  have hun := P.un
  have s1 : u < s0.pre.size := by rw [P.rep.s1]; exact hun
  have s2 : u < s0.low.size := by rw [P.rep.s2]; exact hun
  have hfr := P.fresh
  have hk0 := P.base.o0
  obtain ⟨f, hf⟩ : ∃ f, f = at' (-1) (s0.pre.setIfInBounds u s0.ord) := ⟨_, rfl⟩
  obtain ⟨f2, hf2⟩ : ∃ f, f = at' 0 (s0.low.setIfInBounds u s0.ord) := ⟨_, rfl⟩
  have hpre : ∀ x, f x = if u = x then s0.ord else v0.pre x := by
    intro x
    rw [hf, at_set (-1) s1, P.rep.e1]
  have hlow : ∀ x, f2 x = if u = x then s0.ord else v0.low x := by
    intro x
    rw [hf2, at_set 0 s2, P.rep.e2]
  rw [← hf, ← hf2]
  have hmax : ∀ x, f x ≤ s0.ord := by
    intro x
    rw [hpre]
    have := P.base.lt x
    split_ifs <;> omega
  have hge : ∀ x, 0 ≤ v0.pre x → f x = v0.pre x := by
    intro x hx
    rw [hpre, if_neg (by rintro rfl; omega)]
  refine ⟨⟨by simpa using P.rep.s1, by simpa using P.rep.s2, P.rep.s3, hf, hf2, P.rep.e3⟩, ⟨by dsimp only; omega, ?_, ?_, ?_, ?_⟩,
    ⟨P.outs.bn, ?_, P.outs.an, ?_⟩, by dsimp only; omega, by dsimp only; rw [hpre, if_pos rfl], by dsimp only; rw [if_pos rfl], rfl, ?_, ?_, ?_, ?_, ?_, ?_, ?_, ?_, ?_, ?_, ?_⟩
  · intro x
    have := hmax x
    dsimp only
    omega
  · intro x y hx hy h1 h2
    dsimp only at h1 h2
    rw [hpre] at h1
    rw [hpre, hpre] at h2
    have := P.base.lt x
    have := P.base.lt y
    split_ifs at h1 h2 with e1 e2 e2
    · omega
    · omega
    · omega
    · exact P.base.inj x y hx hy h1 h2
  · intro t h1 h2
    dsimp only at h2 ⊢
    by_cases e : t = s0.ord
    · exact ⟨u, hun, by rw [hpre, if_pos rfl, e]⟩
    · obtain ⟨x, b1, b2⟩ := P.base.onto t h1 (by omega)
      exact ⟨x, b1, by rw [hge x (by omega), b2]⟩
  · dsimp only
    rw [← P.base.card]
    have e1 : ((Finset.range n).filter fun x => 0 ≤ f x) = insert u ((Finset.range n).filter fun x => 0 ≤ v0.pre x) := by
      ext x
      rw [Finset.mem_insert, Finset.mem_filter, Finset.mem_filter, Finset.mem_range, hpre]
      by_cases e : u = x
      · subst e; simp [hun, hk0]
      · rw [if_neg e]
        constructor
        · intro h; exact .inr h
        · rintro (h | h)
          · exact absurd h.symm e
          · exact h
    rw [e1, Finset.card_insert_of_notMem]
    · push_cast; rfl
    · rw [Finset.mem_filter]
      rintro ⟨-, h⟩
      omega
  · intro i hi x y hxy
    have := P.outs.bv i hi x y hxy
    dsimp only
    rw [hge x this]
    exact this
  · intro x hx
    have := P.outs.av x hx
    dsimp only
    rw [hge x this]
    exact this
  · intro x hx
    have : u ≠ x := by rintro rfl; omega
    dsimp only
    rw [hge x hx, hlow, if_neg this, if_neg this]
    exact ⟨rfl, rfl, rfl, rfl, rfl⟩
  · intro x hx h1 h2 h3
    dsimp only at h3
    rw [hpre, if_neg (fun e => h2 e.symm)] at h3
    omega
  · intro x hx
    dsimp only at hx ⊢
    rw [hpre] at hx
    split_ifs at hx with e
    · omega
    · exact P.unv x (fun e' => e e'.symm) hx
  · intro i
    dsimp only
    refine ⟨.inl, ?_⟩
    rintro (b | ⟨w, -, b, -⟩)
    · exact b
    · have := hmax w; omega
  · intro x
    dsimp only
    refine ⟨.inl, ?_⟩
    rintro (b | ⟨-, b, -⟩)
    · exact b
    · have := hmax x; omega
  · intro e he; simp at he
  · dsimp only
    rw [hlow, if_pos rfl]
  · intro t ht
    dsimp only
    rw [hlow, if_pos rfl]
    constructor
    · intro h; omega
    · rintro (⟨e, he, -⟩ | ⟨x, y, i, -, b, -⟩)
      · simp at he
      · have := hmax x; omega
  · intro x _ h1
    dsimp only at h1
    have := hmax x
    omega
  · dsimp only
    symm
    rw [Finset.card_eq_zero, Finset.filter_eq_empty_iff]
    rintro x - ⟨b, -⟩
    have := hmax x
    omega
  · dsimp only
    refine ⟨fun h => by simp at h, ?_⟩
    rintro ⟨-, w, -, b, -⟩
    have := hmax w
    omega

/-- Leaving a vertex. -/
theorem exit (G : GOk n E g) {s0 : St} {v0 : V} {u : Nat} {prev : Int} {l : Loc} {v : V} (P : PreD n E s0 v0 u prev)
    (h : LInv n E g s0 v0 u prev (at' [] g u) l v) :
    ∃ v', Post n E g s0 v0 u prev (finish u (decide (prev < 0)) l) v' := by
  obtain ⟨k, hk⟩ : ∃ k, k = s0.ord := ⟨_, rfl⟩
  have hk0 : 0 ≤ k := hk ▸ P.base.o0
  have hun := P.un
  have hpu : v.pre u = k := by rw [h.preu, hk]
  have hko : k < l.s.ord := hk ▸ h.ord
  obtain ⟨f, hf⟩ : ∃ f : Nat → Int, ∀ x, f x = if u = x then l.s.ord else v.fin x := ⟨fun x => if u = x then l.s.ord else v.fin x, fun _ => rfl⟩
  have hlt := h.base.lt
  have nonneg : ∀ x, s0.ord < v.pre x → 0 ≤ v.pre x := by intro x hx; omega
  have hpn : ∀ x, x < n → k ≤ v.pre x → x = u ∨ k < v.pre x := by
    intro x hx h1
    by_cases e : v.pre x = k
    · exact .inl (h.base.inj _ _ hx hun (by omega) (by omega))
    · exact .inr (by omega)
  have dold : ∀ x, x < n → k < v.pre x → DoneG n E g ⟨v.pre, v.low, v.par, v.pe, f⟩ x := by
    intro x hx h1
    obtain ⟨b1, b2, b3, b4⟩ := h.later P hx (by omega)
    refine DoneG.ext G hx b1 b2 (fun y _ => ⟨rfl, rfl⟩) (fun y _ b1 b2 => by dsimp only at b2; omega) rfl (fun _ _ => rfl) ?_
    dsimp only
    rw [hf, if_neg (fun e => b3 e.symm)]
  have du : DoneG n E g ⟨v.pre, v.low, v.par, v.pe, f⟩ u := by
    refine ⟨⟨by dsimp only; omega, by dsimp only; rw [hf, if_pos rfl]; omega, ?_, ?_, ?_, by dsimp only; rw [hpu, hk]; exact h.lowle, ?_⟩, ?_⟩
    · dsimp only
      rw [h.peu, h.paru]
      rcases P.up with b | ⟨p, i, b1, b2, b3, b4, b5⟩
      · exact .inl b
      · right
        have := (h.same p b5).1
        have := P.base.lt p
        exact ⟨p, i, b1, b2, b3, b4, by omega, by omega⟩
    · intro x y i hx h1 h2 he
      dsimp only at h1 h2 ⊢
      rw [hf, if_pos rfl]
      refine ⟨?_, hlt y⟩
      rcases hpn x hx (by omega) with rfl | h3
      · exact h.a1 (y, i) ((G.adj x hx y i).mpr he)
      · obtain ⟨b1, b2, b3, b4⟩ := h.later P hx (by omega)
        exact (b1.1.closed x y i hx (le_refl _) b1.1.lt he).1
    · intro x hx h1 h2
      dsimp only at h1 h2 ⊢
      obtain ⟨b1, b2, b3, b4, p, b5, b6, b7⟩ := h.later P hx (by omega)
      exact ⟨p, b5, b6, by omega⟩
    · intro t ht
      dsimp only at ht ⊢
      rw [h.lows t (by omega), hf, if_pos rfl, h.peu]
      constructor
      · rintro (⟨e, b1, b2, b3⟩ | ⟨x, y, i, b1, b2, b3, b4, b5⟩)
        · exact ⟨u, e.1, e.2, hun, by omega, by omega, (G.adj u hun e.1 e.2).mp b1, b2, b3⟩
        · exact ⟨x, y, i, b1, by omega, hlt x, b3, b4, b5⟩
      · rintro ⟨x, y, i, b1, b2, b3, b4, b5, b6⟩
        rcases hpn x b1 (by omega) with rfl | h3
        · exact .inl ⟨(y, i), (G.adj x b1 y i).mpr b4, b5, b6⟩
        · exact .inr ⟨x, y, i, b1, by omega, b4, b5, b6⟩
    · intro x hx h1 h2 h3
      dsimp only at h1 h3 ⊢
      exact h.first x hx (by omega) h3
  have artu : V.Art ⟨v.pre, v.low, v.par, v.pe, f⟩ n u ↔ (l.isArt || (decide (prev < 0) && decide (l.ch > 1))) = true := by
    rw [Bool.or_eq_true, Bool.and_eq_true, decide_eq_true_iff, decide_eq_true_iff, h.art, h.ch, ← hk]
    unfold V.Art
    dsimp only
    rw [h.peu, hpu, hf, if_pos rfl]
    have hpv : prev = -1 ∨ 0 ≤ prev := by
      rcases P.up with b | ⟨p, i, b1, b2, b3, b4, b5⟩
      · exact .inl b.1
      · exact .inr (by omega)
    refine or_congr ⟨?_, ?_⟩ ⟨?_, ?_⟩
    · rintro ⟨b1, w, b2, b3, b4, b5, b6⟩
      exact ⟨by omega, w, b2, b3, b5, b6⟩
    · rintro ⟨b1, w, b2, b3, b4, b5⟩
      exact ⟨by omega, w, b2, b3, hlt w, b4, b5⟩
    · rintro ⟨b1, w, w', b2, ⟨b3, b4, b5, b6⟩, b3', b4', b5', b6'⟩
      refine ⟨by omega, Finset.one_lt_card.mpr ⟨w, ?_, w', ?_, b2⟩⟩
      · rw [Finset.mem_filter, Finset.mem_range]; exact ⟨b3, b4, b6⟩
      · rw [Finset.mem_filter, Finset.mem_range]; exact ⟨b3', b4', b6'⟩
    · rintro ⟨b1, b2⟩
      obtain ⟨w, b3, w', b4, b5⟩ := Finset.one_lt_card.mp b2
      rw [Finset.mem_filter, Finset.mem_range] at b3 b4
      exact ⟨by omega, w, w', b5, ⟨b3.1, b3.2.1, hlt w, b3.2.2⟩, b4.1, b4.2.1, hlt w', b4.2.2⟩
  have hfin : (finish u (decide (prev < 0)) l).pre = l.s.pre ∧ (finish u (decide (prev < 0)) l).low = l.s.low ∧ (finish u (decide (prev < 0)) l).par = l.s.par ∧
      (finish u (decide (prev < 0)) l).bridges = l.s.bridges ∧ (finish u (decide (prev < 0)) l).ord = l.s.ord ∧
      (finish u (decide (prev < 0)) l).arts = if (l.isArt || (decide (prev < 0) && decide (l.ch > 1))) = true then l.s.arts ++ [u] else l.s.arts := by
    unfold finish
    split_ifs <;> exact ⟨rfl, rfl, rfl, rfl, rfl, rfl⟩
  obtain ⟨c1, c2, c3, c4, c5, c6⟩ := hfin
  obtain ⟨s, hs⟩ : ∃ s, s = finish u (decide (prev < 0)) l := ⟨_, rfl⟩
  rw [← hs] at c1 c2 c3 c4 c5 c6 ⊢
  have hnot : u ∉ l.s.arts := by
    rw [h.am]
    rintro (b | ⟨-, b, -⟩)
    · have := P.outs.av u b; have := P.fresh; omega
    · omega
  refine ⟨⟨v.pre, v.low, v.par, v.pe, f⟩, ⟨by rw [c1]; exact h.rep.s1, by rw [c2]; exact h.rep.s2, by rw [c3]; exact h.rep.s3, by rw [c1]; exact h.rep.e1, by rw [c2]; exact h.rep.e2, by rw [c3]; exact h.rep.e3⟩,
    by rw [c5]; exact ⟨h.base.o0, h.base.lt, h.base.inj, h.base.onto, h.base.card⟩, ⟨by rw [c4]; exact h.outs.bn, by rw [c4]; exact h.outs.bv, ?_, ?_⟩, by rw [c5]; exact h.ord, h.preu,
    by dsimp only; rw [hf, if_pos rfl, c5], h.peu, h.paru, ?_, ?_, h.unv, ?_, ?_⟩
  · rw [c6]
    split_ifs
    · rw [List.nodup_append]
      refine ⟨h.outs.an, by simp, ?_⟩
      intro a ha b hb
      rw [List.mem_singleton] at hb
      subst hb
      rintro rfl
      exact hnot ha
    · exact h.outs.an
  · intro x hx
    dsimp only
    rw [c6] at hx
    split_ifs at hx
    · rw [List.mem_append, List.mem_singleton] at hx
      rcases hx with hx | rfl
      · exact h.outs.av x hx
      · omega
    · exact h.outs.av x hx
  · intro x hx
    obtain ⟨b1, b2, b3, b4, b5⟩ := h.same x hx
    refine ⟨b1, b2, b3, b4, ?_⟩
    dsimp only
    rw [hf, if_neg (by rintro rfl; have := P.fresh; omega)]
    exact b5
  · intro x hx h1 h2
    dsimp only at h2 ⊢
    rw [← hk, c5]
    by_cases e : x = u
    · subst e
      refine ⟨by omega, du, ?_⟩
      rw [hf, if_pos rfl]
    · obtain ⟨b1, b2, b3, -⟩ := h.new x hx h1 e h2
      refine ⟨by omega, dold x hx (by omega), ?_⟩
      rw [hf, if_neg (fun e' => e e'.symm)]
      exact b3
  · intro i
    rw [c4, h.bm i]
    rfl
  · intro x
    have aold : x < n → k < v.pre x → (V.Art ⟨v.pre, v.low, v.par, v.pe, f⟩ n x ↔ v.Art n x) := by
      intro hx h1
      obtain ⟨b1, b2, b3, b4⟩ := h.later P hx (by omega)
      refine Art.ext b1.1 b2 (fun y _ => ⟨rfl, rfl⟩) (fun y _ b1 b2 => by dsimp only at b2; omega) (fun _ _ => rfl) rfl ?_
      dsimp only
      rw [hf, if_neg (fun e => b3 e.symm)]
    have e1 : x ∈ s.arts ↔ x ∈ l.s.arts ∨ (x = u ∧ V.Art ⟨v.pre, v.low, v.par, v.pe, f⟩ n u) := by
      rw [c6, artu]
      split_ifs with hc
      · rw [List.mem_append, List.mem_singleton]
        simp [hc]
      · simp [hc]
    rw [e1, h.am x, ← hk]
    dsimp only
    constructor
    · rintro ((b | ⟨b1, b2, b3⟩) | ⟨rfl, b⟩)
      · exact .inl b
      · exact .inr ⟨b1, by omega, (aold b1 b2).mpr b3⟩
      · exact .inr ⟨hun, by omega, b⟩
    · rintro (b | ⟨b1, b2, b3⟩)
      · exact .inl (.inl b)
      · rcases hpn x b1 b2 with rfl | b4
        · exact .inr ⟨rfl, b3⟩
        · exact .inl (.inr ⟨b1, b4, (aold b1 b4).mp b3⟩)

/-- `dfs` meets its specification. -/
theorem dfs_tot (G : GOk n E g) : ∀ (fuel : Nat) (s0 : St) (v0 : V) (u : Nat) (prev : Int), PreD n E s0 v0 u prev → (n : Int) - s0.ord ≤ fuel →
    Tot (dfs g fuel u prev s0) fun s => ∃ v, Post n E g s0 v0 u prev s v := by
  intro fuel
  induction fuel with
  | zero =>
    intro s0 v0 u prev P hf
    exfalso
    have h1 := P.base.card
    have h2 : ((Finset.range n).filter fun x => 0 ≤ v0.pre x).card < (Finset.range n).card := by
      refine Finset.card_lt_card ?_
      rw [Finset.ssubset_iff_of_subset (Finset.filter_subset _ _)]
      refine ⟨u, Finset.mem_range.mpr P.un, ?_⟩
      rw [Finset.mem_filter]
      have := P.fresh
      rintro ⟨-, h⟩
      omega
    rw [Finset.card_range] at h2
    omega
  | succ fuel ih =>
    intro s0 v0 u prev P hf
    unfold dfs
    rw [wr_eq (by rw [P.rep.s2]; exact P.un), ok_bind, wr_eq (by rw [P.rep.s1]; exact P.un), ok_bind, rd_at [] (by rw [G.size]; exact P.un), ok_bind]
    refine Tot.bind (Tot.forEach (P := fun A l => ∃ v, LInv n E g s0 v0 u prev A l v) ⟨_, entry G P⟩ ?_) ?_
    · rintro A e B l hA ⟨v, h⟩
      have hin : Inc E u e.1 e.2 := (G.adj u P.un e.1 e.2).mp (by rw [hA]; simp)
      have hen : e.1 < n := (G.bnd _ _ _ hin).2
      unfold edgeStep
      by_cases hc : (e.2 : Int) = prev
      · rw [if_neg (by simpa using hc)]
        exact Tot.pure ⟨v, h.skip G P hc hin⟩
      · rw [if_pos hc, rd_at (-1) (by rw [h.rep.s1]; exact hen), ok_bind, ← h.rep.e1]
        split_ifs with hneg
        · refine h.tree G P hc hin hneg ?_
          intro s v' P' hord
          refine ih s v' e.1 e.2 P' ?_
          have := h.ord
          push_cast at hf ⊢
          omega
        · exact h.back G P hc (by omega)
    · rintro l ⟨v, h⟩
      exact Tot.pure (exit G P h)

end
end LowLink
