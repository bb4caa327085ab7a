import Verif.Proof.LowLinkDfs

namespace LowLink
open Cxx Cut

variable {n : Nat} {E : List (Nat × Nat)} {g : Array (List (Nat × Nat))}

theorem inc_append {E : List (Nat × Nat)} {a b x y i : Nat} : Inc (E ++ [(a, b)]) x y i ↔ Inc E x y i ∨ (i = E.length ∧ ((a = x ∧ b = y) ∨ (a = y ∧ b = x))) := by
  unfold Inc
  rw [List.getElem?_append]
  by_cases h : i < E.length
  · rw [if_pos h]
    constructor
    · intro h1; exact .inl h1
    · rintro (h1 | h1)
      · exact h1
      · omega
  · rw [if_neg h, List.getElem?_eq_none (by omega : E.length ≤ i)]
    by_cases e : i = E.length
    · subst e; simp
    · rw [List.getElem?_eq_none (by simp; omega)]
      simp [e]

theorem addEdge_tot {o : Obj} {a b : Nat} (G : GOk n o.edges o.g) (ha : a < n) (hb : b < n) :
    Tot (addEdge o a b) fun o' => o'.edges = o.edges ++ [(a, b)] ∧ GOk n o'.edges o'.g ∧ o'.size = o.size ∧ o'.s = o.s ∧ o'.conn = o.conn := by
  unfold addEdge
  have s1 : a < o.g.size := by rw [G.size]; exact ha
  rw [rd_at [] s1, ok_bind, wr_eq s1, ok_bind]
  have s2 : b < (o.g.setIfInBounds a (at' [] o.g a ++ [(b, o.edges.length)])).size := by simp [G.size, hb]
  rw [rd_at [] s2, ok_bind, wr_eq s2, ok_bind]
  refine Tot.pure ⟨rfl, ⟨by simp [G.size], ?_, ?_, ?_⟩, rfl, rfl, rfl⟩
  · intro u hu y i
    dsimp only
    rw [at_set [] s2, at_set [] s1, at_set [] s1, inc_append]
    by_cases e1 : b = u
    · subst e1
      rw [if_pos rfl, List.mem_append, List.mem_singleton, Prod.mk.injEq]
      by_cases e2 : a = b
      · subst e2
        rw [if_pos rfl, List.mem_append, List.mem_singleton, Prod.mk.injEq, G.adj a ha]
        constructor
        · rintro ((h | h) | h)
          · exact .inl h
          · exact .inr ⟨h.2, .inl ⟨rfl, h.1.symm⟩⟩
          · exact .inr ⟨h.2, .inl ⟨rfl, h.1.symm⟩⟩
        · rintro (h | ⟨h1, h | h⟩)
          · exact .inl (.inl h)
          · exact .inr ⟨h.2.symm, h1⟩
          · exact .inr ⟨h.1.symm, h1⟩
      · rw [if_neg e2, G.adj b hb]
        constructor
        · rintro (h | h)
          · exact .inl h
          · exact .inr ⟨h.2, .inr ⟨h.1.symm, rfl⟩⟩
        · rintro (h | ⟨h1, h | h⟩)
          · exact .inl h
          · exact absurd h.1 e2
          · exact .inr ⟨h.1.symm, h1⟩
    · rw [if_neg e1]
      by_cases e2 : a = u
      · subst e2
        rw [if_pos rfl, List.mem_append, List.mem_singleton, Prod.mk.injEq, G.adj a ha]
        constructor
        · rintro (h | h)
          · exact .inl h
          · exact .inr ⟨h.2, .inl ⟨rfl, h.1.symm⟩⟩
        · rintro (h | ⟨h1, h | h⟩)
          · exact .inl h
          · exact .inr ⟨h.2.symm, h1⟩
          · exact absurd h.2 e1
      · rw [if_neg e2, G.adj u hu]
        constructor
        · intro h; exact .inl h
        · rintro (h | ⟨h1, h | h⟩)
          · exact h
          · exact absurd h.1 e2
          · exact absurd h.2 e1
  · intro x y i h
    dsimp only at h
    rw [inc_append] at h
    rcases h with h | ⟨-, ⟨h1, h2⟩ | ⟨h1, h2⟩⟩
    · exact G.bnd x y i h
    · omega
    · omega
  · intro u hu
    dsimp only
    rw [at_set [] s2, at_set [] s1, at_set [] s1]
    have hnew : ∀ y z, z < n → (y, o.edges.length) ∉ (at' [] o.g z) := by
      intro y z hz h
      have := (G.adj z hz y _).mp h
      unfold Inc at this
      simp at this
    have app : ∀ z y, z < n → ((at' [] o.g z ++ [(y, o.edges.length)]).filter fun (e : Nat × Nat) => e.1 ≠ z).Nodup := by
      intro z y hz
      rw [List.filter_append]
      refine List.nodup_append.mpr ⟨G.nd z hz, List.Nodup.filter _ (List.nodup_singleton _), ?_⟩
      intro a ha b hb e
      subst e
      have h1 := List.mem_of_mem_filter ha
      have h2 := List.mem_of_mem_filter hb
      rw [List.mem_singleton] at h2
      subst h2
      exact hnew _ _ hz h1
    by_cases e1 : b = u
    · subst e1
      rw [if_pos rfl]
      by_cases e2 : a = b
      · subst e2
        rw [if_pos rfl, List.filter_append, List.filter_append]
        simpa using G.nd a ha
      · rw [if_neg e2]
        exact app b a hb
    · rw [if_neg e1]
      by_cases e2 : a = u
      · subst e2
        rw [if_pos rfl]
        exact app a b ha
      · rw [if_neg e2]
        exact G.nd u hu

theorem addAll_tot {es : List (Nat × Nat)} (h : ∀ e ∈ es, e.1 < n ∧ e.2 < n) :
    Tot (addAll n es) fun o => o.edges = es ∧ GOk n es o.g ∧ o.size = n ∧ o.s = (empty n).s ∧ o.conn = 0 := by
  unfold addAll
  refine Tot.forEach (P := fun A (o : Obj) => o.edges = A ∧ GOk n A o.g ∧ o.size = n ∧ o.s = (empty n).s ∧ o.conn = 0) ?_ ?_
  · refine ⟨rfl, ⟨by simp [empty], ?_, ?_, fun u hu => by simp [empty, at', hu]⟩, rfl, rfl, rfl⟩
    · intro u hu y i
      unfold Inc
      simp [empty, at', hu]
    · intro x y i h
      unfold Inc at h
      simp at h
  · rintro A e B o hA ⟨h1, h2, h3, h4, h5⟩
    have he := h e (by rw [hA]; simp)
    refine (addEdge_tot (h1.symm ▸ h2) he.1 he.2).mono ?_
    rintro o' ⟨b1, b2, b3, b4, b5⟩
    rw [b1, h1] at b2
    exact ⟨by rw [b1, h1], b2, by rw [b3, h3], by rw [b4, h4], by rw [b5, h5]⟩

/-- Between two roots. -/
structure RInv (n : Nat) (E : List (Nat × Nat)) (g : Array (List (Nat × Nat))) (i : Nat) (sc : St × Nat) (v : V) : Prop where
  rep : Rep n sc.1 v
  base : Base n sc.1.ord v
  outs : Outs n E sc.1 v
  seen : ∀ x, x < i → 0 ≤ v.pre x
  done : ∀ x, x < n → 0 ≤ v.pre x → DoneG n E g v x ∧ v.fin x ≤ sc.1.ord
  unv : ∀ x, v.pre x < 0 → v.par x = -1
  bm : ∀ i, i ∈ sc.1.bridges ↔ ∃ w, w < n ∧ 0 ≤ v.pre w ∧ v.pe w = i ∧ v.Br n w
  am : ∀ x, x ∈ sc.1.arts ↔ x < n ∧ 0 ≤ v.pre x ∧ v.Art n x
  rt : ∀ r, r < n → 0 ≤ v.pre r → v.par r = -1 → ∀ x, x < r → 0 ≤ v.pre x ∧ v.pre x < v.pre r
  conn : sc.2 = ((Finset.range n).filter fun x => 0 ≤ v.pre x ∧ v.par x = -1).card

theorem rootStep_tot (G : GOk n E g) {i : Nat} {sc : St × Nat} {v : V} (hi : i < n) (h : RInv n E g i sc v) :
    Tot (rootStep g n i sc) fun sc' => ∃ v', RInv n E g (i + 1) sc' v' := by
  unfold rootStep
  rw [rd_at (-1) (by rw [h.rep.s1]; exact hi), ok_bind, ← h.rep.e1]
  split_ifs with hc
  · have P : PreD n E sc.1 v i (-1) := ⟨h.rep, h.base, h.outs, hi, hc, .inl ⟨rfl, h.unv i hc⟩, fun x _ hx => h.unv x hx⟩
    refine Tot.bind (dfs_tot G n sc.1 v i (-1) P (by have := h.base.o0; omega)) ?_
    rintro s ⟨v', Q⟩
    have hp : ∀ x, 0 ≤ v.pre x → v'.pre x = v.pre x ∧ v'.par x = v.par x := fun x hx => ⟨(Q.same x hx).1, (Q.same x hx).2.1⟩
    have hn : ∀ x, x < n → v.pre x < 0 → 0 ≤ v'.pre x → sc.1.ord ≤ v'.pre x := fun x h1 h2 h3 => (Q.new x h1 h2 h3).1
    have hlt := h.base.lt
    have ho0 := h.base.o0
    have pari : v'.par i = -1 := by rw [Q.paru]; exact h.unv i hc
    refine Tot.pure ⟨v', Q.rep, Q.base, Q.outs, ?_, ?_, Q.unv, ?_, ?_, ?_, ?_⟩
    · intro x hx
      by_cases e : x = i
      · subst e; rw [Q.preu]; exact ho0
      · have := h.seen x (by omega)
        rw [(hp x this).1]
        exact this
    · intro x hx h1
      dsimp only
      by_cases h2 : 0 ≤ v.pre x
      · obtain ⟨a1, a2, a3, a4, a5⟩ := Q.same x h2
        obtain ⟨b1, b2⟩ := h.done x hx h2
        have := Q.ord
        exact ⟨DoneG.ext G hx b1 b2 hp hn a3 (fun y hy => (Q.same y hy).2.2.2.1) a5, by omega⟩
      · have := Q.new x hx (by omega) h1
        exact this.2
    · intro j
      dsimp only
      rw [Q.bm j, h.bm j]
      constructor
      · rintro (⟨w, b1, b2, b3, b4⟩ | ⟨w, b1, b2, b3, b4⟩)
        · obtain ⟨a1, a2, a3, a4, a5⟩ := Q.same w b2
          exact ⟨w, b1, by omega, by omega, (Br.ext (h.done w b1 b2).1.1 hp a3).mpr b4⟩
        · exact ⟨w, b1, by omega, b3, b4⟩
      · rintro ⟨w, b1, b2, b3, b4⟩
        by_cases h2 : 0 ≤ v.pre w
        · obtain ⟨a1, a2, a3, a4, a5⟩ := Q.same w h2
          exact .inl ⟨w, b1, h2, by omega, (Br.ext (h.done w b1 h2).1.1 hp a3).mp b4⟩
        · have h3 := (Q.new w b1 (by omega) b2).1
          have h4 : v'.pre w ≠ sc.1.ord := by
            intro e
            rw [← Q.preu] at e
            have := Q.base.inj _ _ b1 hi b2 e
            subst this
            have := Q.peu
            omega
          exact .inr ⟨w, b1, by omega, b3, b4⟩
    · intro x
      dsimp only
      rw [Q.am x, h.am x]
      have aold : x < n → 0 ≤ v.pre x → (v'.Art n x ↔ v.Art n x) := by
        intro h1 h2
        obtain ⟨a1, a2, a3, a4, a5⟩ := Q.same x h2
        obtain ⟨b1, b2⟩ := h.done x h1 h2
        exact Art.ext b1.1 b2 hp hn (fun w hw => (Q.same w (by omega)).2.2.1) a4 a5
      constructor
      · rintro (⟨b1, b2, b3⟩ | ⟨b1, b2, b3⟩)
        · exact ⟨b1, by rw [(hp x b2).1]; exact b2, (aold b1 b2).mpr b3⟩
        · exact ⟨b1, by omega, b3⟩
      · rintro ⟨b1, b2, b3⟩
        by_cases h2 : 0 ≤ v.pre x
        · exact .inl ⟨b1, h2, (aold b1 h2).mp b3⟩
        · exact .inr ⟨b1, (Q.new x b1 (by omega) b2).1, b3⟩
    · intro r hr h1 h2 x hx
      by_cases h3 : 0 ≤ v.pre r
      · have h4 := h.rt r hr h3 (by rw [← (hp r h3).2]; exact h2) x hx
        rw [(hp x h4.1).1, (hp r h3).1]; exact h4
      · have hri : r = i := by
          by_contra hne
          have h4 := (Q.new r hr (by omega) h1).1
          have h5 : v'.pre r ≠ v'.pre i := fun e => hne (Q.base.inj _ _ hr hi h1 e)
          have hpi := Q.preu
          have hdi := (Q.new i hi hc (by omega)).2.1.1
          obtain ⟨p, -, d, -⟩ := hdi.inside r hr (by omega) (by rw [Q.finu]; exact Q.base.lt r)
          omega
        subst hri
        have h5 := h.seen x hx
        rw [(hp x h5).1, Q.preu]
        exact ⟨h5, hlt x⟩
    · dsimp only
      rw [h.conn]
      have e1 : ((Finset.range n).filter fun x => 0 ≤ v'.pre x ∧ v'.par x = -1) = insert i ((Finset.range n).filter fun x => 0 ≤ v.pre x ∧ v.par x = -1) := by
        ext x
        rw [Finset.mem_insert, Finset.mem_filter, Finset.mem_filter, Finset.mem_range]
        constructor
        · rintro ⟨b1, b2, b3⟩
          by_cases h2 : 0 ≤ v.pre x
          · exact .inr ⟨b1, h2, by rw [← (hp x h2).2]; exact b3⟩
          · left
            by_contra hne
            have h3 := (Q.new x b1 (by omega) b2).1
            have h4 : v'.pre x ≠ v'.pre i := fun e => hne (Q.base.inj _ _ b1 hi b2 e)
            have hpi := Q.preu
            have hdi := (Q.new i hi hc (by omega)).2.1.1
            obtain ⟨p, -, d, -⟩ := hdi.inside x b1 (by omega) (by rw [Q.finu]; exact Q.base.lt x)
            omega
        · rintro (rfl | ⟨b1, b2, b3⟩)
          · exact ⟨hi, by rw [Q.preu]; exact ho0, pari⟩
          · obtain ⟨a1, a2⟩ := hp x b2
            exact ⟨b1, by omega, by omega⟩
      rw [e1, Finset.card_insert_of_notMem]
      rw [Finset.mem_filter]
      rintro ⟨-, b, -⟩
      omega
  · refine Tot.pure ⟨v, h.rep, h.base, h.outs, ?_, h.done, h.unv, h.bm, h.am, h.rt, h.conn⟩
    intro x hx
    by_cases e : x = i
    · subst e; omega
    · exact h.seen x (by omega)

/-- A built object. -/
structure Built (n : Nat) (E : List (Nat × Nat)) (o : Obj) (v : V) : Prop where
  rep : Rep n o.s v
  cert : Cert n E v
  graph : GOk n E o.g
  first : ∀ w, w < n → First n (at' [] o.g w) v w
  lt : ∀ x, x < n → v.pre x < n
  finle : ∀ x, x < n → v.fin x ≤ n
  onto : ∀ t : Int, 0 ≤ t → t < n → ∃ x, x < n ∧ v.pre x = t
  bn : o.s.bridges.Nodup
  bm : ∀ i, i ∈ o.s.bridges ↔ IsBridge E i
  an : o.s.arts.Nodup
  am : ∀ x, x ∈ o.s.arts ↔ IsCut E x
  rt : ∀ r, r < n → v.par r = -1 → ∀ x, x < r → v.pre x < v.pre r
  conn : o.conn = ((Finset.range n).filter fun x => v.par x = -1).card
  size : o.size = n
  edges : o.edges = E
  built : o.built = true

theorem isCut_lt {u : Nat} (hb : ∀ x y i, Inc E x y i → x < n ∧ y < n) (h : IsCut E u) : u < n := by
  by_contra hc
  obtain ⟨x, y, -, -, h1, h2⟩ := h
  exact h2 (Reach.mono (fun i _ z hz => hc (hb _ _ _ hz).1) h1)

theorem build_tot {o : Obj} (G : GOk n E o.g) (hs : o.s = (empty n).s) (hc : o.conn = 0) (hz : o.size = n) (he : o.edges = E) :
    Tot (build o) fun o' => ∃ v, Built n E o' v := by
  unfold build
  rw [hz, hs, hc]
  have h0 : RInv n E o.g 0 ({ (empty n).s with ord := 0 }, 0) ⟨fun _ => -1, fun _ => 0, fun _ => -1, fun _ => -1, fun _ => 0⟩ := by
    have e : ∀ (z : Int), (fun _ => z) = at' z (Array.replicate n z) := by
      intro z
      funext x
      unfold at'
      rw [Array.getElem?_replicate]
      split <;> rfl
    refine ⟨⟨by simp [empty], by simp [empty], by simp [empty], e _, e _, e _⟩, ⟨by simp, by simp, by simp, ?_, ?_⟩, ⟨by simp [empty], by simp [empty], by simp [empty], by simp [empty]⟩, by simp, by simp, by simp, ?_, ?_, by simp, ?_⟩
    · intro t h1 h2
      dsimp only at h2
      omega
    · simp
    · intro i; simp [empty]
    · intro i; simp [empty]
    · simp
  refine Tot.bind (Tot.forUp (lo := 0) (hi := n) (P := fun i sc => ∃ v, RInv n E o.g i sc v) (by omega) ⟨_, h0⟩ ?_) ?_
  · rintro i sc - hi ⟨v, h⟩
    exact rootStep_tot G hi h
  · rintro sc ⟨v, h⟩
    have cert : Cert n E v := ⟨fun w hw => (h.done w hw (h.seen w hw)).1.1, fun x y hx hy e => h.base.inj x y hx hy (h.seen x hx) e, G.bnd⟩
    have hord : sc.1.ord = n := by
      rw [← h.base.card, Finset.filter_true_of_mem]
      · simp
      · intro x hx
        exact h.seen x (Finset.mem_range.mp hx)
    refine Tot.pure ⟨v, h.rep, cert, G, fun w hw => (h.done w hw (h.seen w hw)).1.2, ?_, fun w hw => hord ▸ (h.done w hw (h.seen w hw)).2, ?_, h.outs.bn, ?_, h.outs.an, ?_, fun r hr h2 x hx => (h.rt r hr (h.seen r hr) h2 x hx).2, ?_, rfl, he, rfl⟩
    · intro x _
      have := h.base.lt x
      omega
    · intro t h1 h2
      exact h.base.onto t h1 (by omega)
    · intro i
      dsimp only
      rw [h.bm i, cert.bridge_iff]
      constructor
      · rintro ⟨w, b1, b2, b3⟩; exact ⟨w, b1, b3⟩
      · rintro ⟨w, b1, b3⟩; exact ⟨w, b1, h.seen w b1, b3⟩
    · intro x
      dsimp only
      rw [h.am x]
      constructor
      · rintro ⟨b1, b2, b3⟩
        exact (cert.art_iff b1).mp b3
      · intro b
        have := isCut_lt G.bnd b
        exact ⟨this, h.seen x this, (cert.art_iff this).mpr b⟩
    · dsimp only
      rw [h.conn]
      congr 1
      refine Finset.filter_congr fun x hx => ?_
      have := h.seen x (Finset.mem_range.mp hx)
      simp [this]

theorem make_tot {es : List (Nat × Nat)} (h : ∀ e ∈ es, e.1 < n ∧ e.2 < n) : Tot (make n es) fun o => ∃ v, Built n es o v := by
  unfold make
  refine Tot.bind (addAll_tot h) ?_
  rintro o ⟨h1, h2, h3, h4, h5⟩
  exact build_tot h2 h4 h5 h3 h1

theorem isBridge_ok {o : Obj} {v : V} (B : Built n E o v) {x y i : Nat} (he : Inc E x y i) : ∃ b, isBridge o x y = .ok b ∧ (b = true ↔ IsBridge E i) := by
  obtain ⟨hx, hy⟩ := B.graph.bnd _ _ _ he
  unfold isBridge
  have s1 : ∀ z, z < n → z < o.s.pre.size := fun z hz => by rw [B.rep.s1]; exact hz
  have s2 : ∀ z, z < n → z < o.s.low.size := fun z hz => by rw [B.rep.s2]; exact hz
  rw [B.built]
  dsimp only [Bool.not_true]
  rw [if_neg (by simp), rd_at (-1) (s1 x hx), ok_bind, rd_at (-1) (s1 y hy), ok_bind, ← B.rep.e1]
  by_cases hc : v.pre x > v.pre y
  · rw [if_pos hc, if_pos hc, rd_at (-1) (s1 y hy), ok_bind, rd_at 0 (s2 x hx), ok_bind, ← B.rep.e1, ← B.rep.e2]
    exact ⟨_, rfl, by rw [decide_eq_true_iff, B.cert.isBridge_iff he.symm (by omega)]⟩
  · rw [if_neg hc, if_neg hc, rd_at (-1) (s1 x hx), ok_bind, rd_at 0 (s2 y hy), ok_bind, ← B.rep.e1, ← B.rep.e2]
    exact ⟨_, rfl, by rw [decide_eq_true_iff, B.cert.isBridge_iff he (by omega)]⟩

open Classical in
theorem componentNumVertex_ok {o : Obj} {v : V} (B : Built n E o v) {u : Nat} (hu : u < n) :
    ∃ res : Nat, res = ((Finset.range n).filter fun w => v.par w = u ∧ v.pre u ≤ v.low w).card ∧
      componentNumVertex o u = .ok ((o.conn : Int) - 1 + res + if v.par u = -1 then 0 else 1) := by
  refine ⟨_, rfl, ?_⟩
  unfold componentNumVertex
  rw [B.built]
  dsimp only [Bool.not_true]
  rw [if_neg (by simp), rd_at [] (by rw [B.graph.size]; exact hu), ok_bind]
  have key : Tot (forEach (at' [] o.g u) ([], true, 0) (removeStep o u)) fun r =>
      (∀ w, w ∈ r.1 ↔ (∃ i, (w, i) ∈ at' [] o.g u) ∧ v.pre u ≤ v.pre w ∧ v.par w = u) ∧
      (r.2.1 = true ↔ ∀ e ∈ at' [] o.g u, v.pre u ≤ v.pre e.1) ∧
      r.2.2 = ((Finset.range n).filter fun w => w ∈ r.1 ∧ v.pre u ≤ v.low w).card := by
    refine Tot.forEach (P := fun A (r : List Nat × Bool × Nat) => (∀ w, w ∈ r.1 ↔ (∃ i, (w, i) ∈ A) ∧ v.pre u ≤ v.pre w ∧ v.par w = u) ∧
      (r.2.1 = true ↔ ∀ e ∈ A, v.pre u ≤ v.pre e.1) ∧
      r.2.2 = ((Finset.range n).filter fun w => w ∈ r.1 ∧ v.pre u ≤ v.low w).card) (by simp) ?_
    rintro A e C ⟨seen, isr, res⟩ hA ⟨h1, h2, h3⟩
    dsimp only at h1 h2 h3
    have hin : Inc E u e.1 e.2 := (B.graph.adj u hu e.1 e.2).mp (by rw [hA]; simp)
    have hen := (B.graph.bnd _ _ _ hin).2
    unfold removeStep
    rw [rd_at (-1) (by rw [B.rep.s1]; exact hen), ok_bind, rd_at (-1) (by rw [B.rep.s1]; exact hu), ok_bind, ← B.rep.e1]
    by_cases hc : v.pre e.1 < v.pre u
    · rw [if_pos hc]
      refine Tot.pure ⟨?_, ?_, h3⟩
      · intro w
        dsimp only
        rw [h1 w]
        refine and_congr_left fun b => ?_
        constructor
        · rintro ⟨i, d⟩; exact ⟨i, List.mem_append_left _ d⟩
        · rintro ⟨i, d⟩
          rw [List.mem_append, List.mem_singleton] at d
          rcases d with d | d
          · exact ⟨i, d⟩
          · rw [← d] at hc
            have := b.1
            dsimp only at hc
            omega
      · dsimp only
        refine ⟨fun h => by simp at h, fun h => ?_⟩
        have := h e (by simp)
        omega
    · rw [if_neg hc, rd_at (-1) (by rw [B.rep.s3]; exact hen), ok_bind, ← B.rep.e3]
      have hroot : isr = true ↔ ∀ e' ∈ A ++ [e], v.pre u ≤ v.pre e'.1 := by
        rw [h2]
        constructor
        · intro h e' he'
          rw [List.mem_append, List.mem_singleton] at he'
          rcases he' with he' | rfl
          · exact h e' he'
          · omega
        · intro h e' he'
          exact h e' (List.mem_append_left _ he')
      by_cases hd : v.par e.1 = u ∧ e.1 ∉ seen
      · rw [if_pos hd, rd_at 0 (by rw [B.rep.s2]; exact hen), ok_bind, ← B.rep.e2]
        refine Tot.pure ⟨?_, hroot, ?_⟩
        · intro w
          dsimp only
          rw [List.mem_cons, h1 w]
          constructor
          · rintro (rfl | ⟨⟨i, b⟩, d⟩)
            · exact ⟨⟨e.2, by simp⟩, by omega, hd.1⟩
            · exact ⟨⟨i, List.mem_append_left _ b⟩, d⟩
          · rintro ⟨⟨i, b⟩, d⟩
            rw [List.mem_append, List.mem_singleton] at b
            rcases b with b | b
            · exact .inr ⟨⟨i, b⟩, d⟩
            · left; rw [← b]
        · dsimp only
          by_cases hl : v.pre u ≤ v.low e.1
          · rw [if_pos hl, h3]
            have e1 : ((Finset.range n).filter fun w => w ∈ e.1 :: seen ∧ v.pre u ≤ v.low w) = insert e.1 ((Finset.range n).filter fun w => w ∈ seen ∧ v.pre u ≤ v.low w) := by
              ext w
              simp only [Finset.mem_insert, Finset.mem_filter, Finset.mem_range, List.mem_cons]
              constructor
              · rintro ⟨b1, rfl | b2, b3⟩
                · exact .inl rfl
                · exact .inr ⟨b1, b2, b3⟩
              · rintro (rfl | ⟨b1, b2, b3⟩)
                · exact ⟨hen, .inl rfl, hl⟩
                · exact ⟨b1, .inr b2, b3⟩
            rw [e1, Finset.card_insert_of_notMem]
            rw [Finset.mem_filter]
            exact fun h => hd.2 h.2.1
          · rw [if_neg hl, h3, Nat.add_zero]
            congr 1
            refine Finset.filter_congr fun w _ => and_congr_left fun b => ?_
            rw [List.mem_cons]
            refine ⟨.inr, ?_⟩
            rintro (rfl | b')
            · exact absurd b hl
            · exact b'
      · rw [if_neg hd]
        refine Tot.pure ⟨?_, hroot, h3⟩
        intro w
        dsimp only
        rw [h1 w]
        refine and_congr_left fun b => ?_
        constructor
        · rintro ⟨i, d⟩; exact ⟨i, List.mem_append_left _ d⟩
        · rintro ⟨i, d⟩
          rw [List.mem_append, List.mem_singleton] at d
          rcases d with d | d
          · exact ⟨i, d⟩
          · have hw : w = e.1 := by rw [← d]
            subst hw
            by_contra hno
            refine hd ⟨b.2, fun hs => hno ((h1 e.1).mp hs).1⟩
  obtain ⟨r, hr, h1, h2, h3⟩ := key
  rw [hr, ok_bind]
  have c := B.cert
  have e1 : r.2.2 = ((Finset.range n).filter fun w => v.par w = u ∧ v.pre u ≤ v.low w).card := by
    rw [h3]
    congr 1
    refine Finset.filter_congr fun w hw => and_congr_left fun _ => ?_
    rw [Finset.mem_range] at hw
    rw [h1 w]
    constructor
    · rintro ⟨-, -, b⟩; exact b
    · intro b
      obtain ⟨p, i, a1, a2, a3, a4, a5, a6⟩ := c.par_of hw (by rw [b]; omega)
      have : p = u := by omega
      subst this
      exact ⟨⟨i, (B.graph.adj p hu w i).mpr a4.symm⟩, by omega, b⟩
  have e2 : r.2.1 = true ↔ v.par u = -1 := by
    rw [h2]
    constructor
    · intro h
      by_contra hc
      obtain ⟨p, i, a1, a2, a3, a4, a5, a6⟩ := c.par_of hu hc
      have := h (p, i) ((B.graph.adj u hu p i).mpr a4)
      dsimp only at this
      omega
    · intro h e he
      exact (c.root_closed hu h (c.in_self hu) ((B.graph.adj u hu e.1 e.2).mp he)).1
  have e3 : (if r.2.1 = true then (0 : Int) else 1) = if v.par u = -1 then 0 else 1 := by
    by_cases hc : v.par u = -1
    · rw [if_pos hc, if_pos (e2.mpr hc)]
    · rw [if_neg hc, if_neg (fun h => hc (e2.mp h))]
  rw [e3, e1]
  rfl

open Classical in
theorem roots_ne {v : V} {u : Nat} (hu : u < n) :
    (((Finset.range n).filter fun x => v.par x = -1 ∧ x ≠ u).card : Int) = (((Finset.range n).filter fun x => v.par x = -1).card : Int) - 1 + if v.par u = -1 then 0 else 1 := by
  by_cases hc : v.par u = -1
  · rw [if_pos hc]
    have e1 : ((Finset.range n).filter fun x => v.par x = -1) = insert u ((Finset.range n).filter fun x => v.par x = -1 ∧ x ≠ u) := by
      ext x
      simp only [Finset.mem_insert, Finset.mem_filter, Finset.mem_range]
      constructor
      · rintro ⟨b1, b2⟩
        by_cases e : x = u
        · exact .inl e
        · exact .inr ⟨b1, b2, e⟩
      · rintro (rfl | ⟨b1, b2, b3⟩)
        · exact ⟨hu, hc⟩
        · exact ⟨b1, b2⟩
    rw [e1, Finset.card_insert_of_notMem (by simp)]
    push_cast
    omega
  · rw [if_neg hc]
    have e1 : ((Finset.range n).filter fun x => v.par x = -1 ∧ x ≠ u) = ((Finset.range n).filter fun x => v.par x = -1) := by
      refine Finset.filter_congr fun x _ => ?_
      constructor
      · exact fun h => h.1
      · intro h
        exact ⟨h, by rintro rfl; exact hc h⟩
    rw [e1]
    omega

end LowLink
