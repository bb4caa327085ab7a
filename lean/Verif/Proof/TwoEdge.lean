import Verif.Proof.LowLinkWalk

namespace TwoEdge
open Cxx Cut LowLink

variable {n : Nat} {E : List (Nat × Nat)} {o : LowLink.Obj} {v : V}

/-- `w` starts a component. -/
def Head (v : V) (n w : Nat) : Prop := v.par w = -1 ∨ v.Br n w

/-- The state after visiting `c` vertices. -/
structure Inv (n : Nat) (v : V) (c : Int) (s : TwoEdge.St) : Prop where
  sz : s.comp.size = n
  vis : ∀ x, x < n → (0 ≤ at' (-1) s.comp x ↔ v.pre x < c)
  lt : ∀ x, x < n → v.pre x < c → at' (-1) s.comp x < s.num
  tree : ∀ x, x < n → v.pre x < c → ¬ Head v n x → ∃ p : Nat, p < n ∧ v.par x = p ∧ at' (-1) s.comp x = at' (-1) s.comp p
  inj : ∀ x y, x < n → y < n → v.pre x < c → v.pre y < c → Head v n x → Head v n y → at' (-1) s.comp x = at' (-1) s.comp y → x = y
  surj : ∀ k : Nat, k < s.num → ∃ x, x < n ∧ v.pre x < c ∧ Head v n x ∧ at' (-1) s.comp x = k

theorem inv_new (B : Built n E o v) {u : Nat} {s : TwoEdge.St} (hu : u < n) (h : Inv n v (v.pre u) s) (hh : Head v n u) :
    Inv n v (v.pre u + 1) ⟨s.comp.setIfInBounds u s.num, s.num + 1⟩ := by
  have su : u < s.comp.size := by rw [h.sz]; exact hu
  have hs : ∀ x, at' (-1) (s.comp.setIfInBounds u (s.num : Int)) x = if u = x then (s.num : Int) else at' (-1) s.comp x := at_set (-1) su _
  have old : ∀ x, x < n → v.pre x < v.pre u + 1 → u ≠ x → v.pre x < v.pre u := by
    intro x h1 h2 h3
    have : v.pre u ≠ v.pre x := fun e => h3 (B.cert.inj _ _ hu h1 e)
    omega
  refine ⟨by simpa using h.sz, ?_, ?_, ?_, ?_, ?_⟩
  · intro x hx
    rw [hs]
    split_ifs with e
    · subst e; constructor <;> intro <;> omega
    · rw [h.vis x hx]
      exact ⟨fun _ => by omega, fun h2 => old x hx h2 e⟩
  · intro x hx h1
    dsimp only
    rw [hs]
    push_cast
    split_ifs with e
    · omega
    · have := h.lt x hx (old x hx h1 e); omega
  · intro x hx h1 h2
    dsimp only
    rw [hs]
    split_ifs with e
    · subst e; exact absurd hh h2
    · obtain ⟨p, p1, p2, p3⟩ := h.tree x hx (old x hx h1 e) h2
      refine ⟨p, p1, p2, ?_⟩
      rw [hs, if_neg, p3]
      rintro rfl
      obtain ⟨p', _, _, a, _, _, _, b⟩ := B.cert.par_of hx (by omega)
      have : p' = u := by omega
      subst this
      have := old x hx h1 e
      omega
  · intro x y hx hy h1 h2 h3 h4 he
    dsimp only at he
    rw [hs, hs] at he
    split_ifs at he with e1 e2 e2
    · rw [← e1, e2]
    · have := h.lt y hy (old y hy h2 e2); omega
    · have := h.lt x hx (old x hx h1 e1); omega
    · exact h.inj x y hx hy (old x hx h1 e1) (old y hy h2 e2) h3 h4 he
  · intro k hk
    dsimp only at hk ⊢
    by_cases e : k = s.num
    · subst e
      exact ⟨u, hu, by omega, hh, by rw [hs, if_pos rfl]⟩
    · obtain ⟨x, x1, x2, x3, x4⟩ := h.surj k (by omega)
      exact ⟨x, x1, by omega, x3, by rw [hs, if_neg (by rintro rfl; omega), x4]⟩

theorem inv_same (B : Built n E o v) {u p : Nat} {s : TwoEdge.St} (hu : u < n) (h : Inv n v (v.pre u) s) (hh : ¬ Head v n u) (hp : p < n) (hup : v.par u = p)
    (hlt : v.pre p < v.pre u) :
    Inv n v (v.pre u + 1) ⟨s.comp.setIfInBounds u (at' (-1) s.comp p), s.num⟩ := by
  have su : u < s.comp.size := by rw [h.sz]; exact hu
  have hs : ∀ x, at' (-1) (s.comp.setIfInBounds u (at' (-1) s.comp p)) x = if u = x then at' (-1) s.comp p else at' (-1) s.comp x := at_set (-1) su _
  have old : ∀ x, x < n → v.pre x < v.pre u + 1 → u ≠ x → v.pre x < v.pre u := by
    intro x h1 h2 h3
    have : v.pre u ≠ v.pre x := fun e => h3 (B.cert.inj _ _ hu h1 e)
    omega
  have hpu : u ≠ p := by rintro rfl; omega
  have hpp := (h.vis p hp).mpr hlt
  refine ⟨by simpa using h.sz, ?_, ?_, ?_, ?_, ?_⟩
  · intro x hx
    rw [hs]
    split_ifs with e
    · subst e; constructor <;> intro <;> omega
    · rw [h.vis x hx]
      exact ⟨fun _ => by omega, fun h2 => old x hx h2 e⟩
  · intro x hx h1
    dsimp only
    rw [hs]
    split_ifs with e
    · exact h.lt p hp hlt
    · exact h.lt x hx (old x hx h1 e)
  · intro x hx h1 h2
    dsimp only
    rw [hs]
    split_ifs with e
    · subst e
      exact ⟨p, hp, hup, by rw [hs, if_neg hpu]⟩
    · obtain ⟨q, p1, p2, p3⟩ := h.tree x hx (old x hx h1 e) h2
      refine ⟨q, p1, p2, ?_⟩
      rw [hs, if_neg, p3]
      rintro rfl
      obtain ⟨p', _, _, a, _, _, _, b⟩ := B.cert.par_of hx (by omega)
      have : p' = u := by omega
      subst this
      have := old x hx h1 e
      omega
  · intro x y hx hy h1 h2 h3 h4 he
    have e1 : u ≠ x := by rintro rfl; exact hh h3
    have e2 : u ≠ y := by rintro rfl; exact hh h4
    dsimp only at he
    rw [hs, hs, if_neg e1, if_neg e2] at he
    exact h.inj x y hx hy (old x hx h1 e1) (old y hy h2 e2) h3 h4 he
  · intro k hk
    obtain ⟨x, x1, x2, x3, x4⟩ := h.surj k hk
    exact ⟨x, x1, by omega, x3, by dsimp only; rw [hs, if_neg (by rintro rfl; omega), x4]⟩

theorem assign_tot (B : Built n E o v) {u : Nat} {s : TwoEdge.St} (hu : u < n) (h : Inv n v (v.pre u) s) :
    Tot (assign o u (v.par u) s) fun s' => Inv n v (v.pre u + 1) s' := by
  unfold assign
  have su : u < s.comp.size := by rw [h.sz]; exact hu
  rcases (B.cert.done u hu).up with ⟨h1, h2⟩ | ⟨p, i, p1, p2, p3, p4, p5, p6⟩
  · rw [h2, if_neg (by omega), wr_eq su, ok_bind]
    exact Tot.pure (inv_new B hu h (.inl h2))
  · rw [p2, if_pos (by omega), rd_at 0 (by rw [B.rep.s2]; exact hu), ok_bind, Int.toNat_natCast, rd_at (-1) (by rw [B.rep.s1]; exact p1), ok_bind,
      ← B.rep.e1, ← B.rep.e2]
    split_ifs with hc
    · rw [rd_at (-1) (by rw [h.sz]; exact p1), ok_bind, wr_eq su, ok_bind]
      refine Tot.pure (inv_same B hu h ?_ p1 p2 p6)
      rintro (a | ⟨q, q1, q2, q3⟩)
      · omega
      · have : q = p := by omega
        subst this; omega
    · rw [wr_eq su, ok_bind]
      exact Tot.pure (inv_new B hu h (.inr ⟨p, p1, p2, by omega⟩))

theorem dfs_tot (B : Built n E o v) : ∀ (fuel u : Nat) (s : TwoEdge.St), u < n → Inv n v (v.pre u) s → (n : Int) - v.pre u ≤ fuel →
    Tot (dfs o fuel u (v.par u) s) fun s' => Inv n v (v.fin u) s' := by
  intro fuel
  induction fuel with
  | zero =>
    intro u s hu _ hf
    have := B.lt u hu
    omega
  | succ fuel ih =>
    intro u s hu h hf
    unfold dfs
    refine Tot.bind (assign_tot B hu h) ?_
    intro s1 h1
    rw [rd_at [] (by rw [B.graph.size]; exact hu), ok_bind]
    refine (Tot.forEach (P := fun A (s : TwoEdge.St) => ∃ c, Inv n v c s ∧ Walk n v u c ∧ ∀ e ∈ A, v.pre e.1 < c)
      ⟨_, h1, B.walk_start hu, by simp⟩ ?_).mono ?_
    · rintro A ⟨y, i⟩ C s hA ⟨c, a1, a2, a3⟩
      have hin : Inc E u y i := (B.graph.adj u hu y i).mp (by rw [hA]; simp)
      have hyn := (B.graph.bnd _ _ _ hin).2
      unfold edgeStep
      rw [rd_at (-1) (by rw [a1.sz]; exact hyn), ok_bind]
      dsimp only
      have hv := a1.vis y hyn
      split_ifs with hc
      · have hy : c ≤ v.pre y := by
          by_contra hcc
          have := hv.mpr (by omega)
          omega
        obtain ⟨-, b1, b2, b3⟩ := B.next_edge hu a2 hA a3 hy
        have := a2.lo
        rw [← b2]
        refine (ih y s hyn (b1 ▸ a1) (by push_cast at hf; omega)).mono ?_
        intro s' h'
        refine ⟨_, h', B.walk_child hu hyn a2 b1 b2, ?_⟩
        intro e he
        have h4 := (B.cert.done y hyn).lt
        rw [List.mem_append, List.mem_singleton] at he
        rcases he with he | rfl
        · have := a3 e he; omega
        · exact h4
      · refine Tot.pure ⟨c, a1, a2, ?_⟩
        intro e he
        rw [List.mem_append, List.mem_singleton] at he
        rcases he with he | rfl
        · exact a3 e he
        · exact hv.mp (by omega)
    · rintro s' ⟨c, a1, a2, a3⟩
      rw [← B.walk_end hu a2 a3]
      exact a1

theorem dfsAll_tot (B : Built n E o v) : Tot (dfsAll o (Array.replicate n (-1))) fun s => Inv n v n s := by
  unfold dfsAll
  rw [B.size]
  refine (Tot.forUp (lo := 0) (hi := n) (P := fun i (s : TwoEdge.St) => ∃ c, 0 ≤ c ∧ Inv n v c s ∧ (∀ x, x < i → v.pre x < c) ∧ ∀ q, q < n → v.pre q < c → v.fin q ≤ c)
    (by omega) ⟨0, le_refl _, ?_, by simp, ?_⟩ ?_).mono ?_
  · have nn : ∀ x, x < n → ¬ v.pre x < 0 := fun x hx => by have := (B.cert.done x hx).vis; omega
    refine ⟨by simp, ?_, ?_, ?_, ?_, ?_⟩
    · intro x hx
      simp [at', hx, (B.cert.done x hx).vis]
    · intro x hx h; exact absurd h (nn x hx)
    · intro x hx h; exact absurd h (nn x hx)
    · intro x y hx hy h; exact absurd h (nn x hx)
    · intro k hk; simp at hk
  · intro q hq h
    have := (B.cert.done q hq).vis
    omega
  · rintro i s - hi ⟨c, c0, h1, h2, h3⟩
    rw [rd_at (-1) (by rw [h1.sz]; exact hi), ok_bind]
    have hv := h1.vis i hi
    split_ifs with hc
    · have hy : c ≤ v.pre i := by
        by_contra hcc
        have := hv.mpr (by omega)
        omega
      obtain ⟨b1, b2⟩ := B.next_root hi c0 h2 h3 hy
      rw [← b2]
      refine (dfs_tot B n i s hi (b1 ▸ h1) (by omega)).mono ?_
      intro s' h'
      have h4 := (B.cert.done i hi).lt
      refine ⟨_, by omega, h', ?_, ?_⟩
      · intro x hx
        by_cases e : x = i
        · subst e; exact h4
        · have := h2 x (by omega); omega
      · intro q hq h5
        by_cases h6 : v.pre q < c
        · have := h3 q hq h6; omega
        · exact B.fin_mono hi hq ⟨by omega, h5⟩
    · refine Tot.pure ⟨c, c0, h1, ?_, h3⟩
      intro x hx
      by_cases e : x = i
      · subst e; exact hv.mp (by omega)
      · exact h2 x (by omega)
  · rintro s ⟨c, c0, h1, h2, h3⟩
    have tr : ∀ x, x < n → (v.pre x < n ↔ v.pre x < c) := fun x hx => iff_of_true (B.lt x hx) (h2 x hx)
    refine ⟨h1.sz, ?_, ?_, ?_, ?_, ?_⟩
    · intro x hx; rw [h1.vis x hx, tr x hx]
    · intro x hx h; exact h1.lt x hx ((tr x hx).mp h)
    · intro x hx h; exact h1.tree x hx ((tr x hx).mp h)
    · intro x y hx hy h h'; exact h1.inj x y hx hy ((tr x hx).mp h) ((tr y hy).mp h')
    · intro k hk
      obtain ⟨x, x1, x2, x3⟩ := h1.surj k hk
      exact ⟨x, x1, B.lt x x1, x3⟩

/-- Two vertices are 2-edge-connected. -/
def Same (E : List (Nat × Nat)) (x y : Nat) : Prop := ∀ i, Reach E (· ≠ i) x y

theorem Same.symm {x y : Nat} (h : Same E x y) : Same E y x := fun i => (h i).symm
theorem Same.trans {x y z : Nat} (h : Same E x y) (h' : Same E y z) : Same E x z := fun i => (h i).trans (h' i)

theorem same_par (c : Cert n E v) {x p : Nat} (hx : x < n) (hp : v.par x = p) (hh : ¬ Head v n x) : Same E x p := by
  intro i
  obtain ⟨p', j, h1, h2, h3, h4, h5, h6⟩ := c.par_of hx (by omega)
  have : p' = p := by omega
  subst this
  by_cases e : j = i
  · subst e
    refine reach_of_not_bridge ?_ (Reach.edge h4 trivial)
    rw [c.bridge_iff]
    rintro ⟨w, w1, w2, w3⟩
    have := c.pe_inj w1 hx w2 h3
    subst this
    exact hh (.inr w3)
  · exact Reach.edge h4 e

/-- Every vertex has a head. -/
theorem head_of (B : Built n E o v) {s : TwoEdge.St} (h : Inv n v n s) : ∀ k x, x < n → (v.pre x).toNat ≤ k →
    ∃ w, w < n ∧ Head v n w ∧ at' (-1) s.comp x = at' (-1) s.comp w ∧ Same E x w ∧ ∀ z, z < n → Head v n z → v.In z x → v.In z w := by
  intro k
  induction k with
  | zero =>
    intro x hx hk
    refine ⟨x, hx, ?_, rfl, fun i => Reach.refl _, fun z _ _ h => h⟩
    rcases (B.cert.done x hx).up with ⟨-, h1⟩ | ⟨p, i, p1, p2, p3, p4, p5, p6⟩
    · exact .inl h1
    · omega
  | succ k ih =>
    intro x hx hk
    by_cases hh : Head v n x
    · exact ⟨x, hx, hh, rfl, fun i => Reach.refl _, fun z _ _ h => h⟩
    · obtain ⟨p, p1, p2, p3⟩ := h.tree x hx (B.lt x hx) hh
      obtain ⟨p', j, h1, h2, h3, h4, h5, h6⟩ := B.cert.par_of hx (by omega)
      have : p' = p := by omega
      subst this
      obtain ⟨w, w1, w2, w3, w4, w5⟩ := ih p' p1 (by omega)
      refine ⟨w, w1, w2, by rw [p3, w3], (same_par B.cert hx p2 hh).trans w4, ?_⟩
      intro z hz z1 z2
      refine w5 z hz z1 ?_
      obtain ⟨q, _, _, q2, _, _, q5, _⟩ := B.cert.par_in hz hx z2 (by rintro rfl; exact hh z1)
      have : q = p' := by omega
      subst this
      exact q5

/-- The subtree of a head is left by its bridge only. -/
theorem head_closed (c : Cert n E v) {w x y : Nat} (hw : w < n) (hh : Head v n w) (hs : Same E x y) (hx : v.In w x) : v.In w y := by
  rcases hh with h | h
  · exact c.reach_in hw h (hs 0) hx
  · obtain ⟨p, h1, h2, -⟩ := id h
    obtain ⟨p', j, h1, h2, h3, h4, h5, h6⟩ := c.par_of hw (by omega)
    refine Reach.closed (S := fun x => v.In w x) (ok := (· ≠ j)) ?_ (hs j) hx
    intro a b i ha hi he
    exact c.br_closed hw h ha he (by rw [h3]; exact_mod_cast hi)

theorem comp_iff (B : Built n E o v) {s : TwoEdge.St} (h : Inv n v n s) {x y : Nat} (hx : x < n) (hy : y < n) :
    at' (-1) s.comp x = at' (-1) s.comp y ↔ Same E x y := by
  obtain ⟨w, w1, w2, w3, w4, w5⟩ := head_of B h _ x hx (le_refl _)
  obtain ⟨z, z1, z2, z3, z4, z5⟩ := head_of B h _ y hy (le_refl _)
  constructor
  · intro e
    have : w = z := h.inj w z w1 z1 (B.lt w w1) (B.lt z z1) w2 z2 (by rw [← w3, ← z3, e])
    subst this
    exact w4.trans z4.symm
  · intro e
    have a1 : v.In z w := head_closed B.cert z1 z2 (z4.symm.trans (e.symm.trans w4)) (B.cert.in_self z1)
    have a2 : v.In w z := head_closed B.cert w1 w2 (w4.symm.trans (e.trans z4)) (B.cert.in_self w1)
    have : w = z := B.cert.inj w z w1 z1 (le_antisymm a2.1 a1.1)
    rw [w3, z3, this]

/-- An edge joins different components iff it is a bridge. -/
theorem comp_ne_iff (B : Built n E o v) {s : TwoEdge.St} (h : Inv n v n s) {x y i : Nat} (he : Inc E x y i) :
    at' (-1) s.comp x ≠ at' (-1) s.comp y ↔ IsBridge E i := by
  obtain ⟨hx, hy⟩ := B.graph.bnd _ _ _ he
  rw [Ne, comp_iff B h hx hy]
  constructor
  · intro hn
    by_contra hb
    apply hn
    intro j
    by_cases e : i = j
    · subst e; exact reach_of_not_bridge hb (Reach.edge he trivial)
    · exact Reach.edge he e
  · rintro ⟨a, b, h1, h2⟩ hs
    rcases he.ends h1 with ⟨rfl, rfl⟩ | ⟨rfl, rfl⟩
    · exact h2 (hs i)
    · exact h2 (hs i).symm

theorem count (B : Built n E o v) {s : TwoEdge.St} (h : Inv n v n s) : CompCount n (fun _ => True) (Same E) s.num := by
  classical
  have hsurj : ∀ k : Nat, ∃ x, k < s.num → x < n ∧ Head v n x ∧ at' (-1) s.comp x = k := by
    intro k
    by_cases hk : k < s.num
    · obtain ⟨x, x1, x2, x3, x4⟩ := h.surj k hk
      exact ⟨x, fun _ => ⟨x1, x3, x4⟩⟩
    · exact ⟨0, fun h => absurd h hk⟩
  choose f hf using hsurj
  refine ⟨(Finset.range s.num).image f, ?_, ?_, ?_⟩
  · rw [Finset.card_image_of_injOn, Finset.card_range]
    intro a ha b hb e
    rw [Finset.coe_range] at ha hb
    have h1 := (hf a ha).2.2
    have h2 := (hf b hb).2.2
    rw [e] at h1
    omega
  · intro r hr
    rw [Finset.mem_image] at hr
    obtain ⟨k, hk, rfl⟩ := hr
    exact ⟨(hf k (Finset.mem_range.mp hk)).1, trivial⟩
  · intro x hx _
    have h1 := h.lt x hx (B.lt x hx)
    have h2 := (h.vis x hx).mpr (B.lt x hx)
    obtain ⟨k, hk⟩ : ∃ k : Nat, at' (-1) s.comp x = k := ⟨_, (Int.toNat_of_nonneg h2).symm⟩
    have hk' : k < s.num := by omega
    obtain ⟨f1, f2, f3⟩ := hf k hk'
    refine ⟨f k, ⟨Finset.mem_image.mpr ⟨k, Finset.mem_range.mpr hk', rfl⟩, (comp_iff B h hx f1).mp (by omega)⟩, ?_⟩
    rintro r ⟨hr, hs⟩
    rw [Finset.mem_image] at hr
    obtain ⟨j, hj, rfl⟩ := hr
    obtain ⟨g1, g2, g3⟩ := hf j (Finset.mem_range.mp hj)
    have := (comp_iff B h hx g1).mpr hs
    have : j = k := by omega
    rw [this]

theorem groups_tot (B : Built n E o v) {s : TwoEdge.St} (h : Inv n v n s) :
    Tot (groups o s) fun r => r.size = s.num ∧ ∀ k, k < s.num → at' [] r k = (List.range n).filter fun x => at' (-1) s.comp x = k := by
  unfold groups
  rw [B.built, B.size]
  refine (Tot.forUp (lo := 0) (hi := n) (P := fun i (r : Array (List Nat)) => r.size = s.num ∧ ∀ k, k < s.num → at' [] r k = (List.range i).filter fun x => at' (-1) s.comp x = k)
    (by omega) ⟨by simp, fun k hk => by simp [at', hk]⟩ ?_)
  rintro i r - hi ⟨h1, h2⟩
  have l1 := h.lt i hi (B.lt i hi)
  have l2 := (h.vis i hi).mpr (B.lt i hi)
  obtain ⟨c, hc⟩ : ∃ c : Nat, at' (-1) s.comp i = c := ⟨_, (Int.toNat_of_nonneg l2).symm⟩
  have sc : c < r.size := by omega
  rw [rd_at (-1) (by rw [h.sz]; exact hi), ok_bind, hc, Int.toNat_natCast, rd_at [] sc, ok_bind, wr_eq sc]
  refine tot_ok.mpr ⟨by simpa using h1, ?_⟩
  intro k hk
  rw [at_set [] sc, List.range_succ, List.filter_append]
  by_cases e : c = k
  · subst e
    rw [if_pos rfl, h2 c hk]
    simp [hc]
  · rw [if_neg e, h2 k hk]
    simp [hc]
    omega

/-- State of `reduced_forest` after the directed edges of the list `D` (source, target, number). -/
def RInv (s : TwoEdge.St) (D : Nat → Nat → Nat → Prop) (r : Array (List (Nat × Nat))) : Prop :=
  r.size = s.num ∧ ∀ k, k < s.num → (at' [] r k).Nodup ∧
    ∀ k' i : Nat, (k', i) ∈ at' [] r k ↔ ∃ x y, D x y i ∧ at' (-1) s.comp x = k ∧ at' (-1) s.comp y = k' ∧ k ≠ k'

theorem reduced_tot (B : Built n E o v) {s : TwoEdge.St} (h : Inv n v n s) : Tot (reducedForest o s) fun r => RInv s (Inc E) r := by
  unfold reducedForest
  rw [B.built, B.size]
  have cv : ∀ x, x < n → ∃ c : Nat, at' (-1) s.comp x = c ∧ c < s.num := by
    intro x hx
    have l1 := h.lt x hx (B.lt x hx)
    have l2 := (h.vis x hx).mpr (B.lt x hx)
    exact ⟨(at' (-1) s.comp x).toNat, by omega, by omega⟩
  refine (Tot.forUp (lo := 0) (hi := n) (P := fun u (r : Array (List (Nat × Nat))) => RInv s (fun x y i => x < u ∧ Inc E x y i) r)
    (by omega) ⟨by simp, fun k hk => by simp [at', hk]⟩ ?_).mono ?_
  · rintro u r - hu hr
    rw [rd_at [] (by rw [B.graph.size]; exact hu), ok_bind]
    refine (Tot.forEach (P := fun A (r : Array (List (Nat × Nat))) => RInv s (fun x y i => (x < u ∧ Inc E x y i) ∨ (x = u ∧ (y, i) ∈ A)) r) (by simpa using hr) ?_).mono ?_
    · rintro A ⟨y, i⟩ C r hA ⟨h1, h2⟩
      have hin : Inc E u y i := (B.graph.adj u hu y i).mp (by rw [hA]; simp)
      have hyn := (B.graph.bnd _ _ _ hin).2
      obtain ⟨cu, u1, u2⟩ := cv u hu
      obtain ⟨cy, y1, y2⟩ := cv y hyn
      unfold reducedStep
      dsimp only
      rw [rd_at (-1) (by rw [h.sz]; exact hu), ok_bind, rd_at (-1) (by rw [h.sz]; exact hyn), ok_bind, u1, y1]
      split_ifs with hc
      · have sc : cu < r.size := by omega
        rw [Int.toNat_natCast, Int.toNat_natCast, rd_at [] sc, ok_bind, wr_eq sc]
        refine tot_ok.mpr ⟨by simpa using h1, ?_⟩
        intro k hk
        rw [at_set [] sc]
        by_cases e : cu = k
        · subst e
          rw [if_pos rfl]
          obtain ⟨g1, g2⟩ := h2 cu hk
          refine ⟨?_, ?_⟩
          · refine List.nodup_append.mpr ⟨g1, List.nodup_singleton _, ?_⟩
            intro a ha b hb e
            rw [List.mem_singleton] at hb
            subst hb e
            obtain ⟨x, z, hD, k1, k2, k3⟩ := (g2 cy i).mp ha
            have huy : u ≠ y := by rintro rfl; omega
            rcases hD with ⟨d1, d2⟩ | ⟨rfl, d2⟩
            · rcases d2.ends hin with ⟨rfl, rfl⟩ | ⟨rfl, rfl⟩ <;> omega
            · have d3 : Inc E x z i := (B.graph.adj x hu z i).mp (by rw [hA]; exact List.mem_append_left _ d2)
              have hz : z = y := by
                rcases d3.ends hin with ⟨-, h⟩ | ⟨h, -⟩
                · exact h
                · exact absurd h huy
              subst hz
              have hnd := B.graph.nd x hu
              rw [hA, List.filter_append] at hnd
              have := (List.nodup_append.mp hnd).2.2 (z, i) (List.mem_filter.mpr ⟨d2, by simpa using fun e => huy e.symm⟩) (z, i)
                (List.mem_filter.mpr ⟨by simp, by simpa using fun e => huy e.symm⟩)
              exact this rfl
          · intro k' j
            rw [List.mem_append, List.mem_singleton, Prod.mk.injEq, g2 k' j]
            constructor
            · rintro (⟨x, z, hD, k1, k2, k3⟩ | ⟨rfl, rfl⟩)
              · refine ⟨x, z, ?_, k1, k2, k3⟩
                rcases hD with hD | ⟨d1, d2⟩
                · exact .inl hD
                · exact .inr ⟨d1, List.mem_append_left _ d2⟩
              · exact ⟨u, y, .inr ⟨rfl, by simp⟩, u1, y1, by omega⟩
            · rintro ⟨x, z, hD, k1, k2, k3⟩
              rcases hD with hD | ⟨d1, d2⟩
              · exact .inl ⟨x, z, .inl hD, k1, k2, k3⟩
              · rw [List.mem_append, List.mem_singleton, Prod.mk.injEq] at d2
                rcases d2 with d2 | ⟨rfl, rfl⟩
                · exact .inl ⟨x, z, .inr ⟨d1, d2⟩, k1, k2, k3⟩
                · right; exact ⟨by omega, rfl⟩
        · rw [if_neg e]
          obtain ⟨g1, g2⟩ := h2 k hk
          refine ⟨g1, ?_⟩
          intro k' j
          rw [g2 k' j]
          constructor
          · rintro ⟨x, z, hD, k1, k2, k3⟩
            refine ⟨x, z, ?_, k1, k2, k3⟩
            rcases hD with hD | ⟨d1, d2⟩
            · exact .inl hD
            · exact .inr ⟨d1, List.mem_append_left _ d2⟩
          · rintro ⟨x, z, hD, k1, k2, k3⟩
            refine ⟨x, z, ?_, k1, k2, k3⟩
            rcases hD with hD | ⟨d1, d2⟩
            · exact .inl hD
            · rw [List.mem_append, List.mem_singleton, Prod.mk.injEq] at d2
              rcases d2 with d2 | ⟨rfl, rfl⟩
              · exact .inr ⟨d1, d2⟩
              · subst d1; omega
      · refine Tot.pure ⟨h1, ?_⟩
        intro k hk
        obtain ⟨g1, g2⟩ := h2 k hk
        refine ⟨g1, ?_⟩
        intro k' j
        rw [g2 k' j]
        constructor
        · rintro ⟨x, z, hD, k1, k2, k3⟩
          refine ⟨x, z, ?_, k1, k2, k3⟩
          rcases hD with hD | ⟨d1, d2⟩
          · exact .inl hD
          · exact .inr ⟨d1, List.mem_append_left _ d2⟩
        · rintro ⟨x, z, hD, k1, k2, k3⟩
          refine ⟨x, z, ?_, k1, k2, k3⟩
          rcases hD with hD | ⟨d1, d2⟩
          · exact .inl hD
          · rw [List.mem_append, List.mem_singleton, Prod.mk.injEq] at d2
            rcases d2 with d2 | ⟨rfl, rfl⟩
            · exact .inr ⟨d1, d2⟩
            · subst d1; omega
    · rintro r' ⟨h1, h2⟩
      refine ⟨h1, fun k hk => ⟨(h2 k hk).1, fun k' j => ?_⟩⟩
      rw [(h2 k hk).2 k' j]
      constructor
      · rintro ⟨x, z, hD, k1⟩
        refine ⟨x, z, ?_, k1⟩
        rcases hD with hD | ⟨d1, d2⟩
        · exact ⟨by omega, hD.2⟩
        · subst d1; exact ⟨by omega, (B.graph.adj x hu z j).mp d2⟩
      · rintro ⟨x, z, hD, k1⟩
        refine ⟨x, z, ?_, k1⟩
        by_cases e : x = u
        · subst e; exact .inr ⟨rfl, (B.graph.adj x hu z j).mpr hD.2⟩
        · exact .inl ⟨by omega, hD.2⟩
  · rintro r ⟨h1, h2⟩
    refine ⟨h1, fun k hk => ⟨(h2 k hk).1, fun k' j => ?_⟩⟩
    rw [(h2 k hk).2 k' j]
    constructor
    · rintro ⟨x, z, hD, k1⟩; exact ⟨x, z, hD.2, k1⟩
    · rintro ⟨x, z, hD, k1⟩; exact ⟨x, z, ⟨(B.graph.bnd _ _ _ hD).1, hD⟩, k1⟩

theorem make_tot {es : List (Nat × Nat)} (h : ∀ e ∈ es, e.1 < n ∧ e.2 < n) : Tot (make n es) fun p => ∃ v, Built n es p.1 v ∧ Inv n v n p.2 := by
  unfold make
  refine Tot.bind (LowLink.make_tot h) ?_
  rintro o ⟨v, B⟩
  refine Tot.bind (dfsAll_tot B) ?_
  intro s hs
  exact Tot.pure ⟨v, B, hs⟩

end TwoEdge
