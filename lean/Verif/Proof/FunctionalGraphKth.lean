import Verif.Proof.FunctionalGraphPath

/-! # Functional graphs: `kth_iterate` -/

namespace FunctionalGraph
open Cxx

/-- The head lengths. -/
def Heads (nxt : Array Nat) (H : Nat → Nat) : Prop := ∀ u, u < nxt.size → ∃ l, Rho (fn nxt) u (H u) l

theorem heads_succ {nxt : Array Nat} (hc : Closed nxt) {H : Nat → Nat} (hH : Heads nxt H) {u : Nat} (hu : u < nxt.size) : H (fn nxt u) = H u - 1 := by
  obtain ⟨l, h1⟩ := hH u hu
  obtain ⟨l', h2⟩ := hH _ (hc u hu)
  cases e : H u with
  | zero => rw [e] at h1; exact (rho_unique h2 (rho_zero h1)).1
  | succ h => rw [e] at h1; exact (rho_unique h2 (rho_succ h1)).1

theorem heads_iter {nxt : Array Nat} (hc : Closed nxt) {H : Nat → Nat} (hH : Heads nxt H) {u : Nat} (hu : u < nxt.size) (j : Nat) : H ((fn nxt)^[j] u) = H u - j := by
  induction j with
  | zero => rfl
  | succ j ih => rw [Function.iterate_succ_apply', heads_succ hc hH (iter_lt hc hu j), ih]; omega

theorem heads_lt {nxt : Array Nat} (hc : Closed nxt) {H : Nat → Nat} (hH : Heads nxt H) {u : Nat} (hu : u < nxt.size) : H u < nxt.size := by
  obtain ⟨l, h⟩ := hH u hu
  have := rho_le hc hu h
  have := h.1
  omega

/-- The lists built from the paths. -/
structure KInv (nxt : Array Nat) (k : Int) (done : List Path) (s : KI) : Prop where
  fs : s.forest.size = nxt.size
  qz : s.qs.size = nxt.size
  roots : ∀ v : Nat, v ∈ s.roots ↔ ∃ p ∈ done, p.headV = v ∧ p.headLen = 0
  forest : ∀ x : Nat, x < nxt.size → ∃ l, s.forest[x]? = some l ∧ ∀ v : Nat, v ∈ l ↔ ∃ p ∈ done, p.headV = v ∧ 0 < p.headLen ∧ fn nxt v = x
  qs : ∀ x : Nat, x < nxt.size → ∃ l, s.qs[x]? = some l ∧ ∀ q : Int × Nat, q ∈ l ↔ ∃ p ∈ done, (p.headLen : Int) < k ∧ p.loopV = x ∧ q = (k - p.headLen, p.headV)

theorem kiPath_tot {nxt : Array Nat} (hc : Closed nxt) {k : Int} {done : List Path} {s : KI} (h : KInv nxt k done s) {p : Path} (hp : p.headV < nxt.size) (hl : p.loopV < nxt.size) :
    Tot (kiPath nxt k s p) (KInv nxt k (done ++ [p])) := by
  have split : ∀ P : Path → Prop, (∃ q ∈ done ++ [p], P q) ↔ (∃ q ∈ done, P q) ∨ P p := by
    intro P
    constructor
    · rintro ⟨q, hq, hP⟩
      rcases List.mem_append.1 hq with h | h
      · exact Or.inl ⟨q, h, hP⟩
      · rw [List.mem_singleton.1 h] at hP; exact Or.inr hP
    · rintro (⟨q, hq, hP⟩ | hP)
      · exact ⟨q, List.mem_append_left _ hq, hP⟩
      · exact ⟨p, by simp, hP⟩
  unfold kiPath
  refine Tot.bind (P := fun (s' : KI) => s'.forest.size = nxt.size ∧ s'.qs = s.qs ∧ (∀ v : Nat, v ∈ s'.roots ↔ ∃ q ∈ done ++ [p], q.headV = v ∧ q.headLen = 0) ∧
    ∀ x : Nat, x < nxt.size → ∃ l, s'.forest[x]? = some l ∧ ∀ v : Nat, v ∈ l ↔ ∃ q ∈ done ++ [p], q.headV = v ∧ 0 < q.headLen ∧ fn nxt v = x) ?_ ?_
  · unfold kiPlace
    by_cases h0 : p.headLen = 0
    · rw [if_pos h0]
      refine Tot.pure ⟨h.fs, rfl, fun v => ?_, fun x hx => ?_⟩
      · dsimp only
        rw [split, List.mem_append, h.roots, List.mem_singleton]
        constructor
        · rintro (h | rfl)
          · exact Or.inl h
          · exact Or.inr ⟨rfl, h0⟩
        · rintro (h | ⟨h, -⟩)
          · exact Or.inl h
          · exact Or.inr h.symm
      · obtain ⟨l, h1, h2⟩ := h.forest x hx
        refine ⟨l, h1, fun v => ?_⟩
        rw [split, h2]
        constructor
        · exact Or.inl
        · rintro (h | ⟨-, h, -⟩)
          · exact h
          · omega
    · rw [if_neg h0, show rd nxt p.headV = .ok (fn nxt p.headV) from rd_at 0 hp, ok_bind]
      have hw := hc _ hp
      obtain ⟨l, h1, h2⟩ := h.forest _ hw
      rw [rd_some h1, ok_bind, wr_eq (by rw [h.fs]; exact hw), ok_bind]
      refine Tot.pure ⟨by simpa using h.fs, rfl, fun v => ?_, fun x hx => ?_⟩
      · dsimp only
        rw [split, h.roots]
        constructor
        · exact Or.inl
        · rintro (h | ⟨-, h⟩)
          · exact h
          · exact absurd h h0
      · dsimp only
        rw [get?_set _ _ _ _ (by rw [h.fs]; exact hw)]
        by_cases e : fn nxt p.headV = x
        · subst e
          rw [if_pos rfl]
          refine ⟨_, rfl, fun v => ?_⟩
          rw [split, List.mem_append, h2, List.mem_singleton]
          constructor
          · rintro (h | rfl)
            · exact Or.inl h
            · exact Or.inr ⟨rfl, by omega, rfl⟩
          · rintro (h | ⟨h, -⟩)
            · exact Or.inl h
            · exact Or.inr h.symm
        · rw [if_neg e]
          obtain ⟨l', g1, g2⟩ := h.forest x hx
          refine ⟨l', g1, fun v => ?_⟩
          rw [split, g2]
          constructor
          · exact Or.inl
          · rintro (h | ⟨h1, -, h2⟩)
            · exact h
            · rw [h1] at e; exact absurd h2 e
  · rintro s' ⟨f1, f2, f3, f4⟩
    unfold kiQuery
    by_cases h0 : (p.headLen : Int) ≥ k
    · rw [if_pos h0]
      refine Tot.pure ⟨f1, by rw [f2]; exact h.qz, f3, f4, fun x hx => ?_⟩
      obtain ⟨l, h1, h2⟩ := h.qs x hx
      refine ⟨l, by rw [f2]; exact h1, fun q => ?_⟩
      rw [split, h2]
      constructor
      · exact Or.inl
      · rintro (h | ⟨h, -⟩)
        · exact h
        · omega
    · rw [if_neg h0, f2]
      obtain ⟨l, h1, h2⟩ := h.qs _ hl
      rw [rd_some h1, ok_bind, wr_eq (by rw [h.qz]; exact hl), ok_bind]
      refine Tot.pure ⟨f1, by simpa using h.qz, f3, f4, fun x hx => ?_⟩
      dsimp only
      rw [get?_set _ _ _ _ (by rw [h.qz]; exact hl)]
      by_cases e : p.loopV = x
      · subst e
        rw [if_pos rfl]
        refine ⟨_, rfl, fun q => ?_⟩
        rw [split, List.mem_append, h2, List.mem_singleton]
        constructor
        · rintro (h | rfl)
          · exact Or.inl h
          · exact Or.inr ⟨by omega, rfl, rfl⟩
        · rintro (h | ⟨-, -, h⟩)
          · exact Or.inl h
          · exact Or.inr h
      · rw [if_neg e]
        obtain ⟨l', g1, g2⟩ := h.qs x hx
        refine ⟨l', g1, fun q => ?_⟩
        rw [split, g2]
        constructor
        · exact Or.inl
        · rintro (h | ⟨-, h, -⟩)
          · exact h
          · exact absurd h e

/-- `w` hangs below `u`. -/
def Sub (nxt : Array Nat) (H : Nat → Nat) (u w : Nat) : Prop := ∃ j, (fn nxt)^[j] w = u ∧ H w = H u + j

/-- The results that the search has changed are right. -/
def Upd (nxt : Array Nat) (k : Nat) (res res' : Array Nat) : Prop := ∀ w : Nat, res'[w]? = res[w]? ∨ res'[w]? = some ((fn nxt)^[k] w)

theorem Upd.refl {nxt : Array Nat} {k : Nat} {res : Array Nat} : Upd nxt k res res := fun _ => Or.inl rfl

theorem Upd.trans {nxt : Array Nat} {k : Nat} {a b c : Array Nat} (h1 : Upd nxt k a b) (h2 : Upd nxt k b c) : Upd nxt k a c := by
  intro w
  rcases h2 w with h | h
  · rw [h]; exact h1 w
  · exact Or.inr h

theorem Upd.keep {nxt : Array Nat} {k : Nat} {a b : Array Nat} (h : Upd nxt k a b) {w : Nat} (hw : a[w]? = some ((fn nxt)^[k] w)) : b[w]? = some ((fn nxt)^[k] w) := by
  rcases h w with h | h
  · rw [h, hw]
  · exact h

theorem kdDfs_tot {nxt : Array Nat} (hc : Closed nxt) {H : Nat → Nat} (hH : Heads nxt H) {forest : Array (List Nat)}
    (hf : ∀ x : Nat, x < nxt.size → ∃ l, forest[x]? = some l ∧ ∀ v : Nat, v ∈ l ↔ v < nxt.size ∧ 0 < H v ∧ fn nxt v = x) (k : Nat) :
    ∀ (fuel : Nat) (s : KD) (u : Nat), u < nxt.size → s.1.size = nxt.size → s.2.size = nxt.size → (∀ j, j < H u → s.1[j]? = some ((fn nxt)^[H u - j] u)) → nxt.size + 1 ≤ fuel + H u →
      Tot (kdDfs forest k fuel s u (H u)) fun s' => s'.1.size = nxt.size ∧ s'.2.size = nxt.size ∧ (∀ j, j < H u → s'.1[j]? = s.1[j]?) ∧ Upd nxt k s.2 s'.2 ∧
        ∀ w, w < nxt.size → Sub nxt H u w → k ≤ H w → s'.2[w]? = some ((fn nxt)^[k] w) := by
  intro fuel
  induction fuel with
  | zero =>
    intro s u hu _ _ _ hh
    have := heads_lt hc hH hu
    omega
  | succ fuel ih =>
    intro s u hu s1 s2 hp hh
    have hHu := heads_lt hc hH hu
    unfold kdDfs
    rw [wr_eq (by omega), ok_bind]
    have hpath : ∀ j, j ≤ H u → (s.1.setIfInBounds (H u) u)[j]? = some ((fn nxt)^[H u - j] u) := by
      intro j hj
      rw [get?_set _ _ _ _ (by omega)]
      by_cases e : H u = j
      · rw [if_pos e, ← e, Nat.sub_self]; rfl
      · rw [if_neg e]; exact hp j (by omega)
    refine Tot.bind (P := fun (t : KD) => t.1 = s.1.setIfInBounds (H u) u ∧ t.2.size = nxt.size ∧ Upd nxt k s.2 t.2 ∧ (k ≤ H u → t.2[u]? = some ((fn nxt)^[k] u))) ?_ ?_
    · unfold kdSet
      by_cases hk : ((H u : Nat) : Int) ≥ (k : Int)
      · rw [if_pos hk]
        dsimp only
        have e : ((H u : Int) - (k : Int)).toNat = H u - k := by omega
        rw [e, rd_some (hpath (H u - k) (by omega)), ok_bind, wr_eq (by omega), ok_bind, show H u - (H u - k) = k by omega]
        refine Tot.pure ⟨rfl, by simpa using s2, fun w => ?_, fun _ => ?_⟩
        · dsimp only
          rw [get?_set _ _ _ _ (by omega)]
          by_cases e : u = w
          · subst e; rw [if_pos rfl]; exact Or.inr rfl
          · rw [if_neg e]; exact Or.inl rfl
        · dsimp only
          rw [get?_set _ _ _ _ (by omega), if_pos rfl]
      · rw [if_neg hk]
        exact Tot.pure ⟨rfl, s2, Upd.refl, fun h => absurd h (by omega)⟩
    · rintro ⟨t1, t2⟩ ⟨rfl, g2, g3, g4⟩
      dsimp only at g2 g3 g4
      obtain ⟨l, hl1, hl2⟩ := hf u hu
      rw [rd_some hl1, ok_bind]
      refine (Tot.forEach (P := fun (done : List Nat) (t : KD) => t.1.size = nxt.size ∧ t.2.size = nxt.size ∧ (∀ j, j ≤ H u → t.1[j]? = some ((fn nxt)^[H u - j] u)) ∧
        Upd nxt k s.2 t.2 ∧ (k ≤ H u → t.2[u]? = some ((fn nxt)^[k] u)) ∧ ∀ v ∈ done, ∀ w, w < nxt.size → Sub nxt H v w → k ≤ H w → t.2[w]? = some ((fn nxt)^[k] w)) ?_ ?_).mono ?_
      · exact ⟨by simpa using s1, g2, hpath, g3, g4, by simp⟩
      · rintro pre v post ⟨p1, p2⟩ e ⟨q1, q2, q3, q4, q5, q6⟩
        dsimp only at q1 q2 q3 q4 q5 q6
        obtain ⟨hv, hv0, hvu⟩ := (hl2 v).1 (by rw [e]; simp)
        have hHv : H v = H u + 1 := by
          have := heads_succ hc hH hv
          rw [hvu] at this; omega
        have := ih (p1, p2) v hv q1 q2 (by
          intro j hj
          dsimp only
          rw [q3 j (by omega), hHv, show H u + 1 - j = (H u - j) + 1 by omega, Function.iterate_succ_apply, hvu]) (by omega)
        rw [hHv] at this
        refine this.mono ?_
        rintro ⟨p1', p2'⟩ ⟨r1, r2, r3, r4, r5⟩
        dsimp only at r1 r2 r3 r4 r5 ⊢
        refine ⟨r1, r2, fun j hj => by rw [r3 j (by omega), q3 j hj], q4.trans r4, fun hk => r4.keep (q5 hk), fun v' hv' w hw hs hk => ?_⟩
        rcases List.mem_append.1 hv' with h | h
        · exact r4.keep (q6 v' h w hw hs hk)
        · rw [List.mem_singleton.1 h] at hs
          exact r5 w hw hs hk
      · rintro ⟨p1, p2⟩ ⟨q1, q2, q3, q4, q5, q6⟩
        dsimp only at q1 q2 q3 q4 q5 q6 ⊢
        refine ⟨q1, q2, fun j hj => by rw [q3 j (by omega), hp j hj], q4, fun w hw hs hk => ?_⟩
        obtain ⟨j, hj1, hj2⟩ := hs
        cases j with
        | zero =>
          rw [Function.iterate_zero_apply] at hj1
          subst hj1
          exact q5 hk
        | succ j =>
          have hv := iter_lt hc hw j
          have hHv := heads_iter hc hH hw j
          refine q6 ((fn nxt)^[j] w) ((hl2 _).2 ⟨hv, by omega, ?_⟩) w hw ⟨j, rfl, by omega⟩ hk
          rw [← hj1, Function.iterate_succ_apply']

theorem rho_mod {f : Nat → Nat} {u l : Nat} (hr : Rho f u 0 l) (m : Nat) : f^[m % l] u = f^[m] u := by
  have hper : ∀ t x, f^[t * l + x] u = f^[x] u := by
    intro t x
    induction t with
    | zero => rw [Nat.zero_mul, Nat.zero_add]
    | succ t ih =>
      rw [show (t + 1) * l + x = (t * l + x) + l by rw [Nat.succ_mul]; omega, Function.iterate_add_apply]
      have := hr.2.1
      rw [Nat.zero_add] at this
      rw [this]
      exact ih
  conv_rhs => rw [← Nat.div_add_mod m l, Nat.mul_comm]
  exact (hper _ _).symm

/-- The queries are right. -/
def QRep (nxt : Array Nat) (H : Nat → Nat) (k : Nat) (qs : Array (List (Int × Nat))) : Prop :=
  ∀ x : Nat, x < nxt.size → ∃ l, qs[x]? = some l ∧ ∀ q : Int × Nat, q ∈ l ↔ ∃ v, v < nxt.size ∧ H v < k ∧ (fn nxt)^[H v] v = x ∧ q = ((k : Int) - H v, v)

/-- The vertices of the cycle are dealt with. -/
structure CInv (nxt : Array Nat) (H : Nat → Nat) (k : Nat) (s : Array Bool × Array Nat) : Prop where
  z1 : s.1.size = nxt.size
  z2 : s.2.size = nxt.size
  seen : ∀ x : Nat, s.1[x]? = some true → ∀ v, v < nxt.size → H v < k → (fn nxt)^[H v] v = x → s.2[v]? = some ((fn nxt)^[k] v)
  long : ∀ v : Nat, v < nxt.size → k ≤ H v → s.2[v]? = some ((fn nxt)^[k] v)

theorem kqRun_tot {nxt : Array Nat} (hc : Closed nxt) {H : Nat → Nat} (hH : Heads nxt H) {k : Nat} (hk : k + nxt.size ≤ 2 ^ 63) {qs : Array (List (Int × Nat))} (hq : QRep nxt H k qs)
    {s : Array Bool × Array Nat} (hs : CInv nxt H k s) {root : Nat} (hr : root < nxt.size) (h0 : H root = 0) :
    Tot (kqRun nxt qs s root) fun s' => CInv nxt H k s' ∧ s'.1[root]? = some true ∧ ∀ x : Nat, s.1[x]? = some true → s'.1[x]? = some true := by
  obtain ⟨l, hl⟩ := hH root hr
  rw [h0] at hl
  have hl0 := hl.1
  have hln := rho_le hc hr hl
  have hlast : (fn nxt)^[l] root = root := by have := hl.2.1; rw [Nat.zero_add] at this; exact this
  unfold kqRun
  rw [show rd nxt root = .ok (fn nxt root) from rd_at 0 hr, ok_bind]
  refine Tot.bind (P := fun (c : List Nat × Nat) => c.1.length = l ∧ ∀ i, i < l → c.1[i]? = some ((fn nxt)^[i] root)) ?_ ?_
  · refine Tot.loopG (P := fun g (c : List Nat × Nat) => ∃ m, 1 ≤ m ∧ m ≤ l ∧ g + m = l ∧ c.1.length = m ∧ (∀ i, i < m → c.1[i]? = some ((fn nxt)^[i] root)) ∧ c.2 = (fn nxt)^[m] root)
      ?_ (k := l - 1) ⟨1, le_rfl, hl0, by omega, rfl, ?_, rfl⟩ (by omega)
    · rintro g ⟨c, v⟩ ⟨m, m1, m2, m3, m4, m5, m6⟩
      dsimp only at m4 m5 m6
      subst m6
      unfold cycleStep
      dsimp only
      by_cases e : (fn nxt)^[m] root = root
      · rw [if_neg (by simpa using e)]
        have : m = l := by
          by_contra hne
          exact hl.2.2 0 m (by omega) (by omega) e.symm
        subst this
        exact Tot.pure ⟨m4, m5⟩
      · rw [if_pos e, show rd nxt ((fn nxt)^[m] root) = .ok (fn nxt ((fn nxt)^[m] root)) from rd_at 0 (iter_lt hc hr m), ok_bind]
        have hml : m < l := by
          rcases Nat.lt_or_ge m l with h | h
          · exact h
          · obtain rfl : m = l := by omega
            exact absurd hlast e
        refine Tot.pure ⟨g - 1, by omega, m + 1, by omega, by omega, by omega, by simp [m4], fun i hi => ?_, by rw [Function.iterate_succ_apply']⟩
        dsimp only
        by_cases e' : i < m
        · rw [List.getElem?_append_left (by omega)]; exact m5 i e'
        · obtain rfl : i = m := by omega
          rw [List.getElem?_append_right (by omega), m4, Nat.sub_self]; rfl
    · intro i hi
      obtain rfl : i = 0 := by omega
      rfl
  · rintro ⟨c, v⟩ ⟨c1, c2⟩
    dsimp only at c1 c2 ⊢
    have hcs : c.toArray.size = l := by simpa using c1
    have hca : ∀ i, i < l → c.toArray[i]? = some ((fn nxt)^[i] root) := by
      intro i hi; rw [List.getElem?_toArray]; exact c2 i hi
    rw [c1]
    refine (Tot.forUp (P := fun i (t : Array Bool × Array Nat) => CInv nxt H k t ∧ (∀ j, j < i → t.1[(fn nxt)^[j] root]? = some true) ∧ ∀ x : Nat, s.1[x]? = some true → t.1[x]? = some true)
      (Nat.zero_le _) ⟨hs, fun j hj => absurd hj (Nat.not_lt_zero _), fun x hx => hx⟩ ?_).mono ?_
    · rintro i ⟨t1, t2⟩ - hi ⟨g, g2, g3⟩
      obtain ⟨z1, z2, gs, gl⟩ := g
      dsimp only at z1 z2 gs gl g2 g3
      unfold kqCycle
      dsimp only
      have hx := iter_lt hc hr i
      rw [rd_some (hca i hi), ok_bind, wr_eq (by omega), ok_bind]
      obtain ⟨ql, hq1, hq2⟩ := hq _ hx
      rw [rd_some hq1, ok_bind]
      refine Tot.bind (P := fun (r : Array Nat) => r.size = nxt.size ∧ Upd nxt k t2 r ∧ ∀ q ∈ ql, r[q.2]? = some ((fn nxt)^[k] q.2)) ?_ ?_
      · refine (Tot.forEach (P := fun (done : List (Int × Nat)) (r : Array Nat) => r.size = nxt.size ∧ Upd nxt k t2 r ∧ ∀ q ∈ done, r[q.2]? = some ((fn nxt)^[k] q.2)) ⟨z2, Upd.refl, by simp⟩ ?_)
        rintro pre q post r e ⟨r1, r2, r3⟩
        obtain ⟨v, hv, hHv, hvx, rfl⟩ := (hq2 q).1 (by rw [e]; simp)
        unfold kqOne
        dsimp only
        rw [i64_ok ⟨by omega, by omega⟩, ok_bind, hcs]
        have e1 : ((i : Int) + ((k : Int) - (H v : Int))) = ((i + (k - H v) : Nat) : Int) := by omega
        rw [e1]
        have e2 : (Int.tmod ((i + (k - H v) : Nat) : Int) (l : Int)).toNat = (i + (k - H v)) % l := by
          rw [← Int.ofNat_tmod]; exact Int.toNat_natCast _
        rw [e2, rd_some (hca _ (Nat.mod_lt _ hl0)), ok_bind, rho_mod hl]
        have e3 : (fn nxt)^[i + (k - H v)] root = (fn nxt)^[k] v := by
          rw [Nat.add_comm, Function.iterate_add_apply, ← hvx, ← Function.iterate_add_apply, show k - H v + H v = k by omega]
        rw [e3, wr_eq (by omega)]
        have hset : ∀ w : Nat, (r.setIfInBounds v ((fn nxt)^[k] v))[w]? = if v = w then some ((fn nxt)^[k] v) else r[w]? := fun w => get?_set _ _ _ _ (by omega)
        have hupd : Upd nxt k r (r.setIfInBounds v ((fn nxt)^[k] v)) := by
          intro w
          rw [hset]
          by_cases e' : v = w
          · subst e'; rw [if_pos rfl]; exact Or.inr rfl
          · rw [if_neg e']; exact Or.inl rfl
        refine tot_ok.2 ⟨by simpa using r1, r2.trans hupd, fun q hq => ?_⟩
        rcases List.mem_append.1 hq with h | h
        · exact hupd.keep (r3 q h)
        · rw [List.mem_singleton.1 h]
          dsimp only
          rw [hset, if_pos rfl]
      · rintro r ⟨r1, r2, r3⟩
        have hset : ∀ w : Nat, (t1.setIfInBounds ((fn nxt)^[i] root) true)[w]? = if (fn nxt)^[i] root = w then some true else t1[w]? := fun w => get?_set _ _ _ _ (by omega)
        refine Tot.pure ⟨⟨by simpa using z1, r1, fun x hx' v hv hHv hvx => ?_, fun v hv hkv => r2.keep (gl v hv hkv)⟩, fun j hj => ?_, fun x hx' => ?_⟩
        · dsimp only at hx' ⊢
          rw [hset] at hx'
          by_cases e : (fn nxt)^[i] root = x
          · exact r3 ((k : Int) - H v, v) ((hq2 _).2 ⟨v, hv, hHv, by rw [hvx, e], rfl⟩)
          · rw [if_neg e] at hx'
            exact r2.keep (gs x hx' v hv hHv hvx)
        · dsimp only
          rw [hset]
          by_cases e : (fn nxt)^[i] root = (fn nxt)^[j] root
          · rw [if_pos e]
          · rw [if_neg e]
            refine g2 j ?_
            rcases Nat.lt_or_ge j i with h | h
            · exact h
            · obtain rfl : j = i := by omega
              exact absurd rfl e
        · dsimp only
          rw [hset]
          by_cases e : (fn nxt)^[i] root = x
          · rw [if_pos e]
          · rw [if_neg e]; exact g3 x hx'
    · rintro t ⟨g1, g2, g3⟩
      exact ⟨g1, g2 0 hl0, g3⟩

theorem kthIterate_tot {nxt : Array Nat} (hc : Closed nxt) {k : Nat} (hk : k + nxt.size ≤ 2 ^ 63) :
    Tot (kthIterate nxt k) fun res => res.size = nxt.size ∧ ∀ u, u < nxt.size → res[u]? = some ((fn nxt)^[k] u) := by
  unfold kthIterate
  rw [show check (decide ((k : Int) ≥ 0)) = .ok () by rw [decide_eq_true (by omega)]; rfl, ok_bind]
  dsimp only
  refine Tot.bind (infinitePaths_tot hc) ?_
  rintro paths ⟨ps, pg⟩
  have hget : ∀ u, u < nxt.size → ∃ r, paths[u]? = some r ∧ Good (fn nxt) u r := pg
  obtain ⟨H, hHdef⟩ : ∃ H : Nat → Nat, H = fun u => (at' ⟨0, 0, 0, 0⟩ paths u).headLen := ⟨_, rfl⟩
  have hHr : ∀ u r, paths[u]? = some r → H u = r.headLen := by
    intro u r h; rw [hHdef]; simp [at', h]
  have hH : Heads nxt H := by
    intro u hu
    obtain ⟨r, h1, h2⟩ := hget u hu
    rw [hHr u r h1]
    exact ⟨_, h2.2.1⟩
  have hmem : ∀ p, p ∈ paths.toList → p.headV < nxt.size ∧ paths[p.headV]? = some p ∧ Good (fn nxt) p.headV p := by
    intro p hp
    obtain ⟨i, hi, e⟩ := List.mem_iff_getElem.1 hp
    have hi' : i < nxt.size := by rw [← ps]; simpa using hi
    have hpi : paths[i]? = some p := by
      rw [← Array.getElem?_toList, List.getElem?_eq_getElem hi, e]
    obtain ⟨r, h1, h2⟩ := hget i hi'
    rw [hpi] at h1; cases h1
    rw [h2.1]
    exact ⟨hi', hpi, h2⟩
  have hmem' : ∀ v, v < nxt.size → ∃ p ∈ paths.toList, p.headV = v ∧ p.headLen = H v ∧ p.loopV = (fn nxt)^[H v] v := by
    intro v hv
    obtain ⟨r, h1, h2⟩ := hget v hv
    refine ⟨r, ?_, h2.1, (hHr v r h1).symm, by rw [hHr v r h1]; exact h2.2.2⟩
    rw [← Array.getElem?_toList] at h1
    exact List.mem_of_getElem? h1
  have hmemH : ∀ p, p ∈ paths.toList → p.headLen = H p.headV ∧ p.loopV = (fn nxt)^[H p.headV] p.headV := by
    intro p hp
    obtain ⟨h1, h2, h3⟩ := hmem p hp
    rw [hHr _ _ h2]
    exact ⟨rfl, h3.2.2⟩
  refine Tot.bind (P := KInv nxt k paths.toList) ?_ ?_
  · refine Tot.forEach (P := fun done s => KInv nxt k done s) ⟨by simp, by simp, by simp, ?_, ?_⟩ ?_
    · intro x hx
      exact ⟨[], by simp [hx], by simp⟩
    · intro x hx
      exact ⟨[], by simp [hx], by simp⟩
    · rintro pre p post s e h
      have hp : p ∈ paths.toList := by rw [e]; simp
      obtain ⟨h1, h2, h3⟩ := hmem p hp
      exact kiPath_tot hc h h1 (by rw [h3.2.2]; exact iter_lt hc h1 _)
  · rintro s ⟨fs, qz, hroots, hforest, hqs⟩
    have hroots' : ∀ v, v ∈ s.roots ↔ v < nxt.size ∧ H v = 0 := by
      intro v
      rw [hroots]
      constructor
      · rintro ⟨p, hp, rfl, h0⟩
        exact ⟨(hmem p hp).1, by rw [← (hmemH p hp).1, h0]⟩
      · rintro ⟨hv, h0⟩
        obtain ⟨p, h1, h2, h3, -⟩ := hmem' v hv
        exact ⟨p, h1, h2, by rw [h3, h0]⟩
    have hforest' : ∀ x : Nat, x < nxt.size → ∃ l, s.forest[x]? = some l ∧ ∀ v : Nat, v ∈ l ↔ v < nxt.size ∧ 0 < H v ∧ fn nxt v = x := by
      intro x hx
      obtain ⟨l, h1, h2⟩ := hforest x hx
      refine ⟨l, h1, fun v => ?_⟩
      rw [h2]
      constructor
      · rintro ⟨p, hp, rfl, h0, h3⟩
        exact ⟨(hmem p hp).1, by rw [← (hmemH p hp).1]; exact h0, h3⟩
      · rintro ⟨hv, h0, h3⟩
        obtain ⟨p, g1, g2, g3, -⟩ := hmem' v hv
        exact ⟨p, g1, g2, by rw [g3]; exact h0, h3⟩
    have hqs' : QRep nxt H k s.qs := by
      intro x hx
      obtain ⟨l, h1, h2⟩ := hqs x hx
      refine ⟨l, h1, fun q => ?_⟩
      rw [h2]
      constructor
      · rintro ⟨p, hp, h0, h3, h4⟩
        obtain ⟨m1, m2⟩ := hmemH p hp
        exact ⟨p.headV, (hmem p hp).1, by omega, by rw [← m2, h3], by rw [h4, m1]⟩
      · rintro ⟨v, hv, h0, h3, h4⟩
        obtain ⟨p, g1, g2, g3, g4⟩ := hmem' v hv
        exact ⟨p, g1, by omega, by rw [g4, h3], by rw [h4, g3, g2]⟩
    refine Tot.bind (P := fun (d : KD) => d.2.size = nxt.size ∧ ∀ w : Nat, w < nxt.size → k ≤ H w → d.2[w]? = some ((fn nxt)^[k] w)) ?_ ?_
    · refine (Tot.forEach (P := fun (done : List Nat) (d : KD) => d.1.size = nxt.size ∧ d.2.size = nxt.size ∧
        ∀ r ∈ done, ∀ w : Nat, w < nxt.size → Sub nxt H r w → k ≤ H w → d.2[w]? = some ((fn nxt)^[k] w)) ⟨by simp, by simp, by simp⟩ ?_).mono ?_
      · rintro pre r post d e ⟨d1, d2, d3⟩
        obtain ⟨hr, h0⟩ := (hroots' r).1 (by rw [e]; simp)
        have := kdDfs_tot hc hH hforest' k (nxt.size + 1) d r hr d1 d2 (by rw [h0]; intro j hj; exact absurd hj (Nat.not_lt_zero _)) (by omega)
        rw [h0] at this
        refine this.mono ?_
        rintro d' ⟨g1, g2, g3, g4, g5⟩
        refine ⟨g1, g2, fun r' hr' w hw hs hkw => ?_⟩
        rcases List.mem_append.1 hr' with h | h
        · exact g4.keep (d3 r' h w hw hs hkw)
        · rw [List.mem_singleton.1 h] at hs
          exact g5 w hw hs hkw
      · rintro d ⟨d1, d2, d3⟩
        refine ⟨d2, fun w hw hkw => ?_⟩
        have hz : H ((fn nxt)^[H w] w) = 0 := by rw [heads_iter hc hH hw]; omega
        exact d3 _ ((hroots' _).2 ⟨iter_lt hc hw _, hz⟩) w hw ⟨H w, rfl, by omega⟩ hkw
    · rintro d ⟨d2, d3⟩
      refine Tot.bind (P := fun (t : Array Bool × Array Nat) => CInv nxt H k t ∧ ∀ r ∈ s.roots, t.1[r]? = some true) ?_ ?_
      · refine Tot.forEach (P := fun (done : List Nat) (t : Array Bool × Array Nat) => CInv nxt H k t ∧ ∀ r ∈ done, t.1[r]? = some true) ⟨⟨by simp, d2, ?_, d3⟩, by simp⟩ ?_
        · intro x hx
          dsimp only at hx
          rw [Array.getElem?_replicate] at hx
          split at hx <;> cases hx
        · rintro pre r post t e ⟨t1, t2⟩
          obtain ⟨hr, h0⟩ := (hroots' r).1 (by rw [e]; simp)
          unfold kqRoot
          obtain ⟨b, hb⟩ : ∃ b, t.1[r]? = some b := ⟨_, Array.getElem?_eq_getElem (by rw [t1.z1]; exact hr)⟩
          rw [rd_some hb, ok_bind]
          cases b with
          | true =>
            rw [if_pos rfl]
            refine Tot.pure ⟨t1, fun r' hr' => ?_⟩
            rcases List.mem_append.1 hr' with h | h
            · exact t2 r' h
            · rw [List.mem_singleton.1 h]; exact hb
          | false =>
            rw [if_neg (by simp)]
            refine (kqRun_tot hc hH hk hqs' t1 hr h0).mono ?_
            rintro t' ⟨g1, g2, g3⟩
            refine ⟨g1, fun r' hr' => ?_⟩
            rcases List.mem_append.1 hr' with h | h
            · exact g3 r' (t2 r' h)
            · rw [List.mem_singleton.1 h]; exact g2
      · rintro t ⟨t1, t2⟩
        refine Tot.pure ⟨t1.z2, fun u hu => ?_⟩
        rcases Nat.lt_or_ge (H u) k with h | h
        · have hz : H ((fn nxt)^[H u] u) = 0 := by rw [heads_iter hc hH hu]; omega
          exact t1.seen _ (t2 _ ((hroots' _).2 ⟨iter_lt hc hu _, hz⟩)) u hu h rfl
        · exact t1.long u hu h

end FunctionalGraph
