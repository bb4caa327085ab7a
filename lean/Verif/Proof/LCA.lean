import Verif.Model.LCA
import Verif.Proof.RMQpm1b
import Verif.Proof.EulerTour

/-! # Helper lemmas for `LowestCommonAncestor` -/

namespace LCA
open Cxx Tree Graph

/-- Depths along the tour. -/
def dts : Forest → Int → List Int
  | .nil, _ => []
  | .cons _ ch rest, d => (d + 1) :: (dts ch (d + 1) ++ d :: dts rest d)

theorem dts_length (F : Forest) (p : Nat) : ∀ d, (dts F d).length = (tour F p).length := by
  induction F generalizing p with
  | nil => intro d; rfl
  | cons v ch rest ih1 ih2 =>
    intro d
    simp only [dts, tour, List.length_cons, List.length_append, ih1 v, ih2 p]

theorem depth_left {p v : Nat} {ch rest : Forest} (hn : (p :: (Forest.cons v ch rest).pre).Nodup) {x : Nat} (hx : x = v ∨ x ∈ ch.pre) :
    Tree.depth p (.cons v ch rest) x = Tree.depth v ch x + 1 := by
  have h1 := rpath_length p (.cons v ch rest) x
  have h2 := rpath_length v ch x
  rw [rpath_cons_left hn hx, List.length_cons] at h1
  omega

theorem depth_right {p v : Nat} {ch rest : Forest} (hn : (p :: (Forest.cons v ch rest).pre).Nodup) {x : Nat} (hx : x = p ∨ x ∈ rest.pre) :
    Tree.depth p (.cons v ch rest) x = Tree.depth p rest x := by
  unfold Tree.depth; rw [rpath_cons_right hn hx]

theorem depth_root (r : Nat) (F : Forest) : Tree.depth r F r = 0 := by unfold Tree.depth; rw [rpath_root]; rfl

/-- The depths are those of the vertices of the tour. -/
theorem dts_eq (F : Forest) : ∀ (p : Nat) (d : Int), (p :: F.pre).Nodup → d :: dts F d = (p :: tour F p).map fun x => d + Tree.depth p F x := by
  induction F with
  | nil => intro p d _; simp [dts, tour, depth_root]
  | cons v ch rest ih1 ih2 =>
    intro p d hn
    have hn' := hn
    rw [Forest.pre, List.nodup_cons, List.nodup_cons, List.mem_cons, List.mem_append, List.mem_append, List.nodup_append] at hn'
    obtain ⟨m1, m2, m3, m4, m5⟩ := hn'
    have n1 : (v :: ch.pre).Nodup := List.nodup_cons.2 ⟨fun h => m2 (Or.inl h), m3⟩
    have n2 : (p :: rest.pre).Nodup := List.nodup_cons.2 ⟨fun h => m1 (Or.inr (Or.inr h)), m4⟩
    have e1 := ih1 v (d + 1) n1
    have e2 := ih2 p d n2
    rw [dts, tour, List.map_cons, depth_root, ← List.cons_append (as := dts ch (d + 1)), ← List.cons_append (as := tour ch v), List.map_append, e1, e2]
    simp only [Nat.cast_zero, add_zero]
    congr 2
    · apply List.map_congr_left
      intro x hx
      rw [depth_left hn (tour_mem hx)]; push_cast; ring
    · apply List.map_congr_left
      intro x hx
      rw [depth_right hn (tour_mem hx)]

/-- Neighbours on the tour differ by one in depth. -/
theorem dts_chain (F : Forest) : ∀ d : Int, List.IsChain (fun a b => b - a = 1 ∨ b - a = -1) (d :: dts F d) ∧ (d :: dts F d).getLast? = some d := by
  induction F with
  | nil => intro d; simp [dts]
  | cons v ch rest ih1 ih2 =>
    intro d
    obtain ⟨a1, a2⟩ := ih1 (d + 1)
    obtain ⟨b1, b2⟩ := ih2 d
    rw [dts, ← List.cons_append]
    refine ⟨?_, ?_⟩
    · refine List.IsChain.cons (List.isChain_append.2 ⟨a1, b1, ?_⟩) ?_
      · intro x hx y hy
        rw [a2] at hx
        simp at hx hy
        subst hx; subst hy
        right; ring
      · intro y hy
        simp at hy
        subst hy
        left; ring
    · rw [List.getLast?_cons, List.getLast?_append, b2]; rfl

structure Inv (s : St) (N : Nat) (n : Nat) (X : List Nat) (D : List Int) (V : Nat → Prop) : Prop where
  i1 : s.idx.size = n
  i2 : s.dep.size = N
  i3 : s.tour.size = N
  k : s.k = X.length
  tour : s.tour.toList.take s.k = X
  dep : s.dep.toList.take s.k = D
  idx : ∀ x, V x → X[at' 0 s.idx x]? = some x

theorem take_set_succ {α : Type} (a : Array α) (k : Nat) (x : α) (h : k < a.size) : (a.setIfInBounds k x).toList.take (k + 1) = a.toList.take k ++ [x] := by
  rw [Array.toList_setIfInBounds, List.take_succ_eq_append_getElem (by simpa using h)]
  congr 1
  · rw [List.take_set_of_le (le_refl k)]
  · simp

theorem visit_tot {s : St} {N n : Nat} {X : List Nat} {D : List Int} {V : Nat → Prop} (h : Inv s N n X D V) {u : Nat} (d : Int) (hu : u < n) (hk : X.length < N) :
    Tot (visit u d s) fun s' => Inv s' N n (X ++ [u]) (D ++ [d]) (fun x => V x ∨ x = u) := by
  obtain ⟨h1, h2, h3, h4, h5, h6, h7⟩ := h
  unfold visit
  rw [wr_eq (by omega), ok_bind, wr_eq (by omega), ok_bind, wr_eq (by omega), ok_bind]
  refine Tot.pure ⟨by simpa using h1, by simpa using h2, by simpa using h3, by simp [h4], ?_, ?_, ?_⟩
  · dsimp only; rw [take_set_succ _ _ _ (by omega), h5]
  · dsimp only; rw [take_set_succ _ _ _ (by omega), h6]
  · intro x hx
    dsimp only
    rw [at_set' 0 (by omega)]
    by_cases c : x = u
    · subst c
      rw [if_pos rfl, h4]; simp
    · rw [if_neg c]
      have := h7 x (hx.resolve_right c)
      rw [List.getElem?_append_left (List.getElem?_eq_some_iff.1 this).1]
      exact this

theorem kids_dfs {g : Array (List Nat)} {N : Nat} (F : Forest) : ∀ (u : Nat) (p : Option Nat) (d : Int) (fuel : Nat) (l : List Nat) (s : St) (X : List Nat) (D : List Int) (V : Nat → Prop),
    (l.filter fun w => decide (some w ≠ p)) = F.roots → F.Fits g (some u) → F.height ≤ fuel → u < g.size → X.length + 2 * F.size ≤ N → 0 ≤ d → d + F.height < 2 ^ 31 →
    Inv s N g.size X D V → V u →
    Tot (forEach l s (kid u p d (dfs g fuel))) fun s' => Inv s' N g.size (X ++ tour F u) (D ++ dts F d) (fun x => V x ∨ x ∈ F.pre) := by
  induction F with
  | nil =>
    intro u p d fuel l s X D V hl hf hh hu hN hd1 hd2 hI hVu
    rw [kids_nil (q := fun w => decide (some w ≠ p)) (fun s x hx => by simp at hx; rw [kid, if_neg (by simp [hx])]; rfl) hl]
    refine Tot.pure ?_
    simpa [tour, dts, Forest.pre] using hI
  | cons w ch rest ih1 ih2 =>
    intro u p d fuel l s X D V hl hf hh hu hN hd1 hd2 hI hVu
    obtain ⟨hw, f1, f2, f3⟩ := hf
    simp only [Forest.height] at hh hd2
    rw [Forest.size_cons] at hN
    obtain ⟨fuel, rfl⟩ : ∃ f, fuel = f + 1 := ⟨fuel - 1, by omega⟩
    have hwp : some w ≠ p := by
      obtain ⟨a, b, -, -, h, -⟩ := kids_cons hl
      simpa using h
    refine kids_tot (q := fun w => decide (some w ≠ p)) (R := rest.roots) (v := w) (fun s x hx => by simp at hx; rw [kid, if_neg (by simp [hx])]; rfl) hl ?_
    rw [kid, if_pos hwp, i32_ok ⟨by omega, by omega⟩, ok_bind, dfs]
    refine Tot.bind (visit_tot hI (d + 1) hw (by omega)) fun s1 hI1 => ?_
    rw [rd_some (adj_eq hw), ok_bind]
    refine Tot.bind (ih1 w (some u) (d + 1) fuel (adj g w) s1 _ _ _ f1.symm f2 (by omega) hw (by simp; omega) (by omega) (by omega) hI1 (Or.inr rfl)) fun s2 hI2 => ?_
    rw [back, i32_ok ⟨by omega, by omega⟩, ok_bind]
    refine (visit_tot hI2 _ hu (by simp [tour_length]; omega)).mono fun s3 hI3 b hb hbR => ?_
    refine (ih2 u p d (fuel + 1) b s3 _ _ _ hbR f3 (by omega) hu (by simp [tour_length]; omega) hd1 (by omega) hI3 (Or.inr rfl)).mono fun s4 hI4 => ?_
    have e1 : X ++ tour (.cons w ch rest) u = X ++ [w] ++ tour ch w ++ [u] ++ tour rest u := by simp [tour]
    have e2 : D ++ dts (.cons w ch rest) d = D ++ [d + 1] ++ dts ch (d + 1) ++ [d + 1 - 1] ++ dts rest d := by simp [dts]
    rw [e1, e2]
    refine ⟨hI4.i1, hI4.i2, hI4.i3, hI4.k, hI4.tour, hI4.dep, fun x hx => hI4.idx x ?_⟩
    rw [Forest.pre, List.mem_cons, List.mem_append] at hx
    tauto

structure Built (lg : Nat) (g : Array (List Nat)) (r : Nat) (F : Forest) (t : Obj) : Prop where
  rooted : Rooted g r F
  tour : t.tour.toList = r :: tour F r
  dep : t.dep.toList = (r :: Tree.tour F r).map fun x => (Tree.depth r F x : Int)
  isize : t.idx.size = g.size
  idx : ∀ x, x < g.size → (r :: Tree.tour F r)[at' 0 t.idx x]? = some x
  pm : RMQpm1.Pm1 t.dep
  rmq : RMQpm1.Made (RMQpm1.Kind.indexed true) true lg t.dep t.rmq

theorem depth_lt {g : Array (List Nat)} (hg : IsTree g) {r : Nat} {F : Forest} (h : Rooted g r F) {x : Nat} (hx : x < g.size) : Tree.depth r F x < g.size :=
  EulerTour.Built.depth_lt hg h hx

theorem at_toList {a : Array Int} {i : Nat} {v : Int} (h : a.toList[i]? = some v) : at' 0 a i = v := by
  unfold at'
  rw [Array.getElem?_toList] at h
  rw [h]; rfl

theorem make_tot (lg : Nat) {g : Array (List Nat)} (hg : IsTree g) (hsz : g.size ≤ 2 ^ 28) {r : Nat} {F : Forest} (h : Rooted g r F) : Tot (make lg g r) (Built lg g r F) := by
  have hr := h.lt
  have hfs := EulerTour.rooted_size h
  have hh := F.height_le
  unfold make
  rw [if_neg (by omega)]
  obtain ⟨fuel, hfu⟩ : ∃ f, g.size = f + 1 := ⟨g.size - 1, by omega⟩
  refine Tot.bind (P := fun s' => Inv s' (2 * g.size - 1) g.size (r :: tour F r) (0 :: dts F 0) (fun x => x = r ∨ x ∈ F.pre)) ?_ fun s hI => ?_
  · have h0 : Inv ⟨0, Array.replicate g.size 0, Array.replicate (2 * g.size - 1) 0, Array.replicate (2 * g.size - 1) 0⟩ (2 * g.size - 1) g.size [] [] (fun _ => False) :=
      ⟨by simp, by simp, by simp, rfl, by simp, by simp, by simp⟩
    have hd : dfs g g.size r none 0 = dfs g (fuel + 1) r none 0 := by rw [hfu]
    rw [hd, dfs]
    refine Tot.bind (visit_tot h0 0 hr (by simp; omega)) fun s1 hI1 => ?_
    rw [rd_some (adj_eq hr), ok_bind]
    refine Tot.bind (kids_dfs F r none 0 fuel (adj g r) s1 _ _ _ (by rw [h.roots]; simp) h.fits (by omega) hr (by simp; omega) (le_refl _) (by omega) hI1 (Or.inr rfl)) fun s2 hI2 => ?_
    rw [back]
    refine Tot.pure ⟨hI2.i1, hI2.i2, hI2.i3, hI2.k, hI2.tour, hI2.dep, fun x hx => hI2.idx x (by tauto)⟩
  have hlen : (r :: tour F r).length = 2 * g.size - 1 := by rw [List.length_cons, tour_length]; omega
  have hT : s.tour.toList = r :: tour F r := by
    rw [← hI.tour, List.take_of_length_le]; rw [hI.k, hlen, Array.length_toList, hI.i3]
  have hD : s.dep.toList = 0 :: dts F 0 := by
    rw [← hI.dep, List.take_of_length_le]; rw [hI.k, hlen, Array.length_toList, hI.i2]
  have hD2 : s.dep.toList = (r :: tour F r).map fun x => (Tree.depth r F x : Int) := by
    rw [hD, dts_eq F r 0 h.nodup]; simp
  have hat : ∀ i, i < s.dep.size → ∃ x, (r :: tour F r)[i]? = some x ∧ at' 0 s.dep i = Tree.depth r F x ∧ x < g.size := by
    intro i hi
    have hi' : i < (r :: tour F r).length := by rw [hlen, ← hI.i2]; exact hi
    refine ⟨_, List.getElem?_eq_getElem hi', at_toList ?_, (h.lt_iff _).2 (tour_mem (List.getElem_mem hi'))⟩
    rw [hD2, List.getElem?_map, List.getElem?_eq_getElem hi']; rfl
  have hpm : RMQpm1.Pm1 s.dep := by
    intro i hi
    unfold RMQpm1.prev
    by_cases c : i = 0
    · rw [if_pos c, c]; left; ring
    · rw [if_neg c]
      have hc := (dts_chain F 0).1
      rw [← hD] at hc
      obtain ⟨j, rfl⟩ : ∃ j, i = j + 1 := ⟨i - 1, by omega⟩
      have := List.isChain_iff_getElem.1 hc j (by rw [Array.length_toList]; omega)
      rw [show j + 1 - 1 = j from rfl, at_toList (List.getElem?_eq_getElem (show j + 1 < s.dep.toList.length by rw [Array.length_toList]; omega)),
        at_toList (List.getElem?_eq_getElem (show j < s.dep.toList.length by rw [Array.length_toList]; omega))]
      exact this
  refine Tot.bind (RMQpm1.make_tot (RMQpm1.indexed_lawful true) lg (0, 0) (by rw [hI.i2]; omega) ?_ hpm) fun q hq => ?_
  · intro i hi
    obtain ⟨x, -, e, hx⟩ := hat i hi
    have := depth_lt hg h hx
    rw [e]
    exact ⟨by omega, by omega⟩
  · exact Tot.pure ⟨h, hT, hD2, hI.i1, fun x hx => hI.idx x ((h.lt_iff x).1 hx), hpm, hq⟩

variable {lg : Nat} {g : Array (List Nat)} {r : Nat} {F : Forest} {t : Obj}

theorem Built.dep_at (b : Built lg g r F t) {i x : Nat} (h : (r :: Tree.tour F r)[i]? = some x) : at' 0 t.dep i = Tree.depth r F x := by
  apply at_toList
  rw [b.dep, List.getElem?_map, h]; rfl

theorem Built.size (b : Built lg g r F t) : t.dep.size = (r :: Tree.tour F r).length := by
  rw [← Array.length_toList, b.dep, List.length_map]

theorem look_tot (hg : IsTree g) (hsz : g.size ≤ 2 ^ 28) (b : Built lg g r F t) {i j u v : Nat} (hij : i ≤ j) (hi : (r :: Tree.tour F r)[i]? = some u) (hj : (r :: Tree.tour F r)[j]? = some v) :
    Tot (look lg t i j) fun w => w < g.size ∧ ∀ a, a ∈ rpath r F w ↔ a ∈ rpath r F u ∧ a ∈ rpath r F v := by
  have hjl := (List.getElem?_eq_some_iff.1 hj).1
  have hin : ∀ i, i < t.dep.size → RMQpm1.In (at' 0 t.dep i) := by
    intro i hi
    rw [b.size] at hi
    have e := List.getElem?_eq_getElem hi
    have := depth_lt hg b.rooted ((b.rooted.lt_iff _).2 (tour_mem (List.mem_of_getElem? e)))
    rw [b.dep_at e]
    exact ⟨by omega, by omega⟩
  obtain ⟨x, x1, ⟨k, k1, k2, k3⟩, x2⟩ := tour_lca F r b.rooted.nodup i j u v hij hi hj
  have hxl : x < g.size := (b.rooted.lt_iff x).2 (tour_mem (List.mem_of_getElem? k3))
  unfold look
  refine Tot.bind (RMQpm1.query_tot (RMQpm1.indexed_lawful true) hin b.pm b.rmq (l := i) (r := j + 1) (by rw [b.size]; omega)) fun q hq => ?_
  rcases hq with ⟨h, -⟩ | ⟨m, ⟨m1, m2⟩, rfl, m3⟩
  · exact absurd ⟨le_rfl, by omega⟩ (h i)
  have hml : m < (r :: Tree.tour F r).length := by omega
  have hm := List.getElem?_eq_getElem hml
  obtain ⟨w, hw⟩ : ∃ w, w = (r :: Tree.tour F r)[m] := ⟨_, rfl⟩
  rw [← hw] at hm
  have hk : at' 0 t.dep m ≤ at' 0 t.dep k := m3 k ⟨k1, by omega⟩
  rw [b.dep_at hm, b.dep_at k3] at hk
  have hwx : x = w := anc_eq b.rooted.nodup (tour_mem (List.mem_of_getElem? hm)) (x2 m w m1 (by omega) hm) (by omega)
  show Tot (if ((m : Nat) : Int) < 0 then .error .ub else rd t.tour ((m : Nat) : Int).toNat) _
  rw [if_neg (by omega), Int.toNat_natCast, rd_some (x := w) (by rw [← Array.getElem?_toList, b.tour]; exact hm)]
  exact (tot_ok ..).2 (hwx ▸ ⟨hxl, x1⟩)

theorem lca_tot (hg : IsTree g) (hsz : g.size ≤ 2 ^ 28) (b : Built lg g r F t) {u v : Nat} (hu : u < g.size) (hv : v < g.size) :
    Tot (lca lg t u v) fun w => w < g.size ∧ ∀ a, a ∈ rpath r F w ↔ a ∈ rpath r F u ∧ a ∈ rpath r F v := by
  have s := b.isize
  rw [lca, rd_at 0 (by omega), ok_bind, rd_at 0 (by omega), ok_bind]
  by_cases h : at' 0 t.idx u ≤ at' 0 t.idx v
  · rw [if_pos h]
    exact look_tot hg hsz b h (b.idx u hu) (b.idx v hv)
  · rw [if_neg h]
    refine (look_tot hg hsz b (by omega) (b.idx v hv) (b.idx u hu)).mono fun w hw => ⟨hw.1, fun a => ?_⟩
    rw [hw.2, and_comm]

theorem dist_tot (hg : IsTree g) (hsz : g.size ≤ 2 ^ 28) (b : Built lg g r F t) {u v : Nat} (hu : u < g.size) (hv : v < g.size) :
    Tot (dist lg t u v) fun d => ∃ k : Nat, d = k ∧ Dist g u v k := by
  have s := b.isize
  have hdl : ∀ x, x < g.size → at' 0 t.idx x < t.dep.size := fun x hx => by rw [b.size]; exact (List.getElem?_eq_some_iff.1 (b.idx x hx)).1
  have hdu := depth_lt hg b.rooted hu
  have hdv := depth_lt hg b.rooted hv
  rw [dist, rd_at 0 (by omega), ok_bind, rd_at 0 (hdl u hu), ok_bind, rd_at 0 (by omega), ok_bind, rd_at 0 (hdl v hv), ok_bind, b.dep_at (b.idx u hu), b.dep_at (b.idx v hv),
    i32_ok ⟨by omega, by omega⟩, ok_bind]
  refine Tot.bind (lca_tot hg hsz b hu hv) ?_
  rintro w ⟨hw, hw'⟩
  obtain ⟨h1, h2, h3, -⟩ := b.rooted.dist_of_lca hg hu hv hw' hw
  rw [rd_at 0 (by omega), ok_bind, rd_at 0 (hdl w hw), ok_bind, b.dep_at (b.idx w hw), i32_ok ⟨by omega, by omega⟩, ok_bind, i32_ok ⟨by omega, by omega⟩]
  exact Tot.pure ⟨_, by omega, h1⟩

end LCA
