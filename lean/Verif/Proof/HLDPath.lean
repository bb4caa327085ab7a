import Verif.Proof.HLDQuery
import Mathlib.Algebra.BigOperators.Group.List.Basic

/-! # Path queries of the heavy light decomposition -/

namespace HLD
open Cxx Graph Tree

variable {g : Array (List Nat)} {r : Nat} {F : Forest} {t : St}

theorem forEach_app {σ α : Type} (xs ys : List α) (s : σ) (f : σ → α → M σ) : forEach (xs ++ ys) s f = forEach xs s f >>= fun s => forEach ys s f := by
  induction xs generalizing s with
  | nil => rfl
  | cons x xs ih =>
    rw [List.cons_append, forEach, forEach, bind_assoc]
    congr 1
    funext s
    exact ih s

/-- The vertices visited in a half open range of times. -/
def seg (t : St) (q : Nat × Nat) : List Nat := times t q.1 (q.2 - q.1)

namespace Built

theorem path_loop (b : Built g r F t) (hg : IsTree g) (k : Nat) : ∀ (u v : Nat), u < g.size → v < g.size → at' 0 t.visit u + at' 0 t.visit v = k →
    ∃ (rs : List (Nat × Nat)) (u' v' : Nat), u' < g.size ∧ v' < g.size ∧ at' 0 t.visit u' ≤ at' 0 t.visit v' ∧ at' 0 t.head u' = at' 0 t.head v' ∧
      (∀ a, a ∈ rpath r F u' ∧ a ∈ rpath r F v' ↔ a ∈ rpath r F u ∧ a ∈ rpath r F v) ∧
      (∀ π π', IsPath t.g u v π → IsPath t.g u' v' π' → π.Perm (π' ++ rs.flatMap (seg t))) ∧ (∀ q ∈ rs, q.1 ≤ q.2 ∧ q.2 ≤ g.size) ∧
      rs.length + Nat.log 2 ((Forest.tree r F).sub u) + Nat.log 2 ((Forest.tree r F).sub v) ≤ 2 * Nat.log 2 g.size ∧
      ∀ (σ : Type) (f : Nat → Nat → σ → M σ) (x : σ) (fuel : Nat), k + 1 ≤ fuel →
        loop (pathStep t f) fuel (false, u, v, x) = forEach rs x (fun s q => f q.1 q.2 s) >>= fun y => .ok (true, u', v', y) := by
  induction k using Nat.strongRecOn with
  | ind k ih =>
    intro u v hu hv hk
    have hg' := b.tree hg
    have sz := b.gsz
    have s1 := b.vsz
    have s2 := b.hsz
    obtain ⟨x', y', ho, h1, h2, h3, h4⟩ := b.order_spec hu hv
    have h5 : at' 0 t.visit x' + at' 0 t.visit y' = k := by rcases h4 with ⟨rfl, rfl⟩ | ⟨rfl, rfl⟩ <;> omega
    have h6 : ∀ a, a ∈ rpath r F x' ∧ a ∈ rpath r F y' ↔ a ∈ rpath r F u ∧ a ∈ rpath r F v := fun a => by
      rcases h4 with ⟨rfl, rfl⟩ | ⟨rfl, rfl⟩
      · rfl
      · exact And.comm
    have h7 : ∀ π, IsPath t.g u v π → ∃ π', IsPath t.g x' y' π' ∧ π.Perm π' := fun π hπ => by
      rcases h4 with ⟨rfl, rfl⟩ | ⟨rfl, rfl⟩
      · exact ⟨π, hπ, List.Perm.refl _⟩
      · exact ⟨π.reverse, path_reverse hg' hπ, (List.reverse_perm π).symm⟩
    have h8 : Nat.log 2 ((Forest.tree r F).sub u) + Nat.log 2 ((Forest.tree r F).sub v) = Nat.log 2 ((Forest.tree r F).sub x') + Nat.log 2 ((Forest.tree r F).sub y') := by
      rcases h4 with ⟨rfl, rfl⟩ | ⟨rfl, rfl⟩ <;> omega
    have hstep : ∀ (σ : Type) (f : Nat → Nat → σ → M σ) (x : σ), pathStep t f (false, u, v, x) = if at' 0 t.head x' = at' 0 t.head y' then .ok (some (true, x', y', x)) else
        f (at' 0 t.visit (at' 0 t.head y')) (at' 0 t.visit y' + 1) x >>= fun z => up t y' >>= fun p => .ok (some (false, x', p, z)) := by
      intro σ f x
      have := (b.chain h2).1
      rw [pathStep, if_neg (by simp)]
      dsimp only
      rw [ho, ok_bind]
      dsimp only
      rw [rd_at 0 (by omega), ok_bind, rd_at 0 (by omega), ok_bind]
      split
      · rfl
      · rw [rd_at 0 (by omega), ok_bind, rd_at 0 (by omega), ok_bind]; rfl
    by_cases he : at' 0 t.head x' = at' 0 t.head y'
    · refine ⟨[], x', y', h1, h2, h3, he, h6, fun π π' hπ hπ' => ?_, by simp, ?_, fun σ f x fuel hf => ?_⟩
      · obtain ⟨π₁, p1, p2⟩ := h7 π hπ
        rw [(hg'.path x' y' (by omega) (by omega)).unique hπ' p1]
        simpa using p2
      · have e1 := Nat.log_mono_right (b := 2) (b.sub_le hu).2
        have e2 := Nat.log_mono_right (b := 2) (b.sub_le hv).2
        simp; omega
      · obtain ⟨fuel, rfl⟩ : ∃ f, fuel = f + 1 := ⟨fuel - 1, by omega⟩
        rw [loop, hstep, if_pos he, ok_bind]
        dsimp only
        have hend : pathStep t f (true, x', y', x) = .ok none := by rw [pathStep, if_pos rfl]; rfl
        cases fuel with
        | zero => rw [loop, hend, ok_bind]; rfl
        | succ n => rw [loop, hend, ok_bind]; rfl
    · have hn := b.head_not h1 h2 h3 he
      obtain ⟨p, hp, q1, q2, q3, q4⟩ := b.up_tot h1 h2 hn
      obtain ⟨rs, u', v', i1, i2, i3, i4, i5, i6, i7, i8, i9⟩ := ih (at' 0 t.visit x' + at' 0 t.visit p) (by omega) x' p h1 q1 rfl
      have hc := b.chain h2
      have hly := b.visLt h2
      refine ⟨(at' 0 t.visit (at' 0 t.head y'), at' 0 t.visit y' + 1) :: rs, u', v', i1, i2, i3, i4, fun a => ?_, fun π π' hπ hπ' => ?_, ?_, ?_, fun σ f x fuel hf => ?_⟩
      · rw [i5, ← b.common_up h2 hn q3, h6]
      · obtain ⟨π₁, p1, p2⟩ := h7 π hπ
        obtain ⟨π₂, p3, -⟩ := hg'.path x' p (by omega) (by omega)
        have p4 := b.path_up hg h1 h2 q1 q4 (b.common_up h2 hn q3) p3
        have p5 := (hg'.path x' y' (by omega) (by omega)).unique p1 p4
        have p6 := i6 π₂ π' p3 hπ'
        rw [p5] at p2
        refine p2.trans ((p6.append_right _).trans ?_)
        rw [List.flatMap_cons, List.append_assoc]
        exact List.Perm.append_left _ List.perm_append_comm
      · intro q hq
        rcases List.mem_cons.1 hq with rfl | hq
        · exact ⟨by dsimp only; omega, by dsimp only; omega⟩
        · exact i7 q hq
      · have := b.up_log hg h2 q1 q3
        rw [List.length_cons]
        omega
      · obtain ⟨fuel, rfl⟩ : ∃ f, fuel = f + 1 := ⟨fuel - 1, by omega⟩
        rw [loop, hstep, if_neg he, forEach, bind_assoc, bind_assoc]
        congr 1
        funext z
        rw [hp, ok_bind, ok_bind]
        exact i9 σ f z fuel (by omega)

theorem updatePath_eq (b : Built g r F t) (hg : IsTree g) {u v : Nat} (hu : u < g.size) (hv : v < g.size) (edge : Bool) :
    ∃ (rs : List (Nat × Nat)) (w : Nat), w < g.size ∧ (∀ a, a ∈ rpath r F w ↔ a ∈ rpath r F u ∧ a ∈ rpath r F v) ∧ rs.length ≤ 2 * Nat.log 2 g.size + 1 ∧ (∀ q ∈ rs, q.1 ≤ q.2 ∧ q.2 ≤ g.size) ∧
      (∀ π, IsPath t.g u v π → (rs.flatMap (seg t)).Perm (if edge then π.erase w else π)) ∧
      ∀ (σ : Type) (f : Nat → Nat → σ → M σ) (x : σ), updatePath t f u v edge x = forEach rs x fun s q => f q.1 q.2 s := by
  obtain ⟨rs, u', v', i1, i2, i3, i4, i5, i6, i7, i8, i9⟩ := b.path_loop hg _ u v hu hv rfl
  have s1 := b.vsz
  have hU := b.visLt hu
  have hV := b.visLt hv
  have hV' := b.visLt i2
  have hp' := b.path_same hg i1 i2 i3 i4
  refine ⟨rs ++ [(at' 0 t.visit u' + edge.toNat, at' 0 t.visit v' + 1)], u', i1, fun a => ?_, ?_, ?_, fun π hπ => ?_, fun σ f x => ?_⟩
  · rw [← i5 a]
    refine ⟨fun h => ⟨h, ?_⟩, fun h => h.1⟩
    rw [b.same_chain i1 i2 i3 i4]; exact List.mem_append_left _ h
  · rw [List.length_append, List.length_singleton]; omega
  · intro q hq
    rcases List.mem_append.1 hq with hq | hq
    · exact i7 q hq
    · rw [List.mem_singleton.1 hq]
      have := Bool.toNat_le edge
      exact ⟨by dsimp only; omega, by dsimp only; omega⟩
  · have h1 := i6 π _ hπ hp'
    rw [List.flatMap_append, List.flatMap_cons, List.flatMap_nil, List.append_nil]
    cases edge with
    | true =>
      rw [if_pos rfl]
      have h2 := h1.erase u'
      rw [List.cons_append, List.erase_cons_head] at h2
      refine (List.perm_append_comm.trans ?_).trans h2.symm
      rw [seg]
      dsimp only
      rw [show (true : Bool).toNat = 1 from rfl, show at' 0 t.visit v' + 1 - (at' 0 t.visit u' + 1) = at' 0 t.visit v' - at' 0 t.visit u' by omega]
    | false =>
      rw [if_neg (by simp)]
      refine (List.perm_append_comm.trans ?_).trans h1.symm
      rw [seg]
      dsimp only
      rw [show (false : Bool).toNat = 0 from rfl, Nat.add_zero, show at' 0 t.visit v' + 1 - at' 0 t.visit u' = (at' 0 t.visit v' - at' 0 t.visit u') + 1 by omega, times_cons, b.ordVis i1]
  · rw [updatePath, i9 σ f x _ (by omega), forEach_app, bind_assoc]
    congr 1
    funext y
    rw [ok_bind]
    dsimp only
    rw [rd_at 0 (by omega), ok_bind, rd_at 0 (by omega), ok_bind, forEach]
    simp only [forEach]
    cases f (at' 0 t.visit u' + edge.toNat) (at' 0 t.visit v' + 1) y <;> rfl

theorem foldPath_tot {T : Type} [CommMonoid T] (b : Built g r F t) (hg : IsTree g) (val : Nat → T) {q : Nat → Nat → M T} (hq : ∀ l h, l ≤ h → h ≤ g.size → q l h = .ok ((seg t (l, h)).map val).prod)
    {u v : Nat} (hu : u < g.size) (hv : v < g.size) (edge : Bool) :
    Tot (foldPath t (· * ·) q u v 1 edge) fun x => ∃ w, w < g.size ∧ (∀ a, a ∈ rpath r F w ↔ a ∈ rpath r F u ∧ a ∈ rpath r F v) ∧ ∀ π, IsPath t.g u v π → x = ((if edge then π.erase w else π).map val).prod := by
  obtain ⟨rs, w, h1, h2, -, h4, h5, h6⟩ := b.updatePath_eq hg hu hv edge
  rw [foldPath, h6]
  refine (Tot.forEach (P := fun pre x => x = ((pre.flatMap (seg t)).map val).prod) (by simp) ?_).mono fun x hx => ⟨w, h1, h2, fun π hπ => ?_⟩
  · intro pre q' post s he hs
    obtain ⟨k1, k2⟩ := h4 q' (by rw [he]; simp)
    rw [hq _ _ k1 k2, ok_bind]
    refine Tot.pure ?_
    rw [hs, List.flatMap_append, List.map_append, List.prod_append, mul_comm]
    simp
  · rw [hx]
    exact ((h5 π hπ).map val).prod_eq

/-- The step of the search for the level ancestor. -/
theorem la_tot (b : Built g r F t) {u : Nat} (hu : u < g.size) (hsz : g.size ≤ 2 ^ 30) {k : Nat} (hk : k < 2 ^ 31) :
    Tot (la t u k) fun o => ∀ w, o = some w ↔ w ∈ rpath r F u ∧ Tree.depth r F w + k = Tree.depth r F u := by
  have hnd := b.rooted.nodup
  have s1 := b.vsz
  have s2 := b.hsz
  have s3 := b.psz
  have s4 := b.osz
  rw [la, if_neg (by omega)]
  refine Tot.bind (Tot.loopG (P := fun m (s : Option Nat × Int × Option Nat) => ∃ K : Nat, s.2.1 = K ∧ K < 2 ^ 31 ∧ match s.1, s.2.2 with
      | none, o => o = none ∧ ∀ w, ¬ (w ∈ rpath r F u ∧ Tree.depth r F w + k = Tree.depth r F u)
      | some x, some w => x < g.size ∧ ∀ w', w = w' ↔ w' ∈ rpath r F u ∧ Tree.depth r F w' + k = Tree.depth r F u
      | some x, none => x < g.size ∧ at' 0 t.visit x + 1 ≤ m ∧ ∀ w, (w ∈ rpath r F x ∧ Tree.depth r F w + K = Tree.depth r F x) ↔ (w ∈ rpath r F u ∧ Tree.depth r F w + k = Tree.depth r F u))
    (Q := fun s => ∀ w, s.2.2 = some w ↔ w ∈ rpath r F u ∧ Tree.depth r F w + k = Tree.depth r F u) (k := at' 0 t.visit u + 1) ?_ ⟨k, rfl, hk, hu, Nat.le_refl _, fun w => Iff.rfl⟩ ?_) fun s hs => Tot.pure hs
  · rintro m ⟨x, kk, o⟩ ⟨K, hK, hK2, hP⟩
    dsimp only at hK hP
    subst hK
    cases x with
    | none =>
      obtain ⟨rfl, hP⟩ := hP
      rw [laStep]
      refine Tot.pure fun w => ⟨(fun h => by simp at h), fun h => absurd h (hP w)⟩
    | some x =>
      cases o with
      | some w =>
        rw [laStep]
        refine Tot.pure fun w' => ?_
        dsimp only
        rw [Option.some.injEq]
        exact hP.2 w'
      | none =>
        obtain ⟨hx, hm, hP⟩ := hP
        obtain ⟨c1, c2, c3⟩ := b.chain hx
        have hvx := b.visLt hx
        rw [laStep]
        dsimp only
        rw [rd_at 0 (by omega), ok_bind, rd_at 0 (by omega), ok_bind, rd_at 0 (by omega), ok_bind, i32_ok ⟨by omega, by omega⟩, ok_bind]
        split
        · rename_i hd
          have hj : (((at' 0 t.visit x : Nat) : Int) - K).toNat = at' 0 t.visit x - K := by omega
          rw [hj, rd_at 0 (by omega), ok_bind]
          refine Tot.pure ⟨m - 1, by omega, K, rfl, hK2, hx, fun w' => ?_⟩
          obtain ⟨d1, d2⟩ := c3 (at' 0 t.visit x - K) (by omega) (by omega)
          have hol := b.ordLt (j := at' 0 t.visit x - K) (by omega)
          have hmem : at' 0 t.ord (at' 0 t.visit x - K) ∈ rpath r F x := by rw [d2]; exact List.mem_append_left _ (b.self hol)
          have hdep : Tree.depth r F (at' 0 t.ord (at' 0 t.visit x - K)) + K = Tree.depth r F x := by
            have := congrArg List.length d2
            rw [List.length_append, rpath_length, rpath_length, times_length] at this
            omega
          rw [← hP w']
          constructor
          · rintro rfl; exact ⟨hmem, hdep⟩
          · rintro ⟨e1, e2⟩
            have p1 := rpath_prefix hnd hmem
            have p2 := rpath_prefix hnd e1
            have p3 := List.prefix_of_prefix_length_le p1 p2 (by rw [rpath_length, rpath_length]; omega)
            have p4 := p3.eq_of_length_le (by rw [rpath_length, rpath_length]; omega)
            have p5 := rpath_last ((b.rooted.lt_iff _).1 (by rw [b.gsz]; exact hol))
            rw [p4, rpath_last (rpath_sub e1)] at p5
            exact (Option.some.inj p5).symm
        · rename_i hd
          rw [i32_ok ⟨by omega, by omega⟩, ok_bind, i32_ok ⟨by omega, by omega⟩, ok_bind, rd_at none (by omega), ok_bind]
          obtain ⟨d1, d2⟩ := c3 _ (Nat.le_refl _) c2
          rw [b.ordVis c1] at d1 d2
          have hdl : Tree.depth r F x = Tree.depth r F (at' 0 t.head x) + (at' 0 t.visit x - at' 0 t.visit (at' 0 t.head x)) := by
            have := congrArg List.length d2
            rw [List.length_append, rpath_length, rpath_length, times_length] at this
            omega
          have hhx := (b.chain_head hx).1
          cases hp : at' none t.par (at' 0 t.head x) with
          | none =>
            have hr := (b.parNone c1).1 hp
            refine Tot.pure ⟨m - 1, by omega, K - (at' 0 t.visit x - at' 0 t.visit (at' 0 t.head x) + 1), by dsimp only; omega, by omega, rfl, fun w hw => ?_⟩
            rw [← hP w] at hw
            rw [hr, LevelAncestor.depth_root] at hdl
            rw [hr] at hd c2
            omega
          | some p =>
            obtain ⟨q1, q2⟩ := (b.parE c1).1 hp
            have hdp := parent_depth q2
            have hph : p ∈ rpath r F (at' 0 t.head x) := by rw [q2]; exact List.mem_append_left _ (b.self q1)
            have hvp : at' 0 t.visit p < at' 0 t.visit (at' 0 t.head x) := by
              have := ((b.range q1 c1).1 hph).1
              have : at' 0 t.visit p ≠ at' 0 t.visit (at' 0 t.head x) := by
                intro e
                rw [← b.visInj q1 c1 e] at hdp
                omega
              omega
            refine Tot.pure ⟨m - 1, by omega, K - (at' 0 t.visit x - at' 0 t.visit (at' 0 t.head x) + 1), by dsimp only; omega, by omega, q1, by omega, fun w => ?_⟩
            rw [← hP w]
            constructor
            · rintro ⟨e1, e2⟩
              exact ⟨rpath_trans hnd (rpath_trans hnd e1 hph) hhx, by omega⟩
            · rintro ⟨e1, e2⟩
              refine ⟨?_, by omega⟩
              have p0 : p ∈ rpath r F x := rpath_trans hnd hph hhx
              have p1 := rpath_prefix hnd p0
              have p2 := rpath_prefix hnd e1
              have p3 := List.prefix_of_prefix_length_le p2 p1 (by rw [rpath_length, rpath_length]; omega)
              exact p3.subset (rpath_self (rpath_sub e1))
  · have := b.visLt hu
    omega

end Built

end HLD
