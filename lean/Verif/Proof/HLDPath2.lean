import Verif.Proof.HLDPath

/-! # Further queries of the heavy light decomposition -/

namespace HLD
open Cxx Graph Tree

variable {g : Array (List Nat)} {r : Nat} {F : Forest} {t : St}

namespace Built

theorem depth_lt (b : Built g r F t) (hg : IsTree g) {x : Nat} (hx : x < g.size) : Tree.depth r F x < g.size := by
  have := LevelAncestor.depth_lt (b.tree hg) b.rooted (x := x) (by rw [b.gsz]; exact hx)
  rwa [b.gsz] at this

theorem dist_tot (b : Built g r F t) (hg : IsTree g) (hsz : g.size ≤ 2 ^ 29) {u v : Nat} (hu : u < g.size) (hv : v < g.size) : Tot (dist t u v) fun d => ∃ k : Nat, d = k ∧ Dist t.g u v k := by
  have s := b.dsz
  have e := b.gsz
  rw [dist, rd_at 0 (by omega), ok_bind, rd_at 0 (by omega), ok_bind]
  refine Tot.bind (b.lca_tot hu hv) fun w ⟨hw, hh⟩ => ?_
  obtain ⟨h1, h2, h3, -⟩ := b.rooted.dist_of_lca (b.tree hg) (u := u) (v := v) (by omega) (by omega) hh (by omega)
  have d1 := b.depth_lt hg hu
  have d2 := b.depth_lt hg hv
  have d3 := b.depth_lt hg hw
  rw [rd_at 0 (by omega), ok_bind, b.dep u hu, b.dep v hv, b.dep w hw, i32_ok ⟨by omega, by omega⟩, ok_bind, i32_ok ⟨by omega, by omega⟩, ok_bind, i32_ok ⟨by omega, by omega⟩]
  exact Tot.pure ⟨_, by omega, h1⟩

/-- The path between `u` and `v` through their lowest common ancestor; level ancestors are its elements. -/
theorem path_get (b : Built g r F t) {u w : Nat} {s : List Nat} (hu : u < g.size) (he : rpath r F u = rpath r F w ++ s) {k x : Nat} (hk : k ≤ s.length) (hw : w < g.size)
    (hx : x ∈ rpath r F u ∧ Tree.depth r F x + k = Tree.depth r F u) : (s.reverse ++ [w])[k]? = some x := by
  have hnd := b.rooted.nodup
  have e := b.gsz
  obtain ⟨l, hl⟩ := rpath_prefix hnd hx.1
  have hxl : x < g.size := by rw [← b.gsz]; exact b.rooted.mem_lt hx.1
  have lx := rpath_last ((b.rooted.lt_iff x).1 (by omega))
  have lw := rpath_last ((b.rooted.lt_iff w).1 (by omega))
  have n1 := rpath_length r F x
  have n2 := rpath_length r F u
  have n3 := rpath_length r F w
  have m1 := congrArg List.length hl
  have m2 := congrArg List.length he
  rw [List.length_append] at m1 m2
  have hix : (rpath r F u)[Tree.depth r F x]? = some x := by
    rw [← hl, List.getElem?_append_left (by omega)]
    rw [List.getLast?_eq_getElem?, n1, Nat.add_sub_cancel] at lx
    exact lx
  by_cases hks : k = s.length
  · have hd : Tree.depth r F x = Tree.depth r F w := by omega
    rw [hd, he, List.getElem?_append_left (by omega)] at hix
    rw [List.getLast?_eq_getElem?, n3, Nat.add_sub_cancel] at lw
    rw [lw] at hix
    rw [hks, List.getElem?_append_right (by simp)]
    simp at hix ⊢
    exact hix
  · rw [List.getElem?_append_left (by rw [List.length_reverse]; omega), List.getElem?_reverse (by omega)]
    rw [he, List.getElem?_append_right (by omega)] at hix
    rw [← hix]
    congr 1
    omega

theorem jump_tot (b : Built g r F t) (hg : IsTree g) (hsz : g.size ≤ 2 ^ 29) {u v : Nat} (hu : u < g.size) (hv : v < g.size) {d : Nat} (hd : d < 2 ^ 31) {π : List Nat} (hπ : IsPath t.g u v π) :
    Tot (jump t u v d) fun o => o = π[d]? := by
  have sd := b.dsz
  have e := b.gsz
  have hg' := b.tree hg
  rw [jump, if_neg (by omega)]
  refine Tot.bind (b.lca_tot hu hv) fun w ⟨hw, hh⟩ => ?_
  obtain ⟨-, h2, h3, s, t', e1, e2, e3⟩ := b.rooted.dist_of_lca hg' (u := u) (v := v) (by omega) (by omega) hh (by omega)
  have hpe : π = s.reverse ++ w :: t' := (hg'.path u v (by omega) (by omega)).unique hπ e3
  have d1 := b.depth_lt hg hu
  have d2 := b.depth_lt hg hv
  have d3 := b.depth_lt hg hw
  have l1 : s.length = Tree.depth r F u - Tree.depth r F w := by
    have := congrArg List.length e1
    rw [List.length_append, rpath_length, rpath_length] at this; omega
  have l2 : t'.length = Tree.depth r F v - Tree.depth r F w := by
    have := congrArg List.length e2
    rw [List.length_append, rpath_length, rpath_length] at this; omega
  rw [rd_at 0 (by omega), ok_bind, rd_at 0 (by omega), ok_bind, b.dep u hu, b.dep w hw, i32_ok ⟨by omega, by omega⟩, ok_bind]
  have ex : ∀ x k, x < g.size → k ≤ Tree.depth r F x → ∃ a, a ∈ rpath r F x ∧ Tree.depth r F a + k = Tree.depth r F x := fun x k hx hk => by
    obtain ⟨a, a1, a2⟩ := exists_anc b.rooted.nodup ((b.rooted.lt_iff x).1 (by omega)) (d := Tree.depth r F x - k) (by omega)
    exact ⟨a, a1, by omega⟩
  split
  · rename_i hdu
    refine (b.la_tot hu (by omega) hd).mono fun o ho => ?_
    obtain ⟨a, a1, a2⟩ := ex u d hu (by omega)
    rw [(ho a).2 ⟨a1, a2⟩, hpe]
    have := b.path_get hu e1 (k := d) (by omega) hw ⟨a1, a2⟩
    refine this.symm.trans ?_
    rw [show s.reverse ++ w :: t' = (s.reverse ++ [w]) ++ t' by simp]
    exact (List.getElem?_append_left (by simp; omega)).symm
  · rename_i hdu
    rw [rd_at 0 (by omega), ok_bind, b.dep v hv, i32_ok ⟨by omega, by omega⟩, ok_bind, i32_ok ⟨by omega, by omega⟩, ok_bind]
    split
    · rename_i hdl
      rw [i32_ok ⟨by omega, by omega⟩, ok_bind]
      obtain ⟨k, hk⟩ : ∃ k : Nat, (Tree.depth r F u : Int) - Tree.depth r F w + ((Tree.depth r F v : Int) - Tree.depth r F w) - d = k := ⟨s.length + t'.length - d, by omega⟩
      rw [hk]
      refine (b.la_tot hv (by omega) (by omega)).mono fun o ho => ?_
      obtain ⟨a, a1, a2⟩ := ex v k hv (by omega)
      rw [(ho a).2 ⟨a1, a2⟩, hpe]
      have := b.path_get hv e2 (k := k) (by omega) hw ⟨a1, a2⟩
      refine this.symm.trans ?_
      have e4 : (s.reverse ++ w :: t')[d]? = (w :: t')[d - s.length]? := by
        rw [List.getElem?_append_right (by rw [List.length_reverse]; omega), List.length_reverse]
      rw [e4, show t'.reverse ++ [w] = (w :: t').reverse by simp, List.getElem?_reverse (by simp; omega)]
      congr 1
      simp only [List.length_cons]
      omega
    · rename_i hdl
      refine Tot.pure ?_
      rw [hpe, List.getElem?_eq_none]
      simp
      omega

theorem foldNC_tot {T : Type} [Monoid T] (b : Built g r F t) (hg : IsTree g) (val : Nat → T) {q q' : Nat → Nat → M T} (hq : ∀ l h, l ≤ h → h ≤ g.size → q l h = .ok ((seg t (l, h)).map val).prod)
    (hq' : ∀ l h, l ≤ h → h ≤ g.size → q' l h = .ok ((seg t (l, h)).reverse.map val).prod)
    {u v : Nat} (hu : u < g.size) (hv : v < g.size) (edge : Bool) {π : List Nat} (hπ : IsPath t.g u v π) :
    Tot (foldPathNC t (· * ·) q q' u v 1 edge) fun x => ∃ w, w < g.size ∧ (∀ a, a ∈ rpath r F w ↔ a ∈ rpath r F u ∧ a ∈ rpath r F v) ∧ x = ((if edge then π.erase w else π).map val).prod := by
  have hg' := b.tree hg
  have sz := b.gsz
  have s1 := b.vsz
  have s2 := b.hsz
  have hU := b.visLt hu
  have hV := b.visLt hv
  rw [foldPathNC]
  refine Tot.bind (Tot.loop (P := fun s : FS T => s.u < g.size ∧ s.v < g.size ∧ (∀ a, a ∈ rpath r F s.u ∧ a ∈ rpath r F s.v ↔ a ∈ rpath r F u ∧ a ∈ rpath r F v) ∧
      ∃ A B, s.ru = (A.map val).prod ∧ s.rv = (B.map val).prod ∧ ∀ π', IsPath t.g s.u s.v π' → π = A ++ π' ++ B)
    (Q := fun s : FS T => (s.u < g.size ∧ s.v < g.size ∧ (∀ a, a ∈ rpath r F s.u ∧ a ∈ rpath r F s.v ↔ a ∈ rpath r F u ∧ a ∈ rpath r F v) ∧
      ∃ A B, s.ru = (A.map val).prod ∧ s.rv = (B.map val).prod ∧ ∀ π', IsPath t.g s.u s.v π' → π = A ++ π' ++ B) ∧ at' 0 t.head s.u = at' 0 t.head s.v)
    (fun s => at' 0 t.visit s.u + at' 0 t.visit s.v) ?_ ⟨hu, hv, fun a => Iff.rfl, [], [], by simp, by simp, fun π' hπ' => by
      rw [(hg'.path u v (by omega) (by omega)).unique hπ hπ']; simp⟩ (by dsimp only; omega)) ?_
  · rintro ⟨x, y, ru, rv⟩ hP
    have hP' := hP
    obtain ⟨p1, p2, p3, A, B, p4, p5, p6⟩ := hP
    dsimp only at p1 p2 p3 p4 p5 p6
    rw [ncStep]
    dsimp only
    rw [rd_at 0 (by omega), ok_bind, rd_at 0 (by omega), ok_bind]
    have hX := b.visLt p1
    have hY := b.visLt p2
    by_cases he : at' 0 t.head x = at' 0 t.head y
    · rw [if_neg (by simpa using he)]
      exact Tot.pure ⟨hP', he⟩
    · rw [if_pos he, rd_at 0 (by omega), ok_bind, rd_at 0 (by omega), ok_bind, ncMove]
      by_cases hlt : at' 0 t.visit x < at' 0 t.visit y
      · obtain ⟨c1, c2, -⟩ := b.chain p2
        rw [if_pos hlt, rd_at 0 (by omega), ok_bind, hq _ _ (by omega) (by omega), ok_bind, bind_assoc]
        dsimp only
        have hn := b.head_not p1 p2 (by omega) he
        refine Tot.bind (b.up_tot p1 p2 hn) fun p ⟨q1, q2, q3, q4⟩ => ?_
        refine Tot.pure ⟨⟨p1, q1, fun a => ?_, A, seg t (at' 0 t.visit (at' 0 t.head y), at' 0 t.visit y + 1) ++ B, p4, ?_, fun π' hπ' => ?_⟩, ?_⟩
        · dsimp only; rw [← b.common_up p2 hn q3 a, p3]
        · dsimp only; rw [p5, List.map_append, List.prod_append]
        · dsimp only at hπ'
          have := p6 _ (b.path_up hg p1 p2 q1 q4 (b.common_up p2 hn q3) hπ')
          rw [this]; simp [seg]
        · dsimp only; omega
      · obtain ⟨c1, c2, -⟩ := b.chain p1
        rw [if_neg hlt, rd_at 0 (by omega), ok_bind, hq' _ _ (by omega) (by omega), ok_bind, bind_assoc]
        dsimp only
        have hn := b.head_not p2 p1 (by omega) (Ne.symm he)
        refine Tot.bind (b.up_tot p2 p1 hn) fun p ⟨q1, q2, q3, q4⟩ => ?_
        refine Tot.pure ⟨⟨q1, p2, fun a => ?_, A ++ (seg t (at' 0 t.visit (at' 0 t.head x), at' 0 t.visit x + 1)).reverse, B, ?_, p5, fun π' hπ' => ?_⟩, ?_⟩
        · dsimp only; rw [And.comm, ← b.common_up p1 hn q3 a, And.comm, p3]
        · dsimp only; rw [p4, List.map_append, List.prod_append]
        · dsimp only at hπ'
          have h1 := b.path_up hg p2 p1 q1 q4 (b.common_up p1 hn q3) (path_reverse hg' hπ')
          have := p6 _ (path_reverse hg' h1)
          rw [this]; simp [seg]
        · dsimp only; omega
  · rintro ⟨x, y, ru, rv⟩ ⟨⟨p1, p2, p3, A, B, p4, p5, p6⟩, he⟩
    dsimp only at p1 p2 p3 p4 p5 p6 he ⊢
    have hX := b.visLt p1
    have hY := b.visLt p2
    rw [rd_at 0 (by omega), ok_bind, rd_at 0 (by omega), ok_bind, ncEnd]
    have hbt := Bool.toNat_le edge
    have hnodup := hπ.nodup
    by_cases hlt : at' 0 t.visit x < at' 0 t.visit y
    · rw [if_pos hlt, hq _ _ (by omega) (by omega), ok_bind]
      have hp := p6 _ (b.path_same hg p1 p2 (by omega) he)
      have hsub := b.same_chain p1 p2 (by omega) he
      refine Tot.pure ⟨x, p1, fun a => ?_, ?_⟩
      · rw [← p3 a]
        refine ⟨fun h => ⟨h, ?_⟩, fun h => h.1⟩
        rw [hsub]; exact List.mem_append_left _ h
      · dsimp only
        rw [p4, p5, ← List.prod_append, ← List.prod_append, ← List.map_append, ← List.map_append]
        congr 2
        cases edge with
        | true =>
          rw [if_pos rfl]
          rw [hp, List.append_assoc] at hnodup ⊢
          rw [List.erase_append_right _ (fun h => (List.nodup_append.1 hnodup).2.2 x h x (by simp) rfl), List.cons_append, List.erase_cons_head, seg]
          dsimp only
          rw [show (true : Bool).toNat = 1 from rfl, show at' 0 t.visit y + 1 - (at' 0 t.visit x + 1) = at' 0 t.visit y - at' 0 t.visit x by omega]
        | false =>
          rw [if_neg (by simp), hp, seg]
          dsimp only
          rw [show (false : Bool).toNat = 0 from rfl, Nat.add_zero, show at' 0 t.visit y + 1 - at' 0 t.visit x = (at' 0 t.visit y - at' 0 t.visit x) + 1 by omega, times_cons, b.ordVis p1, List.append_assoc]
    · rw [if_neg hlt, hq' _ _ (by omega) (by omega), ok_bind]
      have hp := p6 _ (path_reverse hg' (b.path_same hg p2 p1 (by omega) he.symm))
      have hsub := b.same_chain p2 p1 (by omega) he.symm
      refine Tot.pure ⟨y, p2, fun a => ?_, ?_⟩
      · rw [← p3 a]
        refine ⟨fun h => ⟨?_, h⟩, fun h => h.2⟩
        rw [hsub]; exact List.mem_append_left _ h
      · dsimp only
        rw [p4, p5, ← List.prod_append, ← List.prod_append, ← List.map_append, ← List.map_append]
        congr 2
        cases edge with
        | true =>
          rw [if_pos rfl]
          rw [hp] at hnodup ⊢
          rw [List.reverse_cons] at hnodup ⊢
          have hn2 : y ∉ A ++ (times t (at' 0 t.visit y + 1) (at' 0 t.visit x - at' 0 t.visit y)).reverse := fun h => by
            rw [← List.append_assoc, List.append_assoc] at hnodup
            exact (List.nodup_append.1 hnodup).2.2 y h y (by simp) rfl
          rw [← List.append_assoc, List.append_assoc (A ++ _), List.erase_append_right _ hn2, List.singleton_append, List.erase_cons_head, seg]
          dsimp only
          rw [show (true : Bool).toNat = 1 from rfl, show at' 0 t.visit x + 1 - (at' 0 t.visit y + 1) = at' 0 t.visit x - at' 0 t.visit y by omega]
        | false =>
          rw [if_neg (by simp), hp, seg]
          dsimp only
          rw [show (false : Bool).toNat = 0 from rfl, Nat.add_zero, show at' 0 t.visit x + 1 - at' 0 t.visit y = (at' 0 t.visit x - at' 0 t.visit y) + 1 by omega, times_cons, b.ordVis p2]

theorem invIds_tot (b : Built g r F t) : Tot (invIds t) fun inv => inv = t.ord := by
  have s1 := b.vsz
  have s2 := b.osz
  rw [invIds, s1]
  refine (Tot.forUp (P := fun i (inv : Array Nat) => inv.size = g.size ∧ ∀ x < i, at' 0 inv (at' 0 t.visit x) = x) (Nat.zero_le _) (by simp) ?_).mono fun inv hinv => ?_
  · intro i inv _ hi ⟨h1, h2⟩
    have := b.visLt hi
    rw [rd_at 0 (by omega), ok_bind, wr_eq (by omega)]
    refine (tot_ok ..).2 ⟨by simpa using h1, fun x hx => ?_⟩
    rw [at_set' 0 (by omega)]
    split
    · rename_i e; exact (b.visInj (by omega) hi e).symm
    · rename_i e
      exact h2 x (by rcases Nat.lt_succ_iff_lt_or_eq.1 hx with h | rfl <;> [exact h; exact absurd rfl e])
  · obtain ⟨h1, h2⟩ := hinv
    refine Array.ext (by omega) fun j hj1 hj2 => ?_
    have hj : j < g.size := by omega
    have := h2 _ (b.ordLt hj)
    rw [b.visOrd hj] at this
    have e1 : at' 0 inv j = inv[j] := by simp [at', hj1]
    have e2 : at' 0 t.ord j = t.ord[j] := by simp [at', hj2]
    rw [← e1, ← e2, this]

theorem getRoots_tot (b : Built g r F t) : Tot (getRoots t) fun l => l = [r] := by
  have s1 := b.psz
  rw [getRoots, s1]
  refine (Tot.forUp (P := fun i (l : List Nat) => l = if r < i then [r] else []) (Nat.zero_le _) (by simp) ?_).mono fun l hl => by rw [hl, if_pos b.rlt]
  intro i l _ hi hl
  rw [rd_at none (by omega), ok_bind]
  refine Tot.pure ?_
  rw [hl]
  by_cases hir : i = r
  · rw [if_pos ((b.parNone hi).2 hir), if_neg (by omega), if_pos (by omega), hir]; rfl
  · rw [if_neg (fun h => hir ((b.parNone hi).1 h))]
    by_cases h2 : r < i
    · rw [if_pos h2, if_pos (by omega)]
    · rw [if_neg h2, if_neg (by omega)]

end Built

end HLD
