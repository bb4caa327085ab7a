import Verif.Proof.HLDChain
import Mathlib.Data.Nat.Log

/-! # Queries of the heavy light decomposition -/

namespace HLD
open Cxx Graph Tree

variable {g : Array (List Nat)} {r : Nat} {F : Forest} {t : St}

namespace Built

theorem order_eq (b : Built g r F t) {u v : Nat} (hu : u < g.size) (hv : v < g.size) :
    order t u v = .ok (if at' 0 t.visit u > at' 0 t.visit v then (v, u) else (u, v)) := by
  have := b.vsz
  rw [order, rd_at 0 (by omega), ok_bind, rd_at 0 (by omega), ok_bind]; rfl

theorem order_spec (b : Built g r F t) {u v : Nat} (hu : u < g.size) (hv : v < g.size) : ∃ u' v', order t u v = .ok (u', v') ∧ u' < g.size ∧ v' < g.size ∧ at' 0 t.visit u' ≤ at' 0 t.visit v' ∧ ((u' = u ∧ v' = v) ∨ (u' = v ∧ v' = u)) := by
  rw [b.order_eq hu hv]
  split
  · exact ⟨v, u, rfl, hv, hu, by omega, Or.inr ⟨rfl, rfl⟩⟩
  · exact ⟨u, v, rfl, hu, hv, by omega, Or.inl ⟨rfl, rfl⟩⟩

theorem lca_tot (b : Built g r F t) {u v : Nat} (hu : u < g.size) (hv : v < g.size) : Tot (lca t u v) fun w => w < g.size ∧ ∀ a, a ∈ rpath r F w ↔ a ∈ rpath r F u ∧ a ∈ rpath r F v := by
  have s1 := b.vsz
  have s2 := b.hsz
  rw [lca]
  have hU := b.visLt hu
  have hV := b.visLt hv
  refine Tot.bind (Tot.loop (P := fun s => s.2.1 < g.size ∧ s.2.2 < g.size ∧ (∀ a, a ∈ rpath r F s.2.1 ∧ a ∈ rpath r F s.2.2 ↔ a ∈ rpath r F u ∧ a ∈ rpath r F v) ∧ (s.1 = true → ∀ a, a ∈ rpath r F s.2.1 → a ∈ rpath r F s.2.2))
    (Q := fun s => s.2.1 < g.size ∧ ∀ a, a ∈ rpath r F s.2.1 ↔ a ∈ rpath r F u ∧ a ∈ rpath r F v)
    (fun s => at' 0 t.visit s.2.1 + at' 0 t.visit s.2.2 + if s.1 then 0 else 1) ?_ ⟨hu, hv, fun a => Iff.rfl, by simp⟩ ?_) fun s hs => Tot.pure hs
  · rintro ⟨fl, x, y⟩ ⟨p1, p2, p3, p4⟩
    dsimp only at p1 p2 p3 p4
    cases fl with
    | true =>
      rw [lcaStep, if_pos rfl]
      refine Tot.pure ⟨p1, fun a => ?_⟩
      rw [← p3 a]
      exact ⟨fun h => ⟨h, p4 rfl a h⟩, fun h => h.1⟩
    | false =>
      rw [lcaStep, if_neg (by simp)]
      obtain ⟨x', y', ho, h1, h2, h3, h4⟩ := b.order_spec p1 p2
      have h5 : at' 0 t.visit x' + at' 0 t.visit y' = at' 0 t.visit x + at' 0 t.visit y := by rcases h4 with ⟨rfl, rfl⟩ | ⟨rfl, rfl⟩ <;> omega
      have h6 : ∀ a, a ∈ rpath r F x' ∧ a ∈ rpath r F y' ↔ a ∈ rpath r F u ∧ a ∈ rpath r F v := fun a => by
        rw [← p3 a]; rcases h4 with ⟨rfl, rfl⟩ | ⟨rfl, rfl⟩
        · rfl
        · exact And.comm
      dsimp only
      rw [ho, ok_bind]
      dsimp only
      rw [rd_at 0 (by omega), ok_bind, rd_at 0 (by omega), ok_bind]
      split
      · rename_i he
        refine Tot.pure ⟨⟨h1, h2, h6, fun _ a ha => ?_⟩, ?_⟩
        · rw [b.same_chain h1 h2 h3 he]; exact List.mem_append_left _ ha
        · dsimp only; rw [h5]; simp
      · rename_i he
        have hn := b.head_not h1 h2 h3 he
        refine Tot.bind (b.up_tot h1 h2 hn) fun p ⟨q1, q2, q3, q4⟩ => Tot.pure ⟨⟨h1, q1, fun a => ?_, by simp⟩, ?_⟩
        · dsimp only; rw [← b.common_up h2 hn q3 a, h6]
        · dsimp only; simp; omega
  · dsimp only; simp; omega

/-- Paths grow by the part of a chain below `v`. -/
theorem path_up (b : Built g r F t) (hg : IsTree g) {u v p : Nat} (hu : u < g.size) (hv : v < g.size) (hp : p < g.size) {l : List Nat} (hrp : rpath r F v = rpath r F p ++ l)
    (hc : ∀ a, a ∈ rpath r F u ∧ a ∈ rpath r F v ↔ a ∈ rpath r F u ∧ a ∈ rpath r F p) {π : List Nat} (hπ : IsPath t.g u p π) : IsPath t.g u v (π ++ l) := by
  have hg' := b.tree hg
  have e := b.gsz
  obtain ⟨w, hw, hh⟩ := b.rooted.exists_lca (u := u) (v := p) (by omega) (by omega)
  obtain ⟨-, -, -, s1, t1, a1, a2, a3⟩ := b.rooted.dist_of_lca hg' (by omega) (by omega) hh hw
  obtain ⟨-, -, -, s2, t2, b1, b2, b3⟩ := b.rooted.dist_of_lca hg' (u := u) (v := v) (by omega) (by omega) (fun a => by rw [hc a]; exact hh a) hw
  have h1 : s2 = s1 := by rw [a1] at b1; exact (List.append_cancel_left b1).symm
  have h2 : t2 = t1 ++ l := by
    rw [hrp, a2, List.append_assoc] at b2
    exact (List.append_cancel_left b2).symm
  have h3 : π = s1.reverse ++ w :: t1 := (hg'.path u p (by omega) (by omega)).unique hπ a3
  rw [h1, h2] at b3
  rw [h3]
  simpa using b3

theorem path_reverse (hg : IsTree g) {u v : Nat} {π : List Nat} (h : IsPath g u v π) : IsPath g v u π.reverse := by
  refine ⟨by rw [List.head?_reverse]; exact h.last, by rw [List.getLast?_reverse]; exact h.head, List.nodup_reverse.2 h.nodup, ?_⟩
  rw [List.isChain_reverse]
  exact h.chain.imp fun a b hab => hg.symm a b hab

/-- The path inside of a chain. -/
theorem path_same (b : Built g r F t) (hg : IsTree g) {u v : Nat} (hu : u < g.size) (hv : v < g.size) (hle : at' 0 t.visit u ≤ at' 0 t.visit v) (he : at' 0 t.head u = at' 0 t.head v) :
    IsPath t.g u v (u :: times t (at' 0 t.visit u + 1) (at' 0 t.visit v - at' 0 t.visit u)) := by
  have h := b.same_chain hu hv hle he
  have := b.path_up hg hu hv hu h (fun a => ?_) (π := [u]) ⟨rfl, rfl, by simp, by simp⟩
  · exact this
  · constructor
    · exact fun ⟨h1, _⟩ => ⟨h1, h1⟩
    · exact fun ⟨h1, _⟩ => ⟨h1, by rw [h]; exact List.mem_append_left _ h1⟩

/-- Subtrees are nested. -/
theorem nested (b : Built g r F t) {a x : Nat} (ha : a < g.size) (hx : x < g.size) (h : a ∈ rpath r F x) : at' 0 t.leave x ≤ at' 0 t.leave a := by
  have hnd := b.rooted.nodup
  have e := b.lev x hx
  have hs : 0 < (Forest.tree r F).sub x := by rw [Forest.sub]; omega
  obtain ⟨s, w, hw, hsl⟩ := b.split hx
  have hlen := b.len
  rw [hw] at hlen
  have hll : (x :: ((Forest.tree r F).under x).pre).length = (Forest.tree r F).sub x := by simp [Forest.sub, Forest.size]
  rw [List.length_append, List.length_append, hll] at hlen
  have hj : at' 0 t.leave x - 1 < g.size := by omega
  have h1 := (b.range hx (b.ordLt hj)).2 (by rw [b.visOrd hj]; omega)
  have h2 := (b.range ha (b.ordLt hj)).1 (rpath_trans hnd h h1)
  rw [b.visOrd hj] at h2
  omega

theorem leave_le (b : Built g r F t) {x : Nat} (hx : x < g.size) : at' 0 t.leave x ≤ g.size := by
  have h1 := b.nested b.rlt hx (root_mem r F x)
  have h2 := b.lev r b.rlt
  have h3 := EulerTour.rooted_size b.rooted
  have h4 := b.gsz
  rw [b.vis r b.rlt, tree_sub_root] at h2
  simp at h2
  omega

theorem sub_mono (b : Built g r F t) {a x : Nat} (ha : a < g.size) (hx : x < g.size) (h : a ∈ rpath r F x) : (Forest.tree r F).sub x ≤ (Forest.tree r F).sub a := by
  have h1 := b.nested ha hx h
  have h2 := ((b.range ha hx).1 h).1
  have h3 := b.lev a ha
  have h4 := b.lev x hx
  omega

theorem sub_le (b : Built g r F t) {x : Nat} (hx : x < g.size) : 0 < (Forest.tree r F).sub x ∧ (Forest.tree r F).sub x ≤ g.size := by
  have := b.leave_le hx
  have h4 := b.lev x hx
  refine ⟨by rw [Forest.sub]; omega, by omega⟩

/-- A child is not an ancestor of another child. -/
theorem siblings {p c d : Nat} (hc : rpath r F c = rpath r F p ++ [c]) (hd : rpath r F d = rpath r F p ++ [d]) (hne : c ≠ d) (hnd : (r :: F.pre).Nodup) : c ∉ rpath r F d := by
  intro h
  rw [hd, List.mem_append, List.mem_singleton] at h
  rcases h with h | h
  · have h1 := depth_le hnd h
    have h2 := parent_depth hc
    omega
  · exact hne h

/-- Leaving a chain at its head at least doubles the size of the subtree. -/
theorem light (b : Built g r F t) (hg : IsTree g) {h p : Nat} (hh : h < g.size) (hp : at' none t.par h = some p) (hf : (adj t.g p).head? ≠ some h) :
    2 * (Forest.tree r F).sub h < (Forest.tree r F).sub p := by
  have hnd := b.rooted.nodup
  obtain ⟨hpl, hpp⟩ := (b.parE hh).1 hp
  have hE : E t.g p h := by
    rw [b.rooted.adj_iff (b.tree hg) (by rw [b.gsz]; exact hpl)]
    left
    rw [Forest.mem_under_roots b.rooted.tree_nodup ((b.rooted.tree_mem p).2 (by rw [b.gsz]; exact hpl))]
    have e1 := tree_path ((b.rooted.lt_iff h).1 (by rw [b.gsz]; exact hh))
    have e2 := tree_path ((b.rooted.lt_iff p).1 (by rw [b.gsz]; exact hpl))
    rw [e1, e2]
    exact ⟨(b.rooted.tree_mem h).2 (by rw [b.gsz]; exact hh), hpp⟩
  have hnp : ∀ c, rpath r F c = rpath r F p ++ [c] → c < g.size → some c ≠ (Forest.tree r F).par none p := by
    intro c hc hcl e
    have h3 := (par_iff b.rooted (by rw [b.gsz]; exact hpl)).1 e.symm
    have d1 := parent_depth hc
    have d2 := parent_depth h3.2
    omega
  obtain ⟨mx, hH⟩ := b.heavy p hpl
  rcases hH with ⟨-, h2⟩ | ⟨h1, c, a', h2, h3, h4, h5⟩
  · exact absurd (h2 h hE) (hnp h hpp hh)
  · have h6 := h5 h hE (hnp h hpp hh)
    have hcE : E t.g p c := by show c ∈ adj t.g p; rw [h2]; simp
    have hcl : c < g.size := by rw [← b.gsz]; exact (b.tree hg).valid p c hcE
    have hch : c ≠ h := by rintro rfl; rw [h2] at hf; simp at hf
    have hcp : rpath r F c = rpath r F p ++ [c] := by
      rcases (b.rooted.adj_iff (b.tree hg) (by rw [b.gsz]; exact hpl)).1 hcE with h7 | h7
      · rw [Forest.mem_under_roots b.rooted.tree_nodup ((b.rooted.tree_mem p).2 (by rw [b.gsz]; exact hpl))] at h7
        have e1 := tree_path ((b.rooted.lt_iff c).1 (by rw [b.gsz]; exact hcl))
        have e2 := tree_path ((b.rooted.lt_iff p).1 (by rw [b.gsz]; exact hpl))
        rw [e1, e2] at h7
        exact h7.2
      · exact absurd h7.symm h3
    have n1 := siblings hcp hpp hch hnd
    have n2 := siblings hpp hcp (Ne.symm hch) hnd
    have hpc : p ∈ rpath r F c := by rw [hcp]; exact List.mem_append_left _ (b.self hpl)
    have hph : p ∈ rpath r F h := by rw [hpp]; exact List.mem_append_left _ (b.self hpl)
    have r1 := (b.range hpl hcl).1 hpc
    have r2 := (b.range hpl hh).1 hph
    have r3 := b.nested hpl hcl hpc
    have r4 := b.nested hpl hh hph
    have d1 := parent_depth hcp
    have d2 := parent_depth hpp
    have i1 : at' 0 t.visit p ≠ at' 0 t.visit c := fun e => by rw [b.visInj hpl hcl e] at d1; omega
    have i2 : at' 0 t.visit p ≠ at' 0 t.visit h := fun e => by rw [b.visInj hpl hh e] at d2; omega
    have i3 : at' 0 t.visit c ≠ at' 0 t.visit h := fun e => hch (b.visInj hcl hh e)
    rw [b.range hcl hh] at n1
    rw [b.range hh hcl] at n2
    have l1 := b.lev p hpl
    have l2 := b.lev c hcl
    have l3 := b.lev h hh
    omega

/-- The head of a chain is not the front of the list of its parent. -/
theorem head_light (b : Built g r F t) {v p : Nat} (hv : v < g.size) (hp : at' none t.par (at' 0 t.head v) = some p) : (adj t.g p).head? ≠ some (at' 0 t.head v) := by
  intro hf
  obtain ⟨h1, -, -⟩ := b.chain hv
  have h2 := (b.chain_head hv).2
  have h3 := b.hd _ h1 p (by rw [← b.par _ h1]; exact hp)
  rw [if_pos hf, h2] at h3
  obtain ⟨q1, q2⟩ := (b.parE h1).1 hp
  have h4 := (b.chain_head q1).1
  rw [← h3, ] at h4
  have h5 := depth_le b.rooted.nodup h4
  have h6 := parent_depth q2
  omega

/-- Going up doubles the size. -/
theorem up_size (b : Built g r F t) (hg : IsTree g) {v p : Nat} (hv : v < g.size) (hp : at' none t.par (at' 0 t.head v) = some p) :
    2 * (Forest.tree r F).sub v < (Forest.tree r F).sub p := by
  obtain ⟨h1, -, -⟩ := b.chain hv
  have := b.light hg h1 hp (b.head_light hv hp)
  have := b.sub_mono h1 hv (b.chain_head hv).1
  omega

theorem up_log (b : Built g r F t) (hg : IsTree g) {v p : Nat} (hv : v < g.size) (hpl : p < g.size) (hp : at' none t.par (at' 0 t.head v) = some p) :
    Nat.log 2 ((Forest.tree r F).sub v) < Nat.log 2 ((Forest.tree r F).sub p) ∧ Nat.log 2 ((Forest.tree r F).sub p) ≤ Nat.log 2 g.size := by
  have h1 := b.up_size hg hv hp
  have h2 := (b.sub_le hv).1
  refine ⟨?_, Nat.log_mono_right (b.sub_le hpl).2⟩
  have : Nat.log 2 ((Forest.tree r F).sub v * 2) ≤ Nat.log 2 ((Forest.tree r F).sub p) := Nat.log_mono_right (by omega)
  rw [Nat.log_mul_base (by omega) (by omega)] at this
  omega

end Built

end HLD
