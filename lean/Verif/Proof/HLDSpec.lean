import Verif.Proof.HLDPath2

/-! # The heavy light decomposition in terms of the tree -/

namespace HLD
open Cxx Graph Tree

variable {g : Array (List Nat)} {r : Nat} {F : Forest} {t : St}

theorem perm_path {g' : Array (List Nat)} (hp : ∀ u, (adj g' u).Perm (adj g u)) {u v : Nat} {p : List Nat} : IsPath g' u v p ↔ IsPath g u v p := by
  have hE : E g' = E g := by funext u v; exact propext (hp u).mem_iff
  exact ⟨fun q => ⟨q.head, q.last, q.nodup, hE ▸ q.chain⟩, fun q => ⟨q.head, q.last, q.nodup, hE ▸ q.chain⟩⟩

namespace Built

theorem path (b : Built g r F t) {u v : Nat} {p : List Nat} : IsPath t.g u v p ↔ IsPath g u v p := perm_path b.perm

theorem anc (b : Built g r F t) (hg : IsTree g) {a x : Nat} (hx : x < g.size) : Anc g r a x ↔ a ∈ rpath r F x := by
  rw [← b.rooted.anc_iff (b.tree hg) (by rw [b.gsz]; exact hx)]
  exact ⟨fun ⟨p, h1, h2⟩ => ⟨p, b.path.2 h1, h2⟩, fun ⟨p, h1, h2⟩ => ⟨p, b.path.1 h1, h2⟩⟩

theorem dist (b : Built g r F t) {u v k : Nat} : Dist t.g u v k ↔ Dist g u v k :=
  ⟨fun ⟨p, h1, h2⟩ => ⟨p, b.path.1 h1, h2⟩, fun ⟨p, h1, h2⟩ => ⟨p, b.path.2 h1, h2⟩⟩

theorem isLCA (b : Built g r F t) (hg : IsTree g) {u v w : Nat} (hu : u < g.size) (hv : v < g.size) (hw : w < g.size) :
    IsLCA g r u v w ↔ ∀ a, a ∈ rpath r F w ↔ a ∈ rpath r F u ∧ a ∈ rpath r F v := by
  rw [← b.rooted.lca_iff (b.tree hg) (by rw [b.gsz]; exact hu) (by rw [b.gsz]; exact hv) (by rw [b.gsz]; exact hw)]
  have h : ∀ a x, Anc g r a x ↔ Anc t.g r a x := fun a x =>
    ⟨fun ⟨p, h1, h2⟩ => ⟨p, b.path.2 h1, h2⟩, fun ⟨p, h1, h2⟩ => ⟨p, b.path.1 h1, h2⟩⟩
  constructor
  · rintro ⟨h1, h2, h3⟩
    exact ⟨(h _ _).1 h1, (h _ _).1 h2, fun a h4 h5 => (h _ _).1 (h3 a ((h _ _).2 h4) ((h _ _).2 h5))⟩
  · rintro ⟨h1, h2, h3⟩
    exact ⟨(h _ _).2 h1, (h _ _).2 h2, fun a h4 h5 => (h _ _).2 (h3 a ((h _ _).1 h4) ((h _ _).1 h5))⟩

theorem kth (b : Built g r F t) (hg : IsTree g) {u w k : Nat} (hu : u < g.size) : IsKthAncestor g r u k w ↔ w ∈ rpath r F u ∧ Tree.depth r F w + k = Tree.depth r F u := by
  have hg' := b.tree hg
  have e := b.gsz
  unfold IsKthAncestor
  rw [b.anc hg hu]
  refine and_congr_right fun hw => ?_
  have hwl : w < t.g.size := b.rooted.mem_lt hw
  have hd := depth_le b.rooted.nodup hw
  obtain ⟨h1, -⟩ := b.rooted.dist_of_lca hg' (u := w) (v := u) (w := w) hwl (by omega) (fun a => ⟨fun h => ⟨h, rpath_trans b.rooted.nodup h hw⟩, fun h => h.1⟩) hwl
  obtain ⟨p, p1, p2⟩ := h1
  constructor
  · rintro ⟨p', p3, p4⟩
    rw [← b.path] at p3
    rw [(hg'.path w u hwl (by omega)).unique p1 p3] at p2
    omega
  · intro h
    exact ⟨p, b.path.1 p1, by omega⟩

theorem parent (b : Built g r F t) (hg : IsTree g) {x q : Nat} (hx : x < g.size) : at' none t.par x = some q ↔ Parent g r q x := by
  rw [b.parE hx]
  have e := b.gsz
  have hE : E t.g q x ↔ E g q x := (b.perm q).mem_iff
  constructor
  · rintro ⟨h1, h2⟩
    obtain ⟨p1, -⟩ := b.rooted.parent_of (b.tree hg) (by omega) (by omega) h2
    exact ⟨hE.1 p1, (b.anc hg hx).2 (by rw [h2]; exact List.mem_append_left _ (b.self h1))⟩
  · rintro ⟨h1, h2⟩
    rw [b.anc hg hx] at h2
    have hq : q < g.size := by rw [← e]; exact b.rooted.mem_lt h2
    refine ⟨hq, ?_⟩
    rcases (b.rooted.adj_iff (b.tree hg) (by omega)).1 (hE.2 h1) with h | h
    · have := ((Forest.mem_under_roots b.rooted.tree_nodup ((b.rooted.tree_mem q).2 (by omega))).1 h).2
      rwa [tree_path ((b.rooted.lt_iff x).1 (by omega)), tree_path ((b.rooted.lt_iff q).1 (by omega))] at this
    · have h3 := ((par_iff b.rooted (by omega)).1 h).2
      have d1 := parent_depth h3
      have d2 := depth_le b.rooted.nodup h2
      omega

theorem size (b : Built g r F t) (hg : IsTree g) {x : Nat} (hx : x < g.size) : at' 0 t.siz x = (open Classical in (List.range g.size).filter fun y => decide (Anc g r x y)).length := by
  classical
  rw [b.siz x hx, ← count_sub b.rooted (by rw [b.gsz]; exact hx), b.gsz]
  congr 1
  refine List.filter_congr fun y hy => ?_
  rw [decide_eq_decide, b.anc hg (List.mem_range.1 hy)]

end Built

end HLD
