import Verif.Model.PersistentUnionFind
import Verif.Props.PersistentArray
import Verif.Props.UnionFind

/-! # Persistent union-find used linearly -/

namespace PersistentUnionFind
open Cxx PersistentArray

/-- The pool and the newest version represent the union-find array. -/
structure GI (n : Nat) (R rk : Nat → Nat) (cap used : Nat) (h : Heap Int) (p : Option Nat) : Prop where
  ex : ∃ dat lab, UnionFind.Inv n R rk dat ∧ WF 4 lab h ∧ Rep 4 lab h p dat
  cap : h.cap = cap
  used : h.nodes.size ≤ used

theorem get_rep {lg : Nat} {lab : Nat → Nat × Nat} {h : Heap Int} {p : Option Nat} {dat : Array Int} (w : WF lg lab h) (r : Rep lg lab h p dat) {i : Nat} {v : Int}
    (e : dat[i]? = some v) : get lg h p i = .ok v := get_eq (by rw [r.val, e]) w.ar

theorem mutSet_rep {lg : Nat} {lab : Nat → Nat × Nat} {h : Heap Int} {p : Option Nat} {dat : Array Int} (w : WF lg lab h) (r : Rep lg lab h p dat) {i : Nat} (hi : i < dat.size) (v : Int) :
    Tot (mutSet lg h p i v) fun a => WF lg lab a.1 ∧ a.1.nodes.size = h.nodes.size ∧ a.1.cap = h.cap ∧ Rep lg lab a.1 p (dat.setIfInBounds i v) := by
  have e : val lg h p i = some dat[i] := by rw [r.val, Array.getElem?_eq_getElem hi]
  refine (mutSet_tot w e v).mono ?_
  rintro ⟨h', y⟩ ⟨-, w', hs, hc, hv⟩
  refine ⟨w', hs, hc, ?_⟩
  rcases r with ⟨h1, -⟩ | ⟨q, rfl, h2, h3, h4⟩
  · omega
  · dsimp only at hs hv
    refine Or.inr ⟨q, rfl, by dsimp only; omega, h3, fun j => ?_⟩
    dsimp only
    rw [hv, set_eq hi, h4]
    by_cases hj : j = i
    · subst hj; rw [if_pos rfl, if_pos rfl]
    · rw [if_neg hj, if_neg]
      intro hc
      obtain ⟨r, z, hs', -, -⟩ := val_some e
      rw [hs'] at hc
      have l1 := w.slot_lab hs'
      have l2 := w.slot_lab hc
      rw [h3] at l1 l2
      dsimp only at l1 l2
      omega

theorem set_rep {lg : Nat} {lab : Nat → Nat × Nat} {h : Heap Int} {p : Option Nat} {dat : Array Int} (w : WF lg lab h) (r : Rep lg lab h p dat) {i : Nat} (hi : i < dat.size) (v : Int)
    (hcap : h.nodes.size + depth lg i + 1 ≤ h.cap) :
    Tot (set lg h p i v) fun a => ∃ lab', WF lg lab' a.1 ∧ a.1.nodes.size = h.nodes.size + depth lg i + 1 ∧ a.1.cap = h.cap ∧ Rep lg lab' a.1 a.2 (dat.setIfInBounds i v) := by
  have e : val lg h p i = some dat[i] := by rw [r.val, Array.getElem?_eq_getElem hi]
  refine (set_tot w e v hcap).mono ?_
  rintro ⟨h', p'⟩ ⟨g1, g2, g3, q, lab', g4, g5, g6, g7, g8, g9⟩
  refine ⟨lab', g6, g1, g2, ?_⟩
  dsimp only at g4
  subst g4
  refine Or.inr ⟨q, rfl, g5, ?_, fun j => ?_⟩
  · rcases r with ⟨a, -⟩ | ⟨q, a, -, c, -⟩
    · omega
    · rw [g8 q a, c]
  · rw [g9 j, r.val j, set_eq hi]

theorem depth_mono (lg : Nat) : ∀ j i, i ≤ j → depth lg i ≤ depth lg j := by
  intro j
  induction j using Nat.strong_induction_on with
  | _ j ih =>
    intro i hij
    by_cases hi : i = 0
    · rw [depth, dif_pos hi]; exact Nat.zero_le _
    · have hj : j ≠ 0 := by omega
      have h1 : depth lg i = depth lg ((i - 1) / 2 ^ lg) + 1 := by rw [depth, dif_neg hi]
      have h2 : depth lg j = depth lg ((j - 1) / 2 ^ lg) + 1 := by rw [depth, dif_neg hj]
      rw [h1, h2]
      exact Nat.succ_le_succ (ih _ (down_lt lg hj) _ (Nat.div_le_div_right (by omega)))

variable {n : Nat} {R rk : Nat → Nat} {cap used : Nat} {h : Heap Int} {p : Option Nat}

theorem root_tot (g : GI n R rk cap used h p) {x : Nat} (hx : x < n) :
    Tot (root n h p x) fun r => r.2 = R x ∧ GI n R rk cap used r.1 p := by
  obtain ⟨dat, lab, hI, w, hr⟩ := g.ex
  unfold root
  refine Tot.bind (P := fun (s : Nat × List Nat) => s.1 = R x ∧ ∀ v ∈ s.2, v < n ∧ R v = R x ∧ R v ≠ v) ?_ ?_
  · refine Tot.loop (P := fun (s : Nat × List Nat) => s.1 < n ∧ R s.1 = R x ∧ ∀ v ∈ s.2, v < n ∧ R v = R x ∧ R v ≠ v)
      (fun s => n - rk s.1) ?_ ⟨hx, rfl, by simp⟩ (by simp)
    rintro ⟨y, buf⟩ ⟨hy, hyr, hb⟩
    simp only at hy hyr hb
    by_cases hyy : R y = y
    · have := hI.root y hy hyy
      have hpos := UnionFind.card_pos hy hyy
      refine ⟨none, ?_, ?_⟩
      · simp only [climbStep, get_rep w hr this, ok_bind]
        rw [if_neg (by omega)]; rfl
      · exact ⟨by rw [← hyr, hyy], hb⟩
    · obtain ⟨q, hq, hd, he, hlt⟩ := hI.par y hy hyy
      refine ⟨some (q, y :: buf), ?_, ?_⟩
      · simp only [climbStep, get_rep w hr hd, ok_bind]
        rw [if_pos (by omega)]; simp
      · refine ⟨⟨hq, by rw [he, hyr], ?_⟩, ?_⟩
        · intro v hv
          rcases List.mem_cons.mp hv with rfl | hv
          · exact ⟨hy, hyr, hyy⟩
          · exact hb v hv
        · have := hI.rk_le q hq; simp only; omega
  · rintro ⟨y, buf⟩ ⟨rfl, hb⟩
    refine Tot.bind (P := fun h' => GI n R rk cap used h' p) ?_ ?_
    · refine (Tot.forEach (P := fun _ h' => GI n R rk cap used h' p) g ?_).mono (fun _ h => h)
      rintro pre v post s e hs
      obtain ⟨hv, hvr, hvn⟩ := hb v (by rw [e]; simp)
      obtain ⟨dat, lab, hI, w, hr⟩ := hs.ex
      refine Tot.bind (mutSet_rep w hr (by rw [hI.size]; exact hv) _) ?_
      rintro ⟨h', y⟩ ⟨w', hsz, hc, hr'⟩
      dsimp only at hsz hc hr'
      refine Tot.pure ⟨⟨_, lab, ?_, w', hr'⟩, by rw [hc, hs.cap], by rw [hsz]; exact hs.used⟩
      rw [← hvr]; exact hI.compress hv hvn
    · intro d hd; exact Tot.pure ⟨rfl, hd⟩

theorem GI.grow (g : GI n R rk cap used h p) {k : Nat} : GI n R rk cap (used + k) h p := ⟨g.ex, g.cap, by have := g.used; omega⟩

theorem link_tot (g : GI n R rk cap used h p) {x y : Nat} (hx : x < n) (hy : y < n) (hxr : R x = x) (hyr : R y = y) (hne : x ≠ y) (hcap : used + 2 * (depth 4 (n - 1) + 1) ≤ cap) :
    Tot (link h p x y) fun r => ∃ a b rk', (a = x ∧ b = y ∨ a = y ∧ b = x) ∧ GI n (UnionFind.link R a b) rk' cap (used + 2 * (depth 4 (n - 1) + 1)) r.1 r.2 := by
  obtain ⟨dat, lab, hI, w, hr⟩ := g.ex
  have gx := hI.root _ hx hxr
  have gy := hI.root _ hy hyr
  have hdx := depth_mono 4 (n - 1) x (by omega)
  have hdy := depth_mono 4 (n - 1) y (by omega)
  have hu := g.used
  have hc := g.cap
  have hs := hI.size
  -- the two `set`s
  have key : ∀ a b, a < n → b < n → R a = a → R b = b → a ≠ b → ∀ va vb, va = -((UnionFind.cls n R a).card : Int) → vb = -((UnionFind.cls n R b).card : Int) →
      Tot (do
        let (h, q) ← set 4 h p a (va + vb)
        let (h, q) ← set 4 h q b (a : Int)
        return (h, q)) fun r : Heap Int × Option Nat => ∃ rk', GI n (UnionFind.link R a b) rk' cap (used + 2 * (depth 4 (n - 1) + 1)) r.1 r.2 := by
    intro a b ha hb har hbr hab va vb hva hvb
    have hda := depth_mono 4 (n - 1) a (by omega)
    have hdb := depth_mono 4 (n - 1) b (by omega)
    refine Tot.bind (set_rep w hr (by omega) _ (by omega)) ?_
    rintro ⟨h1, q1⟩ ⟨lab1, w1, s1, c1, r1⟩
    dsimp only at w1 s1 c1 r1
    refine Tot.bind (set_rep w1 r1 (by simp; omega) _ (by omega)) ?_
    rintro ⟨h2, q2⟩ ⟨lab2, w2, s2, c2, r2⟩
    dsimp only at w2 s2 c2 r2
    have hl := hI.link ha hb hab har hbr
    rw [← hva, ← hvb] at hl
    exact Tot.pure ⟨_, ⟨_, lab2, hl, w2, r2⟩, by dsimp only; omega, by dsimp only; omega⟩
  unfold link
  rw [get_rep w hr gx, ok_bind, get_rep w hr gy, ok_bind]
  by_cases hs' : -((UnionFind.cls n R x).card : Int) > -((UnionFind.cls n R y).card : Int)
  · simp only [hs', if_true]
    refine (key y x hy hx hyr hxr (Ne.symm hne) _ _ rfl rfl).mono ?_
    rintro r ⟨rk', g'⟩
    exact ⟨y, x, rk', Or.inr ⟨rfl, rfl⟩, g'⟩
  · simp only [hs', if_false]
    refine (key x y hx hy hxr hyr hne _ _ rfl rfl).mono ?_
    rintro r ⟨rk', g'⟩
    exact ⟨x, y, rk', Or.inl ⟨rfl, rfl⟩, g'⟩

theorem merge_tot (g : GI n R rk cap used h p) {x y : Nat} (hx : x < n) (hy : y < n) (hcap : used + 2 * (depth 4 (n - 1) + 1) ≤ cap) :
    Tot (merge n h p x y) fun r =>
      (R x = R y → r.2.2 = false ∧ GI n R rk cap (used + 2 * (depth 4 (n - 1) + 1)) r.1 r.2.1) ∧
      (R x ≠ R y → r.2.2 = true ∧ ∃ a b rk', (a = R x ∧ b = R y ∨ a = R y ∧ b = R x) ∧
        GI n (UnionFind.link R a b) rk' cap (used + 2 * (depth 4 (n - 1) + 1)) r.1 r.2.1) := by
  obtain ⟨dat, lab, hI, -, -⟩ := g.ex
  unfold merge
  refine Tot.bind (root_tot g hx) ?_
  rintro ⟨h1, r1⟩ ⟨e1, g1⟩
  dsimp only at e1 g1 ⊢
  subst e1
  refine Tot.bind (root_tot g1 hy) ?_
  rintro ⟨h2, r2⟩ ⟨e2, g2⟩
  dsimp only at e2 g2 ⊢
  subst e2
  by_cases e : R x = R y
  · rw [if_pos e]
    exact Tot.pure ⟨fun _ => ⟨rfl, g2.grow⟩, fun hc => absurd e hc⟩
  · rw [if_neg e]
    refine Tot.bind (link_tot g2 (hI.lt x hx) (hI.lt y hy) (hI.idem x hx) (hI.idem y hy) e hcap) ?_
    rintro ⟨h3, q3⟩ hg
    exact Tot.pure ⟨fun hc => absurd hc e, fun _ => ⟨rfl, hg⟩⟩

theorem same_tot (g : GI n R rk cap used h p) {x y : Nat} (hx : x < n) (hy : y < n) :
    Tot (same n h p x y) fun r => (r.2 = true ↔ R x = R y) ∧ GI n R rk cap used r.1 p := by
  unfold same
  refine Tot.bind (root_tot g hx) ?_
  rintro ⟨h1, r1⟩ ⟨e1, g1⟩
  dsimp only at e1 g1 ⊢
  subst e1
  refine Tot.bind (root_tot g1 hy) ?_
  rintro ⟨h2, r2⟩ ⟨e2, g2⟩
  dsimp only at e2 g2 ⊢
  subst e2
  exact Tot.pure ⟨by simp, g2⟩

theorem size_tot (g : GI n R rk cap used h p) {x : Nat} (hx : x < n) :
    Tot (size n h p x) fun r => r.2 = (UnionFind.cls n R (R x)).card ∧ GI n R rk cap used r.1 p := by
  unfold size
  refine Tot.bind (root_tot g hx) ?_
  rintro ⟨h1, r1⟩ ⟨e1, g1⟩
  dsimp only at e1 g1 ⊢
  subst e1
  obtain ⟨dat, lab, hI, w, hr⟩ := g1.ex
  rw [get_rep w hr (hI.root _ (hI.lt x hx) (hI.idem x hx)), ok_bind]
  exact Tot.pure ⟨by simp, g1⟩

theorem groups_tot (g : GI n R rk cap used h p) :
    Tot (groups n h p) fun r => GI n R rk cap used r.1 p ∧
      r.2 = ((List.range n).map fun x => (List.range n).filter (R · = x)).filter (· ≠ []) := by
  obtain ⟨dat0, lab0, hI0, -, -⟩ := g.ex
  unfold groups
  refine Tot.bind (P := fun (s : Heap Int × Array (List Nat)) => GI n R rk cap used s.1 p ∧ s.2.size = n ∧
      ∀ x < n, s.2[x]? = some ((List.range n).filter (R · = x))) ?_ ?_
  · refine Tot.forUp (P := fun i (s : Heap Int × Array (List Nat)) => GI n R rk cap used s.1 p ∧ s.2.size = n ∧
      ∀ x < n, s.2[x]? = some ((List.range i).filter (R · = x))) (Nat.zero_le n) ?_ ?_
    · refine ⟨g, by simp, fun x hx => by simp [hx]⟩
    · rintro i ⟨d, res⟩ - hi ⟨hI, hsz, hres⟩
      simp only at hI hsz hres ⊢
      refine Tot.bind (root_tot hI hi) ?_
      rintro ⟨d1, r1⟩ ⟨h1, i1⟩
      simp only at h1 i1; subst h1
      have hl := hI0.lt i hi
      simp only [rd_some (hres _ hl), ok_bind]
      rw [wr_eq (by rw [hsz]; exact hl), ok_bind]
      refine Tot.pure ⟨i1, by simpa using hsz, fun x hx => ?_⟩
      rw [get?_set _ _ _ _ (by rw [hsz]; exact hl), List.range_succ, List.filter_append]
      by_cases e : R i = x
      · simp [e]
      · simp [e, hres x hx]
  · rintro ⟨d, res⟩ ⟨hI, hsz, hres⟩
    simp only at hI hsz hres
    refine Tot.pure ⟨hI, ?_⟩
    refine congrArg (List.filter _) ?_
    apply List.ext_getElem
    · simp [hsz]
    · intro i h1 h2
      have hi : i < n := by simpa using h2
      have := hres i hi
      rw [Array.getElem?_eq_getElem (by omega)] at this
      simpa using this

end PersistentUnionFind
