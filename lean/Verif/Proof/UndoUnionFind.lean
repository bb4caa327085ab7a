import Verif.Model.UndoUnionFind
import Verif.Props.UnionFind

namespace UndoUnionFind
open Cxx
open UnionFind (Inv Sim Connected cls mem_cls link)

variable {n : Nat} {R rk : Nat → Nat} {dat : Array Int}

theorem root_eq (h : Inv n R rk dat) {x : Nat} (hx : x < n) : root dat x = .ok (R x) := by
  rw [← tot_eq]
  unfold root
  refine Tot.loop (P := fun y => y < n ∧ R y = R x) (fun y => n - rk y) ?_ ⟨hx, rfl⟩ (by rw [h.size]; omega)
  rintro y ⟨hy, hyr⟩
  simp only [h.size, hy, decide_true, check_true, ok_bind]
  by_cases hr : R y = y
  · have := h.root y hy hr
    have hpos := UnionFind.card_pos hy hr
    refine ⟨none, ?_, ?_⟩
    · simp only [rd_some this, ok_bind]
      rw [if_pos (by omega)]; rfl
    · rw [← hyr, hr]
  · obtain ⟨p, hp, hd, he, hlt⟩ := h.par y hy hr
    refine ⟨some p, ?_, ⟨hp, by rw [he, hyr]⟩, ?_⟩
    · simp only [rd_some hd, ok_bind]
      rw [if_neg (by omega)]; simp
    · have := h.rk_le p hp; omega

/-- Undoing the two writes of a successful merge. -/
theorem set_set_restore (dat : Array Int) {p c : Nat} (hp : p < dat.size) (hc : c < dat.size) (hne : p ≠ c)
    (vp vc a b : Int) (h1 : dat[p]? = some vp) (h2 : dat[c]? = some vc) :
    ((((dat.setIfInBounds p a).setIfInBounds c b).setIfInBounds c vc).setIfInBounds p vp) = dat := by
  apply Array.ext_getElem?
  intro i
  rw [get?_set _ _ _ _ (by simpa using hp), get?_set _ _ _ _ (by simpa using hc),
    get?_set _ _ _ _ (by simpa using hc), get?_set _ _ _ _ (by simpa using hp)]
  split
  · subst_vars; exact h1.symm
  · split
    · subst_vars; exact h2.symm
    · rfl

/-- What `merge` does, in terms of representative functions. -/
theorem merge_eq (s : State) (h : Inv n R rk s.dat) {x y : Nat} (hx : x < n) (hy : y < n) :
    (R x = R y → merge s x y = .ok (s, false)) ∧
    (R x ≠ R y → ∃ p c rk' dat' vp vc, (p = R x ∧ c = R y ∨ p = R y ∧ c = R x) ∧
        merge s x y = .ok (⟨dat', (c, vc) :: (p, vp) :: s.hist⟩, true) ∧ Inv n (link R p c) rk' dat' ∧
        p < n ∧ c < n ∧ p ≠ c ∧ (dat'.setIfInBounds c vc).setIfInBounds p vp = s.dat) := by
  have hxl := h.lt x hx
  have hyl := h.lt y hy
  constructor
  · intro e; simp [merge, root_eq h hx, root_eq h hy, e]
  · intro e
    have gx := h.root _ hxl (h.idem x hx)
    have gy := h.root _ hyl (h.idem y hy)
    by_cases hs : -((cls n R (R x)).card : Int) > -((cls n R (R y)).card : Int)
    · refine ⟨R y, R x, _, _, -((cls n R (R y)).card : Int), -((cls n R (R x)).card : Int), Or.inr ⟨rfl, rfl⟩, ?_,
        h.link hyl hxl (Ne.symm e) (h.idem y hy) (h.idem x hx), hyl, hxl, Ne.symm e, ?_⟩
      · simp only [merge, root_eq h hx, root_eq h hy, ok_bind, e, if_false, rd_some gx, rd_some gy, hs, if_true]
        rw [wr_eq (by rw [h.size]; exact hyl), ok_bind]
        rw [rd_some (x := -((cls n R (R x)).card : Int)) (by
          rw [get?_set _ _ _ _ (by rw [h.size]; exact hyl), if_neg (Ne.symm e)]; exact gx), ok_bind]
        rw [wr_eq (by simpa [h.size] using hxl), ok_bind]
        rfl
      · exact set_set_restore _ (by rw [h.size]; exact hyl) (by rw [h.size]; exact hxl) (Ne.symm e) _ _ _ _ gy gx
    · refine ⟨R x, R y, _, _, -((cls n R (R x)).card : Int), -((cls n R (R y)).card : Int), Or.inl ⟨rfl, rfl⟩, ?_,
        h.link hxl hyl e (h.idem x hx) (h.idem y hy), hxl, hyl, e, ?_⟩
      · simp only [merge, root_eq h hx, root_eq h hy, ok_bind, e, if_false, rd_some gx, rd_some gy, hs]
        rw [wr_eq (by rw [h.size]; exact hxl), ok_bind]
        rw [rd_some (x := -((cls n R (R y)).card : Int)) (by
          rw [get?_set _ _ _ _ (by rw [h.size]; exact hxl), if_neg e]; exact gy), ok_bind]
        rw [wr_eq (by simpa [h.size] using hyl), ok_bind]
        rfl
      · exact set_set_restore _ (by rw [h.size]; exact hxl) (by rw [h.size]; exact hyl) e _ _ _ _ gx gy

theorem undo_eq {d : Array Int} {c p : Nat} {vc vp : Int} {h : List (Nat × Int)} (hc : c < d.size) (hp : p < d.size) :
    undo ⟨d, (c, vc) :: (p, vp) :: h⟩ = .ok ⟨(d.setIfInBounds c vc).setIfInBounds p vp, h⟩ := by
  simp only [undo, List.isEmpty_cons, Bool.not_false, check_true, ok_bind, restore]
  rw [wr_eq hc, ok_bind]
  simp only [pure_eq, ok_bind]
  rw [wr_eq (by simpa using hp), ok_bind]

theorem groups_eq (s : State) (h : Inv n R rk s.dat) :
    groups s = .ok (((List.range n).map fun x => (List.range n).filter (R · = x)).filter (· ≠ [])) := by
  rw [← tot_eq]
  unfold groups
  simp only [h.size]
  refine Tot.bind (P := fun (s : Array (List Nat)) => s.size = n ∧
      ∀ x < n, s[x]? = some ((List.range n).filter (R · = x))) ?_ ?_
  · refine Tot.forUp (P := fun i (s : Array (List Nat)) => s.size = n ∧
      ∀ x < n, s[x]? = some ((List.range i).filter (R · = x))) (Nat.zero_le n) ?_ ?_
    · exact ⟨by simp, fun x hx => by simp [hx]⟩
    · rintro i res - hi ⟨hsz, hres⟩
      have hl := h.lt i hi
      simp only [root_eq h hi, ok_bind, rd_some (hres _ hl)]
      refine Tot.wr (by rw [hsz]; exact hl) ⟨by simpa using hsz, fun x hx => ?_⟩
      rw [get?_set _ _ _ _ (by rw [hsz]; exact hl), List.range_succ, List.filter_append]
      by_cases e : R i = x
      · simp [e]
      · simp [e, hres x hx]
  · rintro res ⟨hsz, hres⟩
    refine Tot.pure ?_
    refine congrArg (List.filter _) ?_
    apply List.ext_getElem
    · simp [hsz]
    · intro i h1 h2
      have hi : i < n := by simpa using h2
      have := hres i hi
      rw [Array.getElem?_eq_getElem (by omega)] at this
      simpa using this

/-- The history stack `hist` of `dat` undoes the pairs `stk` one after the other. -/
def Hist (n : Nat) (base : List (Nat × Nat)) : State → List (Nat × Nat) → Prop
  | s, [] => s.hist = [] ∧ Sim n s.dat base
  | s, e :: stk => Sim n s.dat (e :: stk ++ base) ∧ ∃ c vc p vp h, s.hist = (c, vc) :: (p, vp) :: h ∧
      c < n ∧ p < n ∧ Hist n base ⟨(s.dat.setIfInBounds c vc).setIfInBounds p vp, h⟩ stk

theorem Hist.sim {base : List (Nat × Nat)} {s : State} {stk : List (Nat × Nat)} (h : Hist n base s stk) :
    Sim n s.dat (stk ++ base) := by
  cases stk with
  | nil => exact h.2
  | cons e stk => exact h.1

theorem Hist.rollback {base : List (Nat × Nat)} : ∀ (stk : List (Nat × Nat)) (s : State), Hist n base s stk →
    ∀ fuel, s.hist.length ≤ fuel →
    Tot (loop (fun s : State => if s.hist.isEmpty then return none else do let s ← undo s; return some s) fuel s)
      fun s' => Hist n base s' [] := by
  intro stk
  induction stk with
  | nil =>
    intro s h fuel _
    refine ⟨s, ?_, h⟩
    cases fuel <;> simp [loop, h.1]
  | cons e stk ih =>
    rintro ⟨d, hist⟩ h fuel hf
    obtain ⟨⟨R, rk, hI, -⟩, c, vc, p, vp, hh, rfl, hc, hp, hrest⟩ := h
    simp only at hI hrest hf
    obtain ⟨fuel, rfl⟩ : ∃ k, fuel = k + 1 := ⟨fuel - 1, by simp at hf; omega⟩
    have := ih _ hrest fuel (by simp at hf ⊢; omega)
    simp only [loop, List.isEmpty_cons, Bool.false_eq_true, if_false,
      undo_eq (h := hh) (vc := vc) (vp := vp) (by rw [hI.size]; exact hc) (by rw [hI.size]; exact hp), ok_bind, pure_eq]
    exact this

end UndoUnionFind
