import Verif.Model.UnionFindVariants
import Verif.Props.UnionFind
import Mathlib.Tactic.Ring

namespace LinkedUnionFind
open Cxx
open UnionFind (Inv Sim Connected cls mem_cls)

/-- Following `link` from `a` passes through `l` and then reaches `b`. -/
def Path (link : Array Nat) : Nat → List Nat → Nat → Prop
  | a, [], b => link[a]? = some b
  | a, c :: l, b => link[a]? = some c ∧ Path link c l b

theorem path_append {link : Array Nat} {a b z : Nat} {u v : List Nat} :
    Path link a (u ++ z :: v) b ↔ Path link a u z ∧ Path link z v b := by
  induction u generalizing a with
  | nil => simp [Path]
  | cons c u ih => simp [Path, ih, and_assoc]

theorem path_congr {link link' : Array Nat} {a a' b : Nat} {l : List Nat} (ha : link'[a']? = link[a]?)
    (hl : ∀ z ∈ l, link'[z]? = link[z]?) (h : Path link a l b) : Path link' a' l b := by
  induction l generalizing a a' with
  | nil => simpa [Path, ha] using h
  | cons c l ih =>
    refine ⟨by rw [ha]; exact h.1, ih (hl c (by simp)) (fun z hz => hl z (by simp [hz])) h.2⟩

/-- The link cycles are exactly the classes of `R`. -/
def LInv (n : Nat) (R : Nat → Nat) (link : Array Nat) : Prop :=
  link.size = n ∧ ∀ x < n, ∃ t, Path link x t x ∧ (x :: t).Nodup ∧ ∀ y, y ∈ x :: t ↔ y < n ∧ R y = R x

theorem linv_init (n : Nat) : LInv n id (Array.range n) := by
  refine ⟨by simp, fun x hx => ⟨[], ?_, by simp, ?_⟩⟩
  · simp [Path, hx]
  · intro y; simp; omega

variable {n : Nat} {R : Nat → Nat} {link : Array Nat}

theorem component_eq (h : LInv n R link) {x : Nat} (hx : x < n) :
    Tot (connectedComponent link x) fun c => c.Nodup ∧ ∀ y, y ∈ c ↔ y < n ∧ R y = R x := by
  obtain ⟨hsz, h⟩ := h
  obtain ⟨t, hp, hnd, hmem⟩ := h x hx
  have hlen : t.length < n := by
    have hsub : ∀ y ∈ x :: t, y ∈ List.range n := fun y hy => by
      rw [List.mem_range]; exact ((hmem y).mp hy).1
    have := (List.subperm_of_subset hnd hsub).length_le
    simp at this; omega
  have key : ∀ (t : List Nat) (a : Nat) (acc : List Nat) (fuel : Nat), Path link a t x → x ∉ t → t.length ≤ fuel →
      ∃ y, link[a]? = some y ∧ loop (compStep link x) fuel (y, acc) = .ok (x, acc ++ t) := by
    intro t
    induction t with
    | nil =>
      intro a acc fuel hp _ _
      refine ⟨x, hp, ?_⟩
      cases fuel <;> simp [loop, compStep]
    | cons c t ih =>
      intro a acc fuel hp hx hf
      obtain ⟨fuel, rfl⟩ : ∃ k, fuel = k + 1 := ⟨fuel - 1, by simp at hf; omega⟩
      simp only [List.mem_cons, not_or] at hx
      obtain ⟨y, hy, e⟩ := ih c (acc ++ [c]) fuel hp.2 hx.2 (by simpa using hf)
      refine ⟨c, hp.1, ?_⟩
      have : compStep link x (c, acc) = .ok (some (y, acc ++ [c])) := by
        simp [compStep, Ne.symm hx.1, rd_some hy]
      rw [loop, this, ok_bind]; simp [e]
  obtain ⟨y, hy, e⟩ := key t x [x] link.size hp (List.nodup_cons.mp hnd).1 (by omega)
  refine ⟨x :: t, ?_, hnd, hmem⟩
  unfold connectedComponent
  simp only [rd_some hy, ok_bind]
  rw [e]; rfl

theorem rotate {x z : Nat} {t : List Nat} (hp : Path link x t x) (hnd : (x :: t).Nodup) (hz : z ∈ x :: t) :
    ∃ t', Path link z t' z ∧ (z :: t').Nodup ∧ ∀ y, y ∈ z :: t' ↔ y ∈ x :: t := by
  rcases List.mem_cons.mp hz with rfl | hz
  · exact ⟨t, hp, hnd, fun _ => Iff.rfl⟩
  · obtain ⟨u, v, rfl⟩ := List.append_of_mem hz
    obtain ⟨h1, h2⟩ := path_append.mp hp
    refine ⟨v ++ x :: u, path_append.mpr ⟨h2, h1⟩, ?_, ?_⟩
    · have hperm : (z :: (v ++ x :: u)).Perm (x :: (u ++ z :: v)) := by
        have : (z :: (v ++ x :: u)) = (z :: v) ++ (x :: u) := by simp
        rw [this, show x :: (u ++ z :: v) = (x :: u) ++ (z :: v) by simp]
        exact List.perm_append_comm
      exact hperm.nodup_iff.mpr hnd
    · intro y; simp only [List.mem_cons, List.mem_append]; tauto

/-- Exchanging the links of vertices in different classes joins the cycles. -/
theorem linv_swap (h : LInv n R link) {x y p c : Nat} (hx : x < n) (hy : y < n) (hne : R x ≠ R y)
    (hpc : p = R x ∧ c = R y ∨ p = R y ∧ c = R x) :
    Tot (swapLink link x y) fun link' => LInv n (UnionFind.link R p c) link' := by
  obtain ⟨hsz, h⟩ := h
  have hxy : x ≠ y := fun e => hne (by rw [e])
  have hxs : x < link.size := by omega
  have hys : y < link.size := by omega
  unfold swapLink
  rw [rd_eq hxs, ok_bind, rd_eq hys, ok_bind, wr_eq hxs, ok_bind]
  refine Tot.wr (by simpa using hys) ?_
  set link' := (link.setIfInBounds x link[y]).setIfInBounds y link[x] with hl'
  have gx : link'[x]? = link[y]? := by
    rw [hl', get?_set _ _ _ _ (by simpa using hys), if_neg (Ne.symm hxy), get?_set _ _ _ _ hxs, if_pos rfl,
      Array.getElem?_eq_getElem hys]
  have gy : link'[y]? = link[x]? := by
    rw [hl', get?_set _ _ _ _ (by simpa using hys), if_pos rfl, Array.getElem?_eq_getElem hxs]
  have go : ∀ z, z ≠ x → z ≠ y → link'[z]? = link[z]? := by
    intro z h1 h2
    rw [hl', get?_set _ _ _ _ (by simpa using hys), if_neg (Ne.symm h2), get?_set _ _ _ _ hxs, if_neg (Ne.symm h1)]
  obtain ⟨t, htp, htn, htm⟩ := h x hx
  obtain ⟨u, hup, hun, hum⟩ := h y hy
  have hyt : y ∉ x :: t := fun hy' => hne ((htm y).mp hy').2.symm
  have hxu : x ∉ y :: u := fun hx' => hne ((hum x).mp hx').2
  have hdis : ∀ z, z ∈ x :: t → z ∈ y :: u → False := fun z h1 h2 =>
    hne (((htm z).mp h1).2.symm.trans ((hum z).mp h2).2)
  have p1 : Path link' x u y := path_congr gx (fun z hz => go z (by rintro rfl; exact hxu (by simp [hz]))
    (by rintro rfl; exact (List.nodup_cons.mp hun).1 hz)) hup
  have p2 : Path link' y t x := path_congr gy (fun z hz => go z (by rintro rfl; exact (List.nodup_cons.mp htn).1 hz)
    (by rintro rfl; exact hyt (by simp [hz]))) htp
  have pc : Path link' x (u ++ y :: t) x := path_append.mpr ⟨p1, p2⟩
  have pn : (x :: (u ++ y :: t)).Nodup := by
    have hperm : (x :: (u ++ y :: t)).Perm ((x :: t) ++ (y :: u)) := by
      rw [List.cons_append, List.perm_cons]
      exact (List.perm_append_comm.trans (by
        rw [List.cons_append]
        exact (List.perm_middle).symm))
    rw [hperm.nodup_iff, List.nodup_append]
    refine ⟨htn, hun, ?_⟩
    rintro a ha b hb rfl
    exact hdis a ha hb
  have pm : ∀ z, z ∈ x :: (u ++ y :: t) ↔ z < n ∧ (R z = R x ∨ R z = R y) := by
    intro z
    have e1 := htm z
    have e2 := hum z
    simp only [List.mem_cons, List.mem_append] at e1 e2 ⊢
    constructor
    · rintro (e | e | e | e)
      · have := e1.mp (Or.inl e); exact ⟨this.1, Or.inl this.2⟩
      · have := e2.mp (Or.inr e); exact ⟨this.1, Or.inr this.2⟩
      · have := e2.mp (Or.inl e); exact ⟨this.1, Or.inr this.2⟩
      · have := e1.mp (Or.inr e); exact ⟨this.1, Or.inl this.2⟩
    · rintro ⟨hz, e | e⟩
      · rcases e1.mpr ⟨hz, e⟩ with e | e <;> simp [e]
      · rcases e2.mpr ⟨hz, e⟩ with e | e <;> simp [e]
  refine ⟨by simp [hl', hsz], fun z hz => ?_⟩
  by_cases hc : R z = R x ∨ R z = R y
  · obtain ⟨t', q1, q2, q3⟩ := rotate pc pn ((pm z).mpr ⟨hz, hc⟩)
    refine ⟨t', q1, q2, fun w => ?_⟩
    rw [q3 w, pm w]
    unfold UnionFind.link
    rcases hpc with ⟨rfl, rfl⟩ | ⟨rfl, rfl⟩ <;> rcases hc with hc | hc <;> simp only [hc] <;> grind
  · obtain ⟨t', q1, q2, q3⟩ := h z hz
    refine ⟨t', path_congr (go z (by rintro rfl; exact hc (Or.inl rfl)) (by rintro rfl; exact hc (Or.inr rfl)))
      (fun w hw => go w ?_ ?_) q1, q2, fun w => ?_⟩
    · rintro rfl; exact hc (Or.inl ((q3 w).mp (by simp [hw])).2.symm)
    · rintro rfl; exact hc (Or.inr ((q3 w).mp (by simp [hw])).2.symm)
    · rw [q3 w]
      unfold UnionFind.link
      rcases hpc with ⟨rfl, rfl⟩ | ⟨rfl, rfl⟩ <;> grind

end LinkedUnionFind
