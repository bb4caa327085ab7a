import Verif.Proof.SternBrocot2

/-!
# C55: `sbt_node`

`B` bounds the signed type (`2^31` or `2^63`), `W` is the modulus of the unsigned type used for comparing products (`2^64` or `2^128`).
`Rep s ds`: the object `s` holds the bounds, the depth and the run-length path of the node reached from the root by the directions `ds`.
-/

namespace SternBrocotProps
open Cxx SternBrocot SBT

/-- Every positive reduced fraction is the value of exactly one node, and every value is a positive reduced fraction. -/
theorem sbt_tree : (∀ m n : Nat, 0 < m → 0 < n → Nat.gcd m n = 1 → ∃ ds, value ds = (m, n) ∧ ∀ es, value es = (m, n) → es = ds) ∧
    ∀ ds, 0 < (value ds).1 ∧ 0 < (value ds).2 ∧ Nat.gcd (value ds).1 (value ds).2 = 1 := by
  refine ⟨fun m n hm hn hg => ?_, fun ds => ⟨(value_pos ds).1, (value_pos ds).2, value_coprime ds⟩⟩
  obtain ⟨s, -, ds, -, -, h⟩ := make_tot (B := ((m + n : Nat) : Int)) hm hn (by omega) (by omega)
  rw [hg, Nat.div_one, Nat.div_one] at h
  exact ⟨ds, h, fun es he => value_inj (he.trans h.symm)⟩

/-- `sbt_node(m, n)` is the node with value `m / n` in lowest terms, and `get()` returns that value; nothing overflows. -/
theorem sbt_make {B : Int} {m n : Nat} (hm0 : 0 < m) (hn0 : 0 < n) (hm : (m : Int) < B) (hn : (n : Int) < B) :
    ∃ s ds, make B m n = .ok s ∧ Rep s ds ∧ ValFits B ds ∧ value ds = (m / Nat.gcd m n, n / Nat.gcd m n) ∧
      get B s = .ok (((m / Nat.gcd m n : Nat) : Int), ((n / Nat.gcd m n : Nat) : Int)) := by
  obtain ⟨s, h, ds, h1, h2, h3⟩ := make_tot hm0 hn0 hm hn
  have k1 := Nat.div_le_self m (Nat.gcd m n)
  have k2 := Nat.div_le_self n (Nat.gcd m n)
  have hv : ValFits B ds := by
    rw [ValFits, h3]
    exact ⟨by dsimp only; omega, by dsimp only; omega⟩
  refine ⟨s, ds, h, h1, hv, h3, ?_⟩
  rw [get_tot h1 hv.1 hv.2, h3]
  rfl

/-- A non-positive argument fails the assertion. -/
theorem sbt_make_asserts {B a b : Int} (h : a ≤ 0 ∨ b ≤ 0) : make B a b = .error .assertion := by
  rw [make, show (decide (a > 0) && decide (b > 0)) = false by simp; omega]
  rfl

/-- The node made from a path is the one the path leads to, also if runs are empty or split. -/
theorem sbt_of_path {B : Int} (p : List (Bool × Nat)) (h : ValFits B (expand p)) : ∃ s, ofPath B (castPath p) = .ok s ∧ Rep s (expand p) :=
  ofPath_tot p h.fits

/-- An object is determined by its node; rebuilding it from its path or from its value gives the same object. -/
theorem sbt_round_trip {B : Int} {s : Node} {ds : List Bool} (h : Rep s ds) (hv : ValFits B ds) :
    ofPath B s.path = .ok s ∧ get B s = .ok (cast (value ds)) ∧ make B (cast (value ds)).1 (cast (value ds)).2 = .ok s := by
  refine ⟨?_, get_tot h hv.1 hv.2, ?_⟩
  · obtain ⟨p, p1, p2, -⟩ := h.path
    obtain ⟨s', e, h'⟩ := sbt_of_path p (p2 ▸ hv)
    rw [p1, e]
    rw [p2] at h'
    rw [h'.unique h]
  · obtain ⟨p1, p2⟩ := value_pos ds
    obtain ⟨s', ds', e, h', -, h3, -⟩ := sbt_make p1 p2 hv.1 hv.2
    rw [value_coprime, Nat.div_one, Nat.div_one] at h3
    have hd : ds' = ds := value_inj h3
    subst hd
    show make B ((value ds').1 : Int) ((value ds').2 : Int) = _
    rw [e, h'.unique h]

/-- `range()` brackets exactly the values of the descendants, with determinant 1. -/
theorem sbt_range {s : Node} {ds : List Bool} (h : Rep s ds) :
    range s = (cast (bounds ds).1, cast (bounds ds).2) ∧ (range s).2.1 * (range s).1.2 - (range s).1.1 * (range s).2.2 = 1 ∧
    ∀ es, ds <+: es ↔ Lt (bounds ds).1 (value es) ∧ Lt (value es) (bounds ds).2 := by
  have e : range s = (cast (bounds ds).1, cast (bounds ds).2) := by rw [range, h.l, h.r]
  refine ⟨e, ?_, fun es => (between_iff ds es).symm⟩
  rw [e]
  have := det ds
  simp only [SBT.cast]
  have e2 : (((bounds ds).2.1 * (bounds ds).1.2 : Nat) : Int) = (((bounds ds).1.1 * (bounds ds).2.2 + 1 : Nat) : Int) := by rw [this]
  push_cast at e2
  omega

/-- `move_down(dir, k)` goes `k` steps in direction `dir`. -/
theorem sbt_move_down {B : Int} {s : Node} {ds : List Bool} (h : Rep s ds) (dir : Bool) (k : Nat) (hf : ValFits B (ds ++ List.replicate k dir)) :
    ∃ s', moveDown B s dir k = .ok s' ∧ Rep s' (ds ++ List.replicate k dir) := moveDown_tot h hf.fits

/-- `move_up(k)` goes to the `k`-th ancestor if there is one; otherwise it returns false and changes nothing. -/
theorem sbt_move_up {B : Int} {s : Node} {ds : List Bool} (h : Rep s ds) (hv : ValFits B ds) :
    (∀ k : Nat, k ≤ ds.length → ∃ s', moveUp B s k = .ok (true, s') ∧ Rep s' (ds.take (ds.length - k))) ∧
    ∀ k : Int, k < 0 ∨ (ds.length : Int) < k → moveUp B s k = .ok (false, s) := by
  refine ⟨fun k hk => ?_, fun k hk => moveUp_false h hk⟩
  obtain ⟨⟨b, s'⟩, e, h1, h2⟩ := moveUp_tot h hv.fits hk
  dsimp only at h1 h2
  subst h1
  exact ⟨s', e, h2⟩

/-- `lca(a, b)` is the lowest common ancestor. -/
theorem sbt_lca {B : Int} {a b : Node} {da db : List Bool} (ha : Rep a da) (hb : Rep b db) (va : ValFits B da) :
    ∃ s, lca B a b = .ok s ∧ ∃ c, Rep s c ∧ c <+: da ∧ c <+: db ∧ ∀ e, e <+: da → e <+: db → e <+: c := by
  obtain ⟨s, e, h⟩ := lca_tot ha hb va.fits
  refine ⟨s, e, lcp da db, h, (lcp_prefix da db).1, (lcp_prefix da db).2, ?_⟩
  rintro e ⟨x, rfl⟩ ⟨y, rfl⟩
  rw [lcp_append]
  exact List.prefix_append _ _

/-- `dist(a, b)` is the number of edges between the nodes, if that is representable. -/
theorem sbt_dist {B : Int} {a b : Node} {da db : List Bool} (ha : Rep a da) (hb : Rep b db) (va : ValFits B da) (vb : ValFits B db) (hd : (SternBrocot.dist da db : Int) < B) :
    SBT.dist B a b = .ok (SternBrocot.dist da db : Int) := dist_tot ha hb va.fits vb.fits hd

/-- It need not be: for `int` the distance between `1 / (2^31 - 1)` and `(2^31 - 1) / 1` overflows. -/
theorem sbt_dist_overflow : (do
    let a ← make (2 ^ 31) 1 (2 ^ 31 - 1)
    let b ← make (2 ^ 31) (2 ^ 31 - 1) 1
    SBT.dist (2 ^ 31) a b) = .error .ub := by decide +kernel

/-- `is_ancestor_of` and `is_descendant_of` (both reflexive). -/
theorem sbt_is_ancestor_of {B W : Int} (hW : B * B ≤ W) {a b : Node} {da db : List Bool} (ha : Rep a da) (hb : Rep b db) (va : ValFits B da) (vb : ValFits B db) :
    (∃ c, isAncestorOf B W a b = .ok c ∧ (c = true ↔ da <+: db)) ∧ ∃ c, isDescendantOf B W a b = .ok c ∧ (c = true ↔ db <+: da) :=
  ⟨isAncestorOf_tot hW ha hb va.fits vb, isAncestorOf_tot hW hb ha vb.fits va⟩

/-- `move_to(dst, k)` goes `k` edges along the path to `dst`; outside the path it returns false and changes nothing. -/
theorem sbt_move_to {B : Int} {a b : Node} {da db : List Bool} (ha : Rep a da) (hb : Rep b db) (va : ValFits B da) (vb : ValFits B db) :
    (∀ k : Nat, k ≤ SternBrocot.dist da db → (k : Int) < B → ∃ s, moveTo B a b k = .ok (true, s) ∧
      ∃ w, Rep s w ∧ SternBrocot.dist da w = k ∧ SternBrocot.dist w db = SternBrocot.dist da db - k) ∧
    ∀ k : Int, k < B → k < 0 ∨ (SternBrocot.dist da db : Int) < k → moveTo B a b k = .ok (false, a) := by
  refine ⟨fun k hk hB => ?_, fun k hB hk => moveTo_false ha hb va.fits vb.fits hk hB⟩
  obtain ⟨⟨c, s⟩, e, h1, h2⟩ := moveTo_tot ha hb va.fits vb.fits hk hB
  dsimp only at h1 h2
  subst h1
  exact ⟨s, e, h2⟩

/-- `==` tells whether the nodes are the same. -/
theorem sbt_eq {a b : Node} {da db : List Bool} (ha : Rep a da) (hb : Rep b db) : SBT.eq a b = true ↔ da = db := eq_iff ha hb

/-- `<` compares the fractions, which is the in-order of the tree. -/
theorem sbt_lt {B W : Int} (hW : B * B ≤ W) {a b : Node} {da db : List Bool} (ha : Rep a da) (hb : Rep b db) (va : ValFits B da) (vb : ValFits B db) :
    (∃ c, SBT.lt B W a b = .ok c ∧ (c = true ↔ Lt (value da) (value db))) ∧ (Lt (value da) (value db) ↔ inOrder da db = .lt) :=
  ⟨lt_tot hW ha hb va vb, value_lt_iff da db⟩

/-- The three comparison functions compare by in-order, pre-order and post-order. -/
theorem sbt_orders {B W : Int} (hW : B * B ≤ W) {a b : Node} {da db : List Bool} (ha : Rep a da) (hb : Rep b db) (va : ValFits B da) (vb : ValFits B db) :
    compareInOrder B W a b = .ok (sign (inOrder da db)) ∧ comparePreOrder B W a b = .ok (sign (preOrder da db)) ∧
    comparePostOrder B W a b = .ok (sign (postOrder da db)) :=
  ⟨compareInOrder_tot hW ha hb va vb, comparePreOrder_tot hW ha hb va.fits vb.fits va vb, comparePostOrder_tot hW ha hb va.fits vb.fits va vb⟩

/-- `19 / 8 = [2; 2, 1, 2]`: the path is R R L L R L. -/
example : make (2 ^ 31) 38 16 = .ok ⟨(7, 3), (12, 5), 6, [(true, 2), (false, 2), (true, 1), (false, 1)]⟩ := by decide +kernel

theorem rep_19_8 : Rep ⟨(7, 3), (12, 5), 6, [(true, 2), (false, 2), (true, 1), (false, 1)]⟩ [true, true, false, false, true, false] :=
  ⟨rfl, rfl, rfl, [(true, 2), (false, 2), (true, 1), (false, 1)], rfl, rfl, by simp [Canonical]⟩

theorem rep_5_2 : Rep ⟨(2, 1), (3, 1), 3, [(true, 2), (false, 1)]⟩ [true, true, false] :=
  ⟨rfl, rfl, rfl, [(true, 2), (false, 1)], rfl, rfl, by simp [Canonical]⟩

/-- The hypotheses of the theorems hold for these nodes and `int`. -/
example : ValFits (2 ^ 31) [true, true, false, false, true, false] ∧ ValFits (2 ^ 31) [true, true, false] ∧ (2 ^ 31 : Int) * 2 ^ 31 ≤ 2 ^ 64 := by
  refine ⟨⟨by decide, by decide⟩, ⟨by decide, by decide⟩, by decide⟩
example : comparePreOrder (2 ^ 31) (2 ^ 64) ⟨(7, 3), (12, 5), 6, [(true, 2), (false, 2), (true, 1), (false, 1)]⟩ ⟨(2, 1), (3, 1), 3, [(true, 2), (false, 1)]⟩ = .ok 1 :=
  (sbt_orders (by decide) rep_19_8 rep_5_2 ⟨by decide, by decide⟩ ⟨by decide, by decide⟩).2.1

end SternBrocotProps
