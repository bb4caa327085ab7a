import Verif.Proof.RedBlack2

/-!
# Properties of the red-black trees

C50: every tree made by the API is the sequence that the same calls make on lists, and it is a red-black tree of logarithmic depth.
C83: products, range updates and reversals.
-/

namespace RedBlackProps
open Cxx RedBlack

variable {T F : Type} {O : Ops T F} {K : Kind} {P : Prop}

/-- C50 (observations): after any history of calls, `dump` writes the sequence, `size` is its length, `check_rbtree_properties` passes, and the depth is logarithmic. -/
theorem rb_observe [DecidableEq F] (L : Lawful O K False) (hk : K.lazy = false → K.rev = false) (t : Tree T F) (xs : List T) (h : Made O K t xs) :
    dump O K t = .ok xs ∧ size t = xs.length ∧ checkProperties t = .ok () ∧ depth t ≤ 2 * Nat.log2 xs.length + 1 := by
  have r := made_rep L h
  exact ⟨dump_spec L hk r, r.size, checkProperties_spec r, depth_spec r⟩

/-- C50 (no undefined behaviour): on made trees every call with arguments in range returns. -/
theorem rb_progress [DecidableEq F] (L : Lawful O K False) (t : Tree T F) (xs : List T) (h : Made O K t xs) :
    (∀ u ys, Made O K u ys → xs.length + ys.length ≤ maxLen → ∃ r, merge O K t u = .ok r) ∧
    (∀ k : Nat, k ≤ xs.length → ∃ r, split O K t k = .ok r) ∧
    (∀ l r : Nat, l ≤ r → r ≤ xs.length → ∃ p, splitRange O K t l r = .ok p) ∧
    (∀ (k : Nat) v, k ≤ xs.length → xs.length < maxLen → ∃ r, insert O K t k v = .ok r) ∧
    (∀ v, xs.length < maxLen → (∃ r, pushFront O K t v = .ok r) ∧ ∃ r, pushBack O K t v = .ok r) ∧
    (∀ (k : Nat) g, k < xs.length → ∃ r, updateValue O K t k g = .ok r) := by
  have r := made_rep L h
  have ex : ∀ {α : Type} {m : M α} {Q : α → Prop}, Tot m Q → ∃ x, m = .ok x := fun ⟨x, e, _⟩ => ⟨x, e⟩
  refine ⟨fun u ys hu hl => ex (merge_spec L r (made_rep L hu) hl), fun k hk => ex (split_spec L k r hk), fun l r' hl hr => ex (splitRange_spec L l r' r hl hr),
    fun k v hk hl => ex (insert_spec L k v r hk hl), fun v hl => ⟨ex (insert_spec L 0 v r (by omega) hl), ?_⟩, fun k g hk => ex (updateValue_spec L k g r hk)⟩
  rw [pushBack, r.size]
  exact ex (insert_spec L xs.length v r (Nat.le_refl _) hl)

/-- C50 (returned values): `get`, `erase`, `pop_front` and `pop_back` return the element of the sequence. -/
theorem rb_values [DecidableEq F] (L : Lawful O K False) (t : Tree T F) (xs : List T) (h : Made O K t xs) :
    (∀ (k : Nat) (hk : k < xs.length), ∃ u, get O K t k = .ok (u, xs[k])) ∧
    (∀ (k : Nat) (hk : k < xs.length), ∃ u, erase O K t k = .ok (u, xs[k])) ∧
    (∀ hk : 0 < xs.length, (∃ u, popFront O K t = .ok (u, xs[0])) ∧ ∃ u, popBack O K t = .ok (u, xs[xs.length - 1])) := by
  have r := made_rep L h
  have ex : ∀ {m : M (Tree T F × T)} {y : T} {Q : Tree T F → Prop}, Tot m (fun u => Q u.1 ∧ u.2 = y) → ∃ u, m = .ok (u, y) := by
    rintro m y Q ⟨⟨u, v⟩, e, _, rfl⟩
    exact ⟨u, e⟩
  refine ⟨fun k hk => ex (get_spec L k r hk), fun k hk => ex (erase_spec L k r hk), fun hk => ⟨ex (erase_spec L 0 r hk), ?_⟩⟩
  rw [popBack, r.size]
  have e1 : (xs.length : Int) - 1 = ((xs.length - 1 : Nat) : Int) := by omega
  rw [e1]
  exact ex (erase_spec L (xs.length - 1) r (by omega))

/-- C50: `build` of an array returns a tree. -/
theorem rb_build [DecidableEq F] (L : Lawful O K False) (a : Array T) (h : a.size ≤ maxLen) : ∃ t, build O K a = .ok t := by
  obtain ⟨t, e, _⟩ := build_spec L a h
  exact ⟨t, e⟩

/-- C83 (products): with a monoid that `mapping` respects — commutative if the tree can be reversed — `prod(l, r)` returns the product of the current elements `l, …, r - 1`, and `prod_all` that of all elements. -/
theorem rb_prod_partial [DecidableEq F] (L : Lawful O K True) (t : Tree T F) (xs : List T) (h : Made O K t xs) :
    prodAll O t = prodL O xs ∧ ∀ l r : Nat, l ≤ r → r ≤ xs.length → ∃ u, prod O K t l r = .ok (u, prodL O ((xs.take r).drop l)) := by
  have r := made_rep L h
  refine ⟨by rw [prodAll, r.dat.value L trivial, r.seq], fun a b hl hr => ?_⟩
  obtain ⟨⟨u, v⟩, e, _, hv⟩ := prod_spec L a b r hl hr
  exact ⟨u, by rw [e]; exact congrArg (fun y => Except.ok (u, y)) (hv trivial)⟩

/-- C83 (range updates and reversals return). Their effect on the sequence is part of `Made`, and `rb_observe`, `rb_values` and `rb_prod_partial` show that it is what later calls observe. -/
theorem rb_range_updates [DecidableEq F] (L : Lawful O K False) (t : Tree T F) (xs : List T) (h : Made O K t xs) (l r : Nat) (hl : l ≤ r) (hr : r ≤ xs.length) :
    (K.lazy = true → ∀ f, ∃ u, apply O K t l r f = .ok u) ∧ (K.rev = true → ∃ u, reverse O K t l r = .ok u) := by
  have rep := made_rep L h
  have ex : ∀ {α : Type} {m : M α} {Q : α → Prop}, Tot m Q → ∃ x, m = .ok x := fun ⟨x, e, _⟩ => ⟨x, e⟩
  exact ⟨fun hk f => ex (apply_spec L hk l r f rep hl hr), fun hk => ex (reverse_spec L hk l r rep hl hr)⟩

/-- The laws for the classes without lazy operations: none for the plain tree, those of a monoid for the segment tree. -/
theorem lawful_plain (op : T → T → T) (e : T) : Lawful (noLazy op e) plain False := ⟨fun _ _ => rfl, fun _ _ _ _ => rfl, nofun, nofun, nofun, nofun, nofun, nofun⟩

theorem lawful_segment (op : T → T → T) (e : T) (h1 : ∀ x y z, op (op x y) z = op x (op y z)) (h2 : ∀ x, op x e = x) (h3 : ∀ x, op e x = x) : Lawful (noLazy op e) segment True :=
  ⟨fun _ _ => rfl, fun _ _ _ _ => rfl, fun _ => rfl, fun _ => h1, fun _ => h2, fun _ => h3, fun _ _ _ _ _ _ _ _ => rfl, nofun⟩

/-- Words under concatenation, with no range updates. -/
def words : Ops (List Nat) Unit := noLazy (· ++ ·) []

/-- C83 is false without commutativity: `reverse_all` swaps the children but keeps the product of the unreversed range. Here the product of `[[1], [2]]` reversed is still `[1, 2]`. -/
theorem rb_reverse_noncommutative : ∃ t u, build words reversible #[[1], [2]] = .ok t ∧ reverse words reversible t 0 2 = .ok u ∧ Made words reversible u [[2], [1]] ∧
    prodAll words u = [1, 2] ∧ prodL words [[2], [1]] = [2, 1] := by
  refine ⟨_, _, rfl, rfl, ?_, rfl, rfl⟩
  exact Made.reverse _ [[1], [2]] 0 2 _ rfl (Made.build #[[1], [2]] _ (by decide) rfl) (by omega) (by simp) rfl

/-- Addition, with addition as range update. -/
def sums : Ops Int Int := ⟨(· + ·), 0, fun f x n => f * n + x, (· + ·), 0⟩

/-- The laws hold for the sums. -/
theorem lawful_sums : Lawful sums reversible True where
  map_id x n := by simp [sums]
  map_comp f g x n := by simp only [sums]; rw [Int.add_mul, Int.add_assoc]
  has_prod _ := rfl
  assoc _ x y z := Int.add_assoc x y z
  op_e _ x := Int.add_zero x
  e_op _ x := Int.zero_add x
  map_op _ f x y n m _ _ := by simp only [sums]; rw [Int.mul_add]; omega
  comm _ _ x y := Int.add_comm x y

/-- A history: build, reverse a range, add to a range, split and merge the other way round. -/
example : ∃ t u v w x, build sums reversible #[1, 2, 3, 4, 5] = .ok t ∧ reverse sums reversible t 1 4 = .ok u ∧ apply sums reversible u 0 3 10 = .ok v ∧ split sums reversible v 2 = .ok w ∧ merge sums reversible w.2 w.1 = .ok x ∧
    Made sums reversible x [13, 2, 5, 11, 14] := by
  refine ⟨_, _, _, _, _, rfl, rfl, rfl, rfl, rfl, ?_⟩
  have a := Made.build (O := sums) (K := reversible) #[1, 2, 3, 4, 5] _ (by decide) rfl
  have b := Made.reverse _ _ 1 4 _ rfl a (by omega) (by simp) rfl
  have c := Made.apply _ _ 0 3 10 _ rfl b (by omega) (by simp) rfl
  have d := Made.splitL _ _ 2 _ c (by simp) rfl
  have e := Made.splitR _ _ 2 _ c (by simp) rfl
  exact Made.merge _ _ _ _ _ e d (by decide) rfl

end RedBlackProps
