import Verif.Spec.RedBlack

/-! # Red-black trees: proofs -/

namespace RedBlack
open Cxx

variable {T F : Type} {O : Ops T F} {K : Kind} {P : Prop}

/-- The sequence of a tree. -/
def seq (O : Ops T F) : Tree T F → List T
  | .nul => []
  | .node _ c0 c1 v _ _ z r =>
    if isNul c0 && isNul c1 then [v]
    else (if r then (seq O c0).reverse ++ (seq O c1).reverse else seq O c0 ++ seq O c1).map fun x => O.mapping z x 1

/-- The data invariant. -/
def Dat (O : Ops T F) (K : Kind) (P : Prop) : Tree T F → Prop
  | .nul => True
  | .node k c0 c1 v s h z r => (K.lazy = false → z = O.id) ∧ (K.rev = false → r = false) ∧
      ((isNul c0 = true ∧ isNul c1 = true ∧ s = 1) ∨
       (isNul c0 = false ∧ isNul c1 = false ∧ Dat O K P c0 ∧ Dat O K P c1 ∧ s = (seq O (.node k c0 c1 v s h z r)).length ∧ (P → v = prodL O (seq O (.node k c0 c1 v s h z r)))))

/-- The red-black invariant: `w` black nodes on every path. -/
inductive RB : Tree T F → Nat → Prop
  | leaf (v s z r) : RB (.node .black .nul .nul v s 0 z r) 1
  | red (a b v s z r w) : RB a w → RB b w → color a = .black → color b = .black → RB (.node .red a b v s w z r) w
  | black (a b v s z r w) : RB a w → RB b w → RB (.node .black a b v s w z r) (w + 1)

theorem isNul_iff (t : Tree T F) : isNul t = true ↔ t = .nul := by cases t <;> simp [isNul]

theorem RB.pos {t : Tree T F} {w : Nat} (h : RB t w) : 0 < w ∧ isNul t = false := by
  induction h with
  | leaf => exact ⟨by omega, rfl⟩
  | red _ _ _ _ _ _ _ _ _ _ _ ih => exact ⟨ih.1, rfl⟩
  | black => exact ⟨by omega, rfl⟩

theorem RB.height {t : Tree T F} {w : Nat} (h : RB t w) : (RedBlack.height t + if color t = .black then 1 else 0) = (w : Int) := by
  cases h with
  | leaf => simp [RedBlack.height, color]
  | red => simp [RedBlack.height, color]
  | black => simp [RedBlack.height, color]

theorem RB.newLev {t : Tree T F} {w : Nat} (h : RB t w) : newLev t = w := by
  rw [RedBlack.newLev, h.pos.2]
  exact h.height

theorem prodL_append (L : Lawful O K P) (hp : P) (xs ys : List T) : prodL O (xs ++ ys) = O.op (prodL O xs) (prodL O ys) := by
  induction xs with
  | nil => exact (L.e_op hp _).symm
  | cons x xs ih =>
    rw [List.cons_append]
    change O.op x (prodL O (xs ++ ys)) = O.op (O.op x (prodL O xs)) (prodL O ys)
    rw [ih, L.assoc hp]

theorem prodL_reverse (L : Lawful O K P) (hp : P) (hr : K.rev = true) (xs : List T) : prodL O xs.reverse = prodL O xs := by
  induction xs with
  | nil => rfl
  | cons x xs ih =>
    rw [List.reverse_cons, prodL_append L hp, ih, L.comm hp hr]
    change O.op (O.op x O.e) _ = O.op x (prodL O xs)
    rw [L.op_e hp]

theorem prodL_map (L : Lawful O K P) (hp : P) (f : F) (xs : List T) (h : xs ≠ []) : prodL O (xs.map fun x => O.mapping f x 1) = O.mapping f (prodL O xs) xs.length := by
  induction xs with
  | nil => exact absurd rfl h
  | cons x xs ih =>
    change O.op (O.mapping f x 1) (prodL O (xs.map _)) = O.mapping f (O.op x (prodL O xs)) _
    by_cases hx : xs = []
    · subst hx
      change O.op (O.mapping f x 1) O.e = O.mapping f (O.op x O.e) 1
      rw [L.op_e hp, L.op_e hp]
    · rw [ih hx, List.length_cons]
      push_cast
      rw [Int.add_comm, L.map_op hp f x _ 1 _ (by omega) (by have := List.length_pos_iff.2 hx; omega)]

theorem Dat.seq_ne {t : Tree T F} (h : Dat O K P t) (hn : isNul t = false) : seq O t ≠ [] := by
  induction t with
  | nul => simp [isNul] at hn
  | node k a b v s hh z r iha ihb =>
    rw [seq]
    split
    · simp
    · rename_i hc
      obtain ⟨_, _, h | h⟩ := h
      · rw [h.1, h.2.1] at hc
        exact absurd rfl hc
      · have := iha h.2.2.1 h.1
        split <;> simp [this]

theorem Dat.size {t : Tree T F} (h : Dat O K P t) : RedBlack.size t = (seq O t).length := by
  cases t with
  | nul => rfl
  | node k a b v s hh z r =>
    obtain ⟨_, _, h | h⟩ := h
    · rw [seq, h.1, h.2.1]
      simp [RedBlack.size, h.2.2]
    · exact h.2.2.2.2.1

theorem Dat.value {t : Tree T F} (L : Lawful O K P) (h : Dat O K P t) (hp : P) : RedBlack.value O t = prodL O (seq O t) := by
  cases t with
  | nul => rfl
  | node k a b v s hh z r =>
    obtain ⟨_, _, h | h⟩ := h
    · rw [seq, h.1, h.2.1]
      exact (L.op_e hp v).symm
    · exact h.2.2.2.2.2 hp

/-- Two trees of the same shape. -/
structure Alike (t u : Tree T F) : Prop where
  rb : ∀ w, RB t w → RB u w
  col : color u = color t
  nodes : RedBlack.nodes u = RedBlack.nodes t
  isNul : RedBlack.isNul u = RedBlack.isNul t
  height : RedBlack.height u = RedBlack.height t

theorem Alike.refl (t : Tree T F) : Alike t t := ⟨fun _ h => h, rfl, rfl, rfl, rfl⟩
theorem Alike.trans {t u v : Tree T F} (h : Alike t u) (g : Alike u v) : Alike t v :=
  ⟨fun w x => g.rb w (h.rb w x), g.col.trans h.col, g.nodes.trans h.nodes, g.isNul.trans h.isNul, g.height.trans h.height⟩

theorem alike_same (k : Color) (a b : Tree T F) (v v' : T) (s s' h : Int) (z z' : F) (r r' : Bool) : Alike (.node k a b v s h z r) (.node k a b v' s' h z' r') := by
  refine ⟨fun w x => ?_, rfl, rfl, rfl, rfl⟩
  cases x with
  | leaf => exact RB.leaf ..
  | red _ _ _ _ _ _ _ h1 h2 h3 h4 => exact RB.red _ _ _ _ _ _ _ h1 h2 h3 h4
  | black _ _ _ _ _ _ _ h1 h2 => exact RB.black _ _ _ _ _ _ _ h1 h2

theorem applyAll_spec (L : Lawful O K P) (hk : K.lazy = true) (f : F) (t : Tree T F) (h : Dat O K P t) :
    Dat O K P (applyAll O f t) ∧ seq O (applyAll O f t) = (seq O t).map (fun x => O.mapping f x 1) ∧ Alike t (applyAll O f t) := by
  cases t with
  | nul => exact ⟨trivial, rfl, Alike.refl _⟩
  | node k a b v s hh z r =>
    have hd := h
    obtain ⟨h1, h2, h⟩ := h
    have key : seq O (applyAll O f (.node k a b v s hh z r)) = (seq O (.node k a b v s hh z r)).map (fun x => O.mapping f x 1) := by
      rw [applyAll, seq, seq]
      obtain h | h := h
      · rw [h.1, h.2.1]
        simp [h.2.2]
      · rw [h.1, h.2.1]
        simp only [Bool.and_self, Bool.false_eq_true, if_false, List.map_map, Function.comp_def, L.map_comp]
    refine ⟨⟨fun hf => by simp [hk] at hf, h2, ?_⟩, key, alike_same ..⟩
    obtain h | h := h
    · exact Or.inl h
    · refine Or.inr ⟨h.1, h.2.1, h.2.2.1, h.2.2.2.1, ?_, fun hp => ?_⟩
      · rw [applyAll] at key
        rw [key, List.length_map]
        exact h.2.2.2.2.1
      · rw [applyAll] at key
        rw [key, prodL_map L hp _ _ (hd.seq_ne rfl), ← h.2.2.2.2.2 hp, ← h.2.2.2.2.1]

theorem reverseAll_spec (L : Lawful O K P) (hk : K.rev = true) (t : Tree T F) (h : Dat O K P t) :
    Dat O K P (reverseAll t) ∧ seq O (reverseAll t) = (seq O t).reverse ∧ Alike t (reverseAll t) := by
  cases t with
  | nul => exact ⟨trivial, rfl, Alike.refl _⟩
  | node k a b v s hh z r =>
    have hd := h
    obtain ⟨h1, h2, h⟩ := h
    have key : seq O (reverseAll (.node k a b v s hh z r)) = (seq O (.node k a b v s hh z r)).reverse := by
      rw [reverseAll, seq, seq]
      obtain h | h := h
      · rw [h.1, h.2.1]
        simp
      · rw [h.1, h.2.1]
        cases r <;> simp
    refine ⟨⟨h1, fun hf => by simp [hk] at hf, ?_⟩, key, ?_⟩
    · obtain h | h := h
      · exact Or.inl ⟨h.2.1, h.1, h.2.2⟩
      · refine Or.inr ⟨h.2.1, h.1, h.2.2.2.1, h.2.2.1, ?_, fun hp => ?_⟩
        · rw [reverseAll] at key
          rw [key, List.length_reverse]
          exact h.2.2.2.2.1
        · rw [reverseAll] at key
          rw [key, prodL_reverse L hp hk, ← h.2.2.2.2.2 hp]
    · refine ⟨fun w x => ?_, rfl, by simp only [reverseAll, nodes]; omega, rfl, rfl⟩
      cases x with
      | leaf => exact RB.leaf ..
      | red _ _ _ _ _ _ _ h1 h2 h3 h4 => exact RB.red _ _ _ _ _ _ _ h2 h1 h4 h3
      | black _ _ _ _ _ _ _ h1 h2 => exact RB.black _ _ _ _ _ _ _ h2 h1

theorem pushLaz_spec [DecidableEq F] (L : Lawful O K P) (k : Color) (a b : Tree T F) (v : T) (s h : Int) (z : F) (r : Bool) (hd : Dat O K P (.node k a b v s h z r)) :
    ∃ a' b', pushLazIf O K (.node k a b v s h z r) = Except.ok (.node k a' b' v s h O.id r) ∧
      Alike a a' ∧ Alike b b' ∧ (Dat O K P a → Dat O K P a') ∧ (Dat O K P b → Dat O K P b') ∧
      (Dat O K P a → seq O a' = (seq O a).map fun x => O.mapping z x 1) ∧ (Dat O K P b → seq O b' = (seq O b).map fun x => O.mapping z x 1) := by
  rw [pushLazIf]
  have hid : ∀ xs : List T, xs = xs.map fun x => O.mapping O.id x 1 := fun xs => by simp [L.map_id]
  by_cases hk : K.lazy = true
  · rw [if_pos hk, pushLaz]
    by_cases hz : z = O.id
    · subst hz
      rw [if_neg (by simp)]
      exact ⟨a, b, rfl, Alike.refl _, Alike.refl _, fun x => x, fun x => x, fun _ => hid _, fun _ => hid _⟩
    · rw [if_pos hz]
      refine ⟨_, _, rfl, ?_, ?_, fun x => (applyAll_spec L hk z a x).1, fun x => (applyAll_spec L hk z b x).1, fun x => (applyAll_spec L hk z a x).2.1, fun x => (applyAll_spec L hk z b x).2.1⟩
      · cases a with
        | nul => exact Alike.refl _
        | node => exact alike_same ..
      · cases b with
        | nul => exact Alike.refl _
        | node => exact alike_same ..
  · have := hd.1 (by simpa using hk)
    subst this
    rw [if_neg hk]
    exact ⟨a, b, rfl, Alike.refl _, Alike.refl _, fun x => x, fun x => x, fun _ => hid _, fun _ => hid _⟩

theorem alike_reverseAll (t : Tree T F) : Alike t (reverseAll t) := by
  cases t with
  | nul => exact Alike.refl _
  | node k a b v s hh z r =>
    refine ⟨fun w x => ?_, rfl, by simp only [reverseAll, nodes]; omega, rfl, rfl⟩
    cases x with
    | leaf => exact RB.leaf ..
    | red _ _ _ _ _ _ _ h1 h2 h3 h4 => exact RB.red _ _ _ _ _ _ _ h2 h1 h4 h3
    | black _ _ _ _ _ _ _ h1 h2 => exact RB.black _ _ _ _ _ _ _ h2 h1

theorem pushRev_spec [DecidableEq F] (L : Lawful O K P) (k : Color) (a b : Tree T F) (v : T) (s h : Int) (z : F) (r : Bool) (hr : K.rev = false → r = false) :
    ∃ a' b', pushRevIf K (.node k a b v s h z r) = Except.ok (.node k a' b' v s h z false) ∧
      Alike a a' ∧ Alike b b' ∧ (Dat O K P a → Dat O K P a') ∧ (Dat O K P b → Dat O K P b') ∧
      (Dat O K P a → seq O a' = if r then (seq O a).reverse else seq O a) ∧ (Dat O K P b → seq O b' = if r then (seq O b).reverse else seq O b) := by
  rw [pushRevIf]
  by_cases hk : K.rev = true
  · rw [if_pos hk, pushRev]
    cases r with
    | false => exact ⟨a, b, rfl, Alike.refl _, Alike.refl _, fun x => x, fun x => x, fun _ => rfl, fun _ => rfl⟩
    | true => exact ⟨_, _, rfl, alike_reverseAll _, alike_reverseAll _, fun x => (reverseAll_spec L hk a x).1, fun x => (reverseAll_spec L hk b x).1, fun x => (reverseAll_spec L hk a x).2.1, fun x => (reverseAll_spec L hk b x).2.1⟩
  · have := hr (by simpa using hk)
    subst this
    rw [if_neg hk]
    exact ⟨a, b, rfl, Alike.refl _, Alike.refl _, fun x => x, fun x => x, fun _ => rfl, fun _ => rfl⟩

theorem push_spec [DecidableEq F] (L : Lawful O K P) (k : Color) (a b : Tree T F) (v : T) (s h : Int) (z : F) (r : Bool) (hd : Dat O K P (.node k a b v s h z r)) :
    ∃ a' b', push O K (.node k a b v s h z r) = .ok (.node k a' b' v s h O.id false) ∧ Alike a a' ∧ Alike b b' ∧
      Dat O K P (.node k a' b' v s h O.id false) ∧ seq O (.node k a' b' v s h O.id false) = seq O (.node k a b v s h z r) := by
  obtain ⟨a1, b1, e1, sa, sb, da, db, qa, qb⟩ := pushLaz_spec L k a b v s h z r hd
  obtain ⟨a2, b2, e2, sa', sb', da', db', qa', qb'⟩ := pushRev_spec L k a1 b1 v s h O.id r hd.2.1
  refine ⟨a2, b2, ?_, sa.trans sa', sb.trans sb', ?_⟩
  · rw [push, e1, ok_bind, e2]
  · have na := (sa.trans sa').isNul
    have nb := (sb.trans sb').isNul
    have key : seq O (.node k a2 b2 v s h O.id false) = seq O (.node k a b v s h z r) := by
      obtain ⟨_, _, hd | hd⟩ := hd
      · rw [seq, seq, na, nb, hd.1, hd.2.1]
        rfl
      · rw [seq, seq, na, nb, hd.1, hd.2.1, qa' (da hd.2.2.1), qb' (db hd.2.2.2.1), qa hd.2.2.1, qb hd.2.2.2.1]
        cases r <;> simp [L.map_id, Function.comp_def]
    refine ⟨⟨fun _ => rfl, fun _ => rfl, ?_⟩, key⟩
    obtain ⟨_, _, hd | hd⟩ := hd
    · exact Or.inl ⟨na.trans hd.1, nb.trans hd.2.1, hd.2.2⟩
    · exact Or.inr ⟨na.trans hd.1, nb.trans hd.2.1, da' (da hd.2.2.1), db' (db hd.2.2.2.1), by rw [key]; exact hd.2.2.2.2.1, by rw [key]; exact hd.2.2.2.2.2⟩

theorem push_id [DecidableEq F] (k : Color) (a b : Tree T F) (v : T) (s h : Int) : push O K (.node k a b v s h O.id false) = .ok (.node k a b v s h O.id false) := by
  rw [push, pushLazIf]
  have : (if K.lazy = true then pushLaz O (Tree.node k a b v s h O.id false) else pure (Tree.node k a b v s h O.id false)) = Except.ok (Tree.node k a b v s h O.id false) := by
    split
    · rw [pushLaz, if_neg (by simp)]
      rfl
    · rfl
  rw [this, ok_bind, pushRevIf]
  split
  · rfl
  · rfl

/-- A node with child `o` at `1 - i` and child `c` at `i`. -/
def mk (O : Ops T F) (i : Bool) (k : Color) (o c : Tree T F) (v : T) (s h : Int) : Tree T F := if i then .node k o c v s h O.id false else .node k c o v s h O.id false

/-- Concatenation with the second list on side `i`. -/
def cat (i : Bool) (xs ys : List T) : List T := if i then xs ++ ys else ys ++ xs

theorem cat_assoc (i : Bool) (xs ys zs : List T) : cat i (cat i xs ys) zs = cat i xs (cat i ys zs) := by cases i <;> simp [cat]
theorem cat_length (i : Bool) (xs ys : List T) : (cat i xs ys).length = xs.length + ys.length := by cases i <;> simp [cat]; omega

theorem child_mk (i : Bool) (k : Color) (o c : Tree T F) (v : T) (s h : Int) : child i (mk O i k o c v s h) = .ok c := by cases i <;> rfl
theorem child_mk' (i : Bool) (k : Color) (o c : Tree T F) (v : T) (s h : Int) : child (!i) (mk O i k o c v s h) = .ok o := by cases i <;> rfl
theorem setChild_mk (i : Bool) (k : Color) (o c c' : Tree T F) (v : T) (s h : Int) : setChild i c' (mk O i k o c v s h) = .ok (mk O i k o c' v s h) := by cases i <;> rfl
theorem setChild_mk' (i : Bool) (k : Color) (o c o' : Tree T F) (v : T) (s h : Int) : setChild (!i) o' (mk O i k o c v s h) = .ok (mk O i k o' c v s h) := by cases i <;> rfl
theorem setCol_mk (i : Bool) (k k' : Color) (o c : Tree T F) (v : T) (s h : Int) : setCol k' (mk O i k o c v s h) = .ok (mk O i k' o c v s h) := by cases i <;> rfl
theorem getCol_mk (i : Bool) (k : Color) (o c : Tree T F) (v : T) (s h : Int) : getCol (mk O i k o c v s h) = .ok k := by cases i <;> rfl
theorem push_mk [DecidableEq F] (i : Bool) (k : Color) (o c : Tree T F) (v : T) (s h : Int) : push O K (mk O i k o c v s h) = .ok (mk O i k o c v s h) := by cases i <;> exact push_id ..
theorem color_mk (i : Bool) (k : Color) (o c : Tree T F) (v : T) (s h : Int) : color (mk O i k o c v s h) = k := by cases i <;> rfl

theorem rb_red (i : Bool) {o c : Tree T F} {v : T} {s h : Int} {w : Nat} (h1 : RB o w) (h2 : RB c w) (h3 : color o = .black) (h4 : color c = .black) (hh : h = w) : RB (mk O i .red o c v s h) w := by
  subst hh
  cases i
  · exact RB.red _ _ _ _ _ _ _ h2 h1 h4 h3
  · exact RB.red _ _ _ _ _ _ _ h1 h2 h3 h4

theorem rb_black (i : Bool) {o c : Tree T F} {v : T} {s h : Int} {w : Nat} (h1 : RB o w) (h2 : RB c w) (hh : h = w) : RB (mk O i .black o c v s h) (w + 1) := by
  subst hh
  cases i
  · exact RB.black _ _ _ _ _ _ _ h2 h1
  · exact RB.black _ _ _ _ _ _ _ h1 h2

theorem seq_mk (L : Lawful O K P) (i : Bool) (k : Color) (o c : Tree T F) (v : T) (s h : Int) (ho : isNul o = false) (hc : isNul c = false) : seq O (mk O i k o c v s h) = cat i (seq O o) (seq O c) := by
  cases i
  · simp [mk, cat, seq, ho, hc, L.map_id]
  · simp [mk, cat, seq, ho, hc, L.map_id]

/-- `update` on two existing children. -/
theorem update_mk (L : Lawful O K P) (i : Bool) (k : Color) (o c : Tree T F) (v : T) (s h : Int) (ho : isNul o = false) (hc : isNul c = false)
    (dO : Dat O K P o) (dc : Dat O K P c) (hlen : (seq O o).length + (seq O c).length ≤ maxLen) (w : Nat) (ro : RedBlack.newLev o = w) (rc : RedBlack.newLev c = w) :
    ∃ v' s', update O K (mk O i k o c v s h) = .ok (mk O i k o c v' s' w) ∧ Dat O K P (mk O i k o c v' s' w) ∧ seq O (mk O i k o c v' s' w) = cat i (seq O o) (seq O c) := by
  have s1 := dO.size
  have s2 := dc.size
  unfold maxLen at hlen
  have hs := seq_mk L i k o c v s h ho hc
  cases i
  · refine ⟨if K.prod then O.op (value O c) (value O o) else v, size c + size o, ?_, ?_⟩
    · rw [mk, if_neg (by simp), update, newSiz, ho, hc]
      rw [if_neg (by simp), i32_ok ⟨by omega, by omega⟩, ok_bind, rc]
      rfl
    · have hs' := fun v' s' => seq_mk L false k o c v' s' (w : Int) ho hc
      refine ⟨?_, hs' _ _⟩
      refine ⟨fun _ => rfl, fun _ => rfl, Or.inr ⟨hc, ho, dc, dO, ?_, fun hp => ?_⟩⟩
      · have := hs' (if K.prod then O.op (value O c) (value O o) else v) (size c + size o)
        simp only [mk, Bool.false_eq_true, if_false] at this
        rw [this, cat_length]; omega
      · have := hs' (if K.prod then O.op (value O c) (value O o) else v) (size c + size o)
        simp only [mk, Bool.false_eq_true, if_false] at this
        rw [this, if_pos (L.has_prod hp), dO.value L hp, dc.value L hp, ← prodL_append L hp]
        rfl
  · refine ⟨if K.prod then O.op (value O o) (value O c) else v, size o + size c, ?_, ?_⟩
    · rw [mk, if_pos rfl, update, newSiz, ho, hc]
      rw [if_neg (by simp), i32_ok ⟨by omega, by omega⟩, ok_bind, ro]
      rfl
    · have hs' := fun v' s' => seq_mk L true k o c v' s' (w : Int) ho hc
      refine ⟨?_, hs' _ _⟩
      refine ⟨fun _ => rfl, fun _ => rfl, Or.inr ⟨ho, hc, dO, dc, ?_, fun hp => ?_⟩⟩
      · have := hs' (if K.prod then O.op (value O o) (value O c) else v) (size o + size c)
        simp only [mk, if_true] at this
        rw [this, cat_length]; omega
      · have := hs' (if K.prod then O.op (value O o) (value O c) else v) (size o + size c)
        simp only [mk, if_true] at this
        rw [this, if_pos (L.has_prod hp), dO.value L hp, dc.value L hp, ← prodL_append L hp]
        rfl

/-- A tree with two children, seen from side `i`, after `push`. -/
theorem push_branch [DecidableEq F] (L : Lawful O K P) (i : Bool) (t : Tree T F) (hd : Dat O K P t) (w : Nat) (ht : (RB t w ∧ 0 < height t) ∨ ∃ a b v s z r, t = .node .red a b v s w z r ∧ RB a w ∧ RB b w ∧ color (if i then a else b) = .black) :
    ∃ k o c v s, ∃ h : Nat, push O K t = .ok (mk O i k o c v s h) ∧ RB o h ∧ RB c h ∧ Dat O K P o ∧ Dat O K P c ∧ seq O t = cat i (seq O o) (seq O c) ∧ k = color t ∧ nodes o + nodes c + 1 = nodes t ∧
      (k = .black → w = h + 1) ∧ (k = .red → w = h ∧ color o = .black) ∧ height t = h ∧
      (k = .red → RB t w → color c = .black) ∧ (∀ x, child (!i) t = .ok x → color o = color x) ∧ (∀ x, child i t = .ok x → color c = color x) := by
  have key : ∃ k a b v s z r, ∃ h : Nat, t = .node k a b v s h z r ∧ RB a h ∧ RB b h ∧ (k = .black → w = h + 1) ∧ (k = .red → w = h ∧ color (if i then a else b) = .black) ∧ (k = .red → RB t w → color (if i then b else a) = .black) := by
    rcases ht with ⟨ht, h0⟩ | ⟨a, b, v, s, z, r, ht, ha, hb, hc⟩
    · cases ht with
      | leaf => simp [RedBlack.height] at h0
      | red a b v s z r w ha hb ca cb => exact ⟨_, _, _, _, _, _, _, _, rfl, ha, hb, nofun, fun _ => ⟨rfl, by cases i <;> simpa⟩, fun _ _ => by cases i <;> simpa⟩
      | black a b v s z r w ha hb => exact ⟨_, _, _, _, _, _, _, _, rfl, ha, hb, fun _ => rfl, nofun, nofun⟩
    · refine ⟨_, _, _, _, _, _, _, _, ht, ha, hb, nofun, fun _ => ⟨rfl, hc⟩, fun _ x => ?_⟩
      rw [ht] at x
      cases x with
      | red _ _ _ _ _ _ _ _ _ c1 c2 => cases i <;> assumption
  obtain ⟨k, a, b, v, s, z, r, h, rfl, ha, hb, hk1, hk2, hk3⟩ := key
  obtain ⟨a', b', e, sa, sb, hd', hq⟩ := push_spec L k a b v s h z r hd
  have ha' := sa.rb _ ha
  have hb' := sb.rb _ hb
  have hdab : Dat O K P a' ∧ Dat O K P b' := by
    obtain ⟨_, _, hd' | hd'⟩ := hd'
    · rw [ha'.pos.2] at hd'
      exact absurd hd'.1 (by simp)
    · exact ⟨hd'.2.2.1, hd'.2.2.2.1⟩
  have hsq : seq O (.node k a b v s h z r) = seq O a' ++ seq O b' := by
    rw [← hq, seq, ha'.pos.2, hb'.pos.2]
    simp [L.map_id]
  cases i
  · refine ⟨k, b', a', v, s, h, e, hb', ha', hdab.2, hdab.1, hsq, rfl, by have := sa.nodes; have := sb.nodes; simp only [nodes]; omega, hk1, fun x => ⟨(hk2 x).1, ?_⟩, rfl, fun x y => ?_, ?_, ?_⟩
    · rw [sb.col]; exact (hk2 x).2
    · rw [sa.col]; exact hk3 x y
    · intro x hx
      simp only [child, Except.ok.injEq] at hx
      subst hx
      rw [sb.col]; rfl
    · intro x hx
      simp only [child, Except.ok.injEq] at hx
      subst hx
      rw [sa.col]; rfl
  · refine ⟨k, a', b', v, s, h, e, ha', hb', hdab.1, hdab.2, hsq, rfl, by have := sa.nodes; have := sb.nodes; simp only [nodes]; omega, hk1, fun x => ⟨(hk2 x).1, ?_⟩, rfl, fun x y => ?_, ?_, ?_⟩
    · rw [sa.col]; exact (hk2 x).2
    · rw [sb.col]; exact hk3 x y
    · intro x hx
      simp only [child, Except.ok.injEq] at hx
      subst hx
      rw [sa.col]; rfl
    · intro x hx
      simp only [child, Except.ok.injEq] at hx
      subst hx
      rw [sb.col]; rfl

theorem setCol_eq (k : Color) {t : Tree T F} (h : isNul t = false) : ∃ u, setCol k t = .ok u ∧ color u = k ∧ isNul u = false ∧ nodes u = nodes t ∧ seq O u = seq O t ∧ (Dat O K P t → Dat O K P u) ∧ (k = .black → u = blacken t) ∧ child true u = child true t ∧ child false u = child false t := by
  cases t with
  | nul => simp [isNul] at h
  | node k' a b v s h z r => exact ⟨_, rfl, rfl, rfl, rfl, rfl, fun x => x, fun e => by rw [e]; rfl, rfl, rfl⟩

theorem blacken_black {t : Tree T F} (h : color t = .black) : blacken t = t := by
  cases t with
  | nul => rfl
  | node k a b v s hh z r => simp only [color] at h; rw [h]; rfl

theorem blacken_red {t : Tree T F} {w : Nat} (hr : RB t w) (h : color t = .red) : RB (blacken t) (w + 1) := by
  cases hr with
  | leaf => simp [color] at h
  | red a b v s z r w ha hb ca cb => exact RB.black _ _ _ _ _ _ _ ha hb
  | black => simp [color] at h

theorem getCol_eq {t : Tree T F} (h : isNul t = false) : getCol t = .ok (color t) := by
  cases t with
  | nul => simp [isNul] at h
  | node => rfl

theorem RB.isNul' {t : Tree T F} {w : Nat} (h : RB t w) : isNul t = false := h.pos.2

/-- A red root whose child at `i` may be red. -/
def Wk (i : Bool) (t : Tree T F) (w : Nat) : Prop := ∃ a b v s z r, t = .node .red a b v s w z r ∧ RB a w ∧ RB b w ∧ color (if i then a else b) = .black

/-- What `merge<false>` returns. -/
structure Res (O : Ops T F) (K : Kind) (P : Prop) (i : Bool) (t0 : Tree T F) (xs : List T) (w : Nat) (u : Tree T F) : Prop where
  dat : Dat O K P u
  seq : seq O u = cat i (RedBlack.seq O t0) xs
  rb : RB u w ∨ (color t0 = .red ∧ Wk i u w)

/-- What `merge<true>` returns. -/
structure ResB (O : Ops T F) (K : Kind) (P : Prop) (xs : List T) (u : Tree T F) : Prop where
  dat : Dat O K P u
  seq : seq O u = xs
  rb : ∃ w, RB u w
  col : color u = .black

theorem force_spec (fb : Bool) (u : Tree T F) (i : Bool) (t0 : Tree T F) (xs : List T) (w : Nat) (h : Res O K P i t0 xs w u) (h0 : fb = true → RB u w) :
    Tot (force fb u) (fun u => (fb = false → Res O K P i t0 xs w u) ∧ (fb = true → ResB O K P (cat i (seq O t0) xs) u)) := by
  rw [force]
  cases fb with
  | false => exact tot_ok.2 ⟨fun _ => h, nofun⟩
  | true =>
    rw [if_pos rfl]
    have hr := h0 rfl
    obtain ⟨u', e, hc, hn, _, hs, hd, hb, _⟩ := setCol_eq (O := O) (K := K) (P := P) .black hr.isNul'
    rw [e]
    refine tot_ok.2 ⟨nofun, fun _ => ⟨hd h.dat, hs.trans h.seq, ?_, hc⟩⟩
    rw [hb rfl]
    by_cases hk : color u = .black
    · rw [blacken_black hk]; exact ⟨_, hr⟩
    · exact ⟨_, blacken_red hr (by cases hx : color u <;> simp_all)⟩

end RedBlack
