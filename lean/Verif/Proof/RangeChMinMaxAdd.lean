import Verif.Spec.SegmentTreeBeats
import Verif.Proof.SegmentTreeBeatsOps
import Mathlib.Tactic.Ring

/-! # RangeChMinMaxAddRangeSum: the summaries -/

namespace RangeChMinMaxAdd
open Cxx Beats.Spec

/-- The summary describes the values. -/
structure Desc (inf : Int) (d : Data) (vs : List Int) : Prop where
  fail : d.fail = false
  lo : IsLo inf vs d.lo d.lo2
  hi : IsHi inf vs d.hi d.hi2
  sum : d.sum = vs.sum
  siz : d.siz = vs.length
  numLo : d.numLo = vs.count d.lo
  numHi : d.numHi = vs.count d.hi

/-- The map of one value. -/
def act (f : Fn) (v : Int) : Int := max f.lb (min v f.ub) + f.add

def In (inf v : Int) : Prop := -inf < v ∧ v < inf

variable {inf : Int} {xs ys : List Int}

/-- Weak form of `IsLo`, sufficient for values below `inf`. -/
structure WLo (inf : Int) (vs : List Int) (lo lo2 : Int) : Prop where
  w1 : ∀ v ∈ vs, lo ≤ v
  w2 : lo = inf ∨ lo ∈ vs
  w3 : ∀ v ∈ vs, v = lo ∨ lo2 ≤ v
  w4 : lo2 = inf ∨ (lo2 ∈ vs ∧ lo2 ≠ lo)

structure WHi (inf : Int) (vs : List Int) (hi hi2 : Int) : Prop where
  w1 : ∀ v ∈ vs, v ≤ hi
  w2 : hi = -inf ∨ hi ∈ vs
  w3 : ∀ v ∈ vs, v = hi ∨ v ≤ hi2
  w4 : hi2 = -inf ∨ (hi2 ∈ vs ∧ hi2 ≠ hi)

theorem wlo_of {lo lo2 : Int} (h : IsLo inf xs lo lo2) : WLo inf xs lo lo2 := by
  obtain ⟨h1, h2⟩ := h
  refine ⟨?_, ?_, ?_, ?_⟩
  · rcases h1 with ⟨rfl, -⟩ | ⟨-, h⟩
    · simp
    · exact h
  · exact h1.imp And.right And.left
  · intro v hv
    rcases h2 with ⟨h, -⟩ | ⟨-, -, h⟩
    · exact Or.inl (h v hv)
    · by_cases c : v = lo
      · exact Or.inl c
      · exact Or.inr (h v hv c)
  · rcases h2 with ⟨-, h⟩ | ⟨h, h', -⟩
    · exact Or.inl h
    · exact Or.inr ⟨h, h'⟩

theorem whi_of {hi hi2 : Int} (h : IsHi inf xs hi hi2) : WHi inf xs hi hi2 := by
  obtain ⟨h1, h2⟩ := h
  refine ⟨?_, ?_, ?_, ?_⟩
  · rcases h1 with ⟨rfl, -⟩ | ⟨-, h⟩
    · simp
    · exact h
  · exact h1.imp And.right And.left
  · intro v hv
    rcases h2 with ⟨h, -⟩ | ⟨-, -, h⟩
    · exact Or.inl (h v hv)
    · by_cases c : v = hi
      · exact Or.inl c
      · exact Or.inr (h v hv c)
  · rcases h2 with ⟨-, h⟩ | ⟨h, h', -⟩
    · exact Or.inl h
    · exact Or.inr ⟨h, h'⟩

theorem WLo.is {lo lo2 : Int} (h : WLo inf xs lo lo2) (hx : ∀ v ∈ xs, v < inf) : IsLo inf xs lo lo2 := by
  refine ⟨?_, ?_⟩
  · rcases h.w2 with rfl | h2
    · left
      refine ⟨List.eq_nil_iff_forall_not_mem.2 fun v hv => ?_, rfl⟩
      have := h.w1 v hv
      have := hx v hv
      omega
    · exact Or.inr ⟨h2, h.w1⟩
  · rcases h.w4 with rfl | ⟨h4, h5⟩
    · left
      refine ⟨fun v hv => ?_, rfl⟩
      have := h.w3 v hv
      have := hx v hv
      omega
    · exact Or.inr ⟨h4, h5, fun v hv hne => (h.w3 v hv).resolve_left hne⟩

theorem WHi.is {hi hi2 : Int} (h : WHi inf xs hi hi2) (hx : ∀ v ∈ xs, -inf < v) : IsHi inf xs hi hi2 := by
  refine ⟨?_, ?_⟩
  · rcases h.w2 with rfl | h2
    · left
      refine ⟨List.eq_nil_iff_forall_not_mem.2 fun v hv => ?_, rfl⟩
      have := h.w1 v hv
      have := hx v hv
      omega
    · exact Or.inr ⟨h2, h.w1⟩
  · rcases h.w4 with rfl | ⟨h4, h5⟩
    · left
      refine ⟨fun v hv => ?_, rfl⟩
      have := h.w3 v hv
      have := hx v hv
      omega
    · exact Or.inr ⟨h4, h5, fun v hv hne => (h.w3 v hv).resolve_left hne⟩

theorem WLo.facts {lo lo2 : Int} (h : WLo inf xs lo lo2) (hx : ∀ v ∈ xs, v < inf) :
    lo ≤ lo2 ∧ (lo = lo2 → lo = inf) ∧ lo ≤ inf ∧ lo2 ≤ inf := by
  have a : lo ≤ inf := by
    rcases h.w2 with h2 | h2
    · omega
    · exact (hx _ h2).le
  rcases h.w4 with h4 | ⟨h4, h5⟩
  · exact ⟨by omega, by omega, by omega, by omega⟩
  · have := hx _ h4
    have := h.w1 _ h4
    exact ⟨by omega, by omega, by omega, by omega⟩

theorem WHi.facts {hi hi2 : Int} (h : WHi inf xs hi hi2) (hx : ∀ v ∈ xs, -inf < v) :
    hi2 ≤ hi ∧ (hi = hi2 → hi = -inf) ∧ -inf ≤ hi ∧ -inf ≤ hi2 := by
  have a : -inf ≤ hi := by
    rcases h.w2 with h2 | h2
    · omega
    · exact (hx _ h2).le
  rcases h.w4 with h4 | ⟨h4, h5⟩
  · exact ⟨by omega, by omega, by omega, by omega⟩
  · have := hx _ h4
    have := h.w1 _ h4
    exact ⟨by omega, by omega, by omega, by omega⟩

theorem wlo_append {a a2 b b2 : Int} (hx : ∀ v ∈ xs, v < inf) (hy : ∀ v ∈ ys, v < inf) (h1 : WLo inf xs a a2) (h2 : WLo inf ys b b2) :
    WLo inf (xs ++ ys) (min a b) (secondLo a a2 b b2) := by
  obtain ⟨a1, a3, a4, a5⟩ := h1.facts hx
  obtain ⟨b1, b3, b4, b5⟩ := h2.facts hy
  have ha := h1.w2
  have hb := h2.w2
  have ha2 := h1.w4
  have hb2 := h2.w4
  refine ⟨?_, ?_, ?_, ?_⟩
  · intro v hv
    rcases List.mem_append.1 hv with hv | hv
    · have := h1.w1 v hv; omega
    · have := h2.w1 v hv; omega
  · rw [List.mem_append]
    rcases le_total a b with h | h
    · rw [min_eq_left h]; tauto
    · rw [min_eq_right h]; tauto
  · intro v hv
    unfold secondLo
    rcases List.mem_append.1 hv with hv | hv
    · have := h1.w1 v hv
      have := h1.w3 v hv
      split_ifs <;> omega
    · have := h2.w1 v hv
      have := h2.w3 v hv
      split_ifs <;> omega
  · rw [List.mem_append]
    unfold secondLo
    split_ifs with c1 c2 c3
    · rcases le_total a2 b2 with h | h
      · rw [min_eq_left h]
        rcases ha2 with h' | ⟨h', h''⟩
        · exact Or.inl h'
        · exact Or.inr ⟨Or.inl h', by omega⟩
      · rw [min_eq_right h]
        rcases hb2 with h' | ⟨h', h''⟩
        · exact Or.inl h'
        · exact Or.inr ⟨Or.inr h', by omega⟩
    · rcases ha2 with h' | ⟨h', h''⟩
      · exact Or.inl h'
      · exact Or.inr ⟨Or.inl h', by omega⟩
    · rcases hb2 with h' | ⟨h', h''⟩
      · exact Or.inl h'
      · exact Or.inr ⟨Or.inr h', by omega⟩
    · rcases le_total a b with h | h
      · rw [max_eq_right h]
        rcases hb with h' | h'
        · exact Or.inl h'
        · exact Or.inr ⟨Or.inr h', by omega⟩
      · rw [max_eq_left h]
        rcases ha with h' | h'
        · exact Or.inl h'
        · exact Or.inr ⟨Or.inl h', by omega⟩

theorem whi_append {a a2 b b2 : Int} (hx : ∀ v ∈ xs, -inf < v) (hy : ∀ v ∈ ys, -inf < v) (h1 : WHi inf xs a a2) (h2 : WHi inf ys b b2) :
    WHi inf (xs ++ ys) (max a b) (secondHi a a2 b b2) := by
  obtain ⟨a1, a3, a4, a5⟩ := h1.facts hx
  obtain ⟨b1, b3, b4, b5⟩ := h2.facts hy
  have ha := h1.w2
  have hb := h2.w2
  have ha2 := h1.w4
  have hb2 := h2.w4
  refine ⟨?_, ?_, ?_, ?_⟩
  · intro v hv
    rcases List.mem_append.1 hv with hv | hv
    · have := h1.w1 v hv; omega
    · have := h2.w1 v hv; omega
  · rw [List.mem_append]
    rcases le_total a b with h | h
    · rw [max_eq_right h]; tauto
    · rw [max_eq_left h]; tauto
  · intro v hv
    unfold secondHi
    rcases List.mem_append.1 hv with hv | hv
    · have := h1.w1 v hv
      have := h1.w3 v hv
      split_ifs <;> omega
    · have := h2.w1 v hv
      have := h2.w3 v hv
      split_ifs <;> omega
  · rw [List.mem_append]
    unfold secondHi
    split_ifs with c1 c2 c3
    · rcases le_total a2 b2 with h | h
      · rw [max_eq_right h]
        rcases hb2 with h' | ⟨h', h''⟩
        · exact Or.inl h'
        · exact Or.inr ⟨Or.inr h', by omega⟩
      · rw [max_eq_left h]
        rcases ha2 with h' | ⟨h', h''⟩
        · exact Or.inl h'
        · exact Or.inr ⟨Or.inl h', by omega⟩
    · rcases ha2 with h' | ⟨h', h''⟩
      · exact Or.inl h'
      · exact Or.inr ⟨Or.inl h', by omega⟩
    · rcases hb2 with h' | ⟨h', h''⟩
      · exact Or.inl h'
      · exact Or.inr ⟨Or.inr h', by omega⟩
    · rcases le_total a b with h | h
      · rw [min_eq_left h]
        rcases ha with h' | h'
        · exact Or.inl h'
        · exact Or.inr ⟨Or.inl h', by omega⟩
      · rw [min_eq_right h]
        rcases hb with h' | h'
        · exact Or.inl h'
        · exact Or.inr ⟨Or.inr h', by omega⟩

theorem count_if {l a : Int} (h : l ≠ a → ∀ v ∈ xs, l ≠ v) : (if l = a then 1 else 0) * (xs.count a : Int) = xs.count l := by
  split
  next e => rw [e, one_mul]
  next e =>
    rw [zero_mul, List.count_eq_zero.2 fun hm => h e l hm rfl]; rfl

theorem op_desc {x y : Data} (hx : ∀ v ∈ xs, In inf v) (hy : ∀ v ∈ ys, In inf v) (h1 : Desc inf x xs) (h2 : Desc inf y ys) :
    Desc inf (op x y) (xs ++ ys) := by
  have u : ∀ v ∈ xs ++ ys, In inf v := by
    intro v hv
    rcases List.mem_append.1 hv with hv | hv
    · exact hx v hv
    · exact hy v hv
  have l1 := wlo_of h1.lo
  have l2 := wlo_of h2.lo
  have k1 := whi_of h1.hi
  have k2 := whi_of h2.hi
  refine ⟨rfl, (wlo_append (fun v hv => (hx v hv).2) (fun v hv => (hy v hv).2) l1 l2).is fun v hv => (u v hv).2,
    (whi_append (fun v hv => (hx v hv).1) (fun v hv => (hy v hv).1) k1 k2).is fun v hv => (u v hv).1, ?_, ?_, ?_, ?_⟩
  · show x.sum + y.sum = _
    rw [List.sum_append, h1.sum, h2.sum]
  · show x.siz + y.siz = _
    rw [List.length_append, h1.siz, h2.siz]; push_cast; rfl
  · show (if min x.lo y.lo = x.lo then 1 else 0) * x.numLo + (if min x.lo y.lo = y.lo then 1 else 0) * y.numLo = ((xs ++ ys).count (min x.lo y.lo) : Int)
    rw [List.count_append, h1.numLo, h2.numLo, count_if, count_if]
    · push_cast; rfl
    · intro h v hv
      have := l2.w1 v hv; omega
    · intro h v hv
      have := l1.w1 v hv; omega
  · show (if max x.hi y.hi = x.hi then 1 else 0) * x.numHi + (if max x.hi y.hi = y.hi then 1 else 0) * y.numHi = ((xs ++ ys).count (max x.hi y.hi) : Int)
    rw [List.count_append, h1.numHi, h2.numHi, count_if, count_if]
    · push_cast; rfl
    · intro h v hv
      have := k2.w1 v hv; omega
    · intro h v hv
      have := k1.w1 v hv; omega

theorem e_desc : Desc inf (e inf) [] := ⟨rfl, ⟨Or.inl ⟨rfl, rfl⟩, Or.inl ⟨by simp, rfl⟩⟩, ⟨Or.inl ⟨rfl, rfl⟩, Or.inl ⟨by simp, rfl⟩⟩, rfl, rfl, rfl, rfl⟩

theorem mk_desc {c : Int} (hne : xs ≠ []) (h : ∀ v ∈ xs, v = c) {k : Int} (hk : k = xs.length) : Desc inf (mk inf c k) xs := by
  have hm : c ∈ xs := by
    cases xs with
    | nil => exact absurd rfl hne
    | cons a t => rw [← h a (by simp)]; simp
  have hr : xs = List.replicate xs.length c := List.eq_replicate_iff.2 ⟨rfl, h⟩
  have hc : k = xs.count c := by rw [hk, hr]; simp
  refine ⟨rfl, ⟨Or.inr ⟨hm, fun v hv => (h v hv).ge⟩, Or.inl ⟨h, rfl⟩⟩, ⟨Or.inr ⟨hm, fun v hv => (h v hv).le⟩, Or.inl ⟨h, rfl⟩⟩, ?_, hk, hc, hc⟩
  show c * k = _
  rw [hr, List.sum_replicate, hk, nsmul_eq_mul, mul_comm]

theorem clamp_eq {v lo hi : Int} (h : lo ≤ hi) : clamp v lo hi = .ok (max lo (min v hi)) := by
  unfold clamp
  rw [if_neg (by omega)]
  congr 1
  split_ifs <;> omega

theorem count_map {g : Int → Int} {a b : Int} (h : ∀ v ∈ xs, g v = b ↔ v = a) : (xs.map g).count b = xs.count a := by
  induction xs with
  | nil => rfl
  | cons x xs ih =>
    rw [List.map_cons, List.count_cons, List.count_cons, ih fun v hv => h v (List.mem_cons_of_mem _ hv)]
    congr 1
    have := h x (by simp)
    by_cases c : x = a
    · rw [this.2 c, c]; simp
    · have : g x ≠ b := fun e => c (this.1 e)
      simp [c, this]

theorem sum_map {g : Int → Int} {a b na nb d : Int} (hab : a ≠ b) (h : ∀ v ∈ xs, g v = if v = a then na + d else if v = b then nb + d else v + d) :
    (xs.map g).sum = xs.sum + ((na - a) * xs.count a + (nb - b) * xs.count b + d * xs.length) := by
  induction xs with
  | nil => simp
  | cons x xs ih =>
    rw [List.map_cons, List.sum_cons, List.sum_cons, ih fun v hv => h v (List.mem_cons_of_mem _ hv), h x (by simp), List.count_cons, List.count_cons,
      List.length_cons]
    by_cases c : x = a
    · subst c
      simp only [if_true, beq_self_eq_true, beq_iff_eq, if_neg hab]
      push_cast; ring
    · by_cases c' : x = b
      · subst c'
        simp only [if_true, beq_self_eq_true, beq_iff_eq, if_neg c]
        push_cast; ring
      · simp only [beq_iff_eq, if_neg c, if_neg c']
        push_cast; ring

theorem sum_two {a b : Int} (hab : a ≠ b) (h : ∀ v ∈ xs, v = a ∨ v = b) : xs.sum = a * xs.count a + b * xs.count b := by
  induction xs with
  | nil => simp
  | cons x xs ih =>
    rw [List.sum_cons, ih fun v hv => h v (List.mem_cons_of_mem _ hv), List.count_cons, List.count_cons]
    rcases h x (by simp) with rfl | rfl
    · simp only [beq_self_eq_true, beq_iff_eq, if_neg hab, if_true]
      push_cast; ring
    · simp only [beq_self_eq_true, beq_iff_eq, if_neg (Ne.symm hab), if_true]
      push_cast; ring

theorem map_desc {f : Fn} {x : Data} (ok : f.lb ≤ f.ub) (hx : ∀ v ∈ xs, In inf v) (hx' : ∀ v ∈ xs, In inf (act f v)) (h : Desc inf x xs) :
    Tot (mapping inf f x) fun y => (y.fail = false ∧ Desc inf y (xs.map (act f))) ∨ (y.fail = true ∧ 2 ≤ xs.length ∧ f ≠ idF inf) := by
  have l := wlo_of h.lo
  have k := whi_of h.hi
  unfold mapping
  split
  next h0 =>
    have : xs = [] := by
      have := h.siz
      rw [h0] at this
      exact List.length_eq_zero_iff.1 (by omega)
    subst this
    exact Tot.pure (Or.inl ⟨rfl, e_desc⟩)
  next h0 =>
    have hne : xs ≠ [] := by
      rintro rfl
      exact h0 (by rw [h.siz]; rfl)
    have hlo : x.lo ∈ xs := (h.lo.1.resolve_left fun e => hne e.1).1
    have hhi : x.hi ∈ xs := (h.hi.1.resolve_left fun e => hne e.1).1
    have hlh : x.lo ≤ x.hi := l.w1 _ hhi
    split
    next hc =>
      rw [clamp_eq ok, ok_bind]
      refine Tot.pure (Or.inl ⟨rfl, mk_desc (by simpa using hne) ?_ (by rw [List.length_map]; exact h.siz)⟩)
      intro v hv
      obtain ⟨w, hw, rfl⟩ := List.mem_map.1 hv
      have := l.w1 w hw
      have := k.w1 w hw
      unfold act
      omega
    next hc =>
      have u1 : ∀ v ∈ xs.map (act f), v < inf := by
        intro v hv
        obtain ⟨w, hw, rfl⟩ := List.mem_map.1 hv
        exact (hx' w hw).2
      have u2 : ∀ v ∈ xs.map (act f), -inf < v := by
        intro v hv
        obtain ⟨w, hw, rfl⟩ := List.mem_map.1 hv
        exact (hx' w hw).1
      have hlo2 : x.lo2 ∈ xs ∧ x.lo2 ≠ x.lo ∧ ∀ v ∈ xs, v ≠ x.lo → x.lo2 ≤ v :=
        h.lo.2.resolve_left fun e => by have := e.1 _ hhi; omega
      have hhi2 : x.hi2 ∈ xs ∧ x.hi2 ≠ x.hi ∧ ∀ v ∈ xs, v ≠ x.hi → v ≤ x.hi2 :=
        h.hi.2.resolve_left fun e => by have := e.1 _ hlo; omega
      have mlo2 := l.w1 _ hlo2.1
      have mhi2 := k.w1 _ hhi2.1
      split
      next h2 =>
        have two : ∀ v ∈ xs, v = x.lo ∨ v = x.hi := by
          intro v hv
          have := l.w3 v hv
          have := k.w1 v hv
          omega
        have elo : act f x.lo = max x.lo f.lb + f.add := by unfold act; omega
        have ehi : act f x.hi = min x.hi f.ub + f.add := by unfold act; omega
        have hlt : act f x.lo < act f x.hi := by rw [elo, ehi]; omega
        have clo : (xs.map (act f)).count (act f x.lo) = xs.count x.lo := count_map fun v hv => by
          rcases two v hv with rfl | rfl <;> constructor <;> intro <;> omega
        have chi : (xs.map (act f)).count (act f x.hi) = xs.count x.hi := count_map fun v hv => by
          rcases two v hv with rfl | rfl <;> constructor <;> intro <;> omega
        have two' : ∀ v ∈ xs.map (act f), v = act f x.lo ∨ v = act f x.hi := by
          intro v hv
          obtain ⟨w, hw, rfl⟩ := List.mem_map.1 hv
          rcases two w hw with rfl | rfl <;> tauto
        have mlo := List.mem_map_of_mem (f := act f) hlo
        have mhi := List.mem_map_of_mem (f := act f) hhi
        rw [← elo, ← ehi]
        refine Tot.pure (Or.inl ⟨h.fail, h.fail, WLo.is ⟨?_, Or.inr mlo, ?_, Or.inr ⟨mhi, by om⟩⟩ u1, WHi.is ⟨?_, Or.inr mhi, ?_, Or.inr ⟨mlo, by om⟩⟩ u2, ?_, ?_, ?_, ?_⟩)
        · intro v hv
          dsimp only
          rcases two' v hv with rfl | rfl <;> omega
        · intro v hv
          dsimp only
          rcases two' v hv with rfl | rfl <;> omega
        · intro v hv
          dsimp only
          rcases two' v hv with rfl | rfl <;> omega
        · intro v hv
          dsimp only
          rcases two' v hv with rfl | rfl <;> omega
        · dsimp only
          rw [h.numLo, h.numHi, sum_two (xs := xs.map (act f)) hlt.ne two', clo, chi]
        · dsimp only
          rw [List.length_map]; exact h.siz
        · dsimp only
          rw [clo]; exact h.numLo
        · dsimp only
          rw [chi]; exact h.numHi
      next h2 =>
        have ne1 : x.lo2 ≤ x.hi2 := hhi2.2.2 _ hlo2.1 h2
        split
        next h3 =>
          have hact : ∀ v ∈ xs, act f v = if v = x.lo then max x.lo f.lb + f.add else if v = x.hi then min x.hi f.ub + f.add else v + f.add := by
            intro v hv
            have := l.w3 v hv
            have := k.w3 v hv
            unfold act
            split_ifs <;> omega
          have mem : ∀ w, w ∈ xs → act f w ∈ xs.map (act f) := fun w hw => List.mem_map_of_mem hw
          have elo : act f x.lo = max x.lo f.lb + f.add := by unfold act; omega
          have ehi : act f x.hi = min x.hi f.ub + f.add := by unfold act; omega
          have elo2 : act f x.lo2 = x.lo2 + f.add := by unfold act; omega
          have ehi2 : act f x.hi2 = x.hi2 + f.add := by unfold act; omega
          have clo : (xs.map (act f)).count (max x.lo f.lb + f.add) = xs.count x.lo := count_map fun v hv => by
            have := l.w3 v hv
            have := k.w3 v hv
            rw [hact v hv]
            split_ifs <;> omega
          have chi : (xs.map (act f)).count (min x.hi f.ub + f.add) = xs.count x.hi := count_map fun v hv => by
            have := l.w3 v hv
            have := k.w3 v hv
            rw [hact v hv]
            split_ifs <;> omega
          refine Tot.pure (Or.inl ⟨h.fail, h.fail, WLo.is ⟨?_, Or.inr ?_, ?_, Or.inr ⟨?_, ?_⟩⟩ u1, WHi.is ⟨?_, Or.inr ?_, ?_, Or.inr ⟨?_, ?_⟩⟩ u2, ?_, ?_, ?_, ?_⟩)
          · intro v hv
            obtain ⟨w, hw, rfl⟩ := List.mem_map.1 hv
            have := l.w3 w hw
            have := k.w3 w hw
            have := l.w1 w hw
            unfold act
            dsimp only
            omega
          · rw [← elo]; exact mem _ hlo
          · intro v hv
            obtain ⟨w, hw, rfl⟩ := List.mem_map.1 hv
            have := l.w3 w hw
            have := k.w3 w hw
            unfold act
            dsimp only
            omega
          · rw [← elo2]; exact mem _ hlo2.1
          · dsimp only; omega
          · intro v hv
            obtain ⟨w, hw, rfl⟩ := List.mem_map.1 hv
            have := l.w3 w hw
            have := k.w3 w hw
            have := k.w1 w hw
            unfold act
            dsimp only
            omega
          · rw [← ehi]; exact mem _ hhi
          · intro v hv
            obtain ⟨w, hw, rfl⟩ := List.mem_map.1 hv
            have := l.w3 w hw
            have := k.w3 w hw
            unfold act
            dsimp only
            omega
          · rw [← ehi2]; exact mem _ hhi2.1
          · dsimp only; omega
          · dsimp only
            rw [sum_map (show x.lo ≠ x.hi by omega) hact, h.sum, h.numLo, h.numHi, h.siz]
          · dsimp only
            rw [List.length_map]; exact h.siz
          · dsimp only
            rw [clo]; exact h.numLo
          · dsimp only
            rw [chi]; exact h.numHi
        next h3 =>
          refine Tot.pure (Or.inr ⟨rfl, ?_, ?_⟩)
          · by_contra hlen
            have : xs.length = 1 := by
              have := List.length_pos_iff.2 hne
              omega
            obtain ⟨a, rfl⟩ := List.length_eq_one_iff.1 this
            simp only [List.mem_singleton] at hlo hhi
            omega
          · rintro rfl
            have := (hx _ hlo2.1).1
            have := (hx _ hhi2.1).2
            exact h3 ⟨by unfold idF; dsimp only; omega, by unfold idF; dsimp only; omega⟩

theorem law (h0 : 0 ≤ inf) : Beats.Law (prm inf) (In inf) act (fun f => f.lb ≤ f.ub) (Desc inf) where
  e := e_desc
  op := op_desc
  map := map_desc
  comp := by
    intro f g hf hg
    show Tot (composition f g) _
    unfold composition
    rw [clamp_eq hf, ok_bind, clamp_eq hf, ok_bind]
    refine Tot.pure ⟨by dsimp only; omega, fun v _ _ => ?_⟩
    unfold act
    dsimp only
    omega
  compId := by
    show composition _ _ = _
    unfold composition
    show (clamp (-inf + 0) (-inf) inf >>= fun _ => _) = _
    rw [clamp_eq (by omega), ok_bind]
    show (clamp (inf + 0) (-inf) inf >>= fun _ => _) = _
    rw [clamp_eq (by omega), ok_bind]
    show Except.ok (⟨_, _, _⟩ : Fn) = Except.ok (⟨_, _, _⟩ : Fn)
    congr 2
    · show max (-inf) (min (-inf + 0) inf) - 0 = -inf
      omega
    · show max (-inf) (min (inf + 0) inf) - 0 = inf
      omega
  okId := by show -inf ≤ inf; omega
  actId := by
    rintro v ⟨h1, h2⟩
    show max (-inf) (min v inf) + 0 = v
    omega

end RangeChMinMaxAdd
