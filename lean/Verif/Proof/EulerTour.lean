import Verif.Model.EulerTour
import Verif.Proof.Forest2
import Mathlib.Tactic.Positivity
import Mathlib.Tactic.Ring
import Mathlib.Tactic.NormNum
import Mathlib.Algebra.Order.Ring.Int

/-! # Proofs about `library/tree/euler_tour.hpp` -/

namespace EulerTour
open Cxx Graph Tree

/-- Entry times, the clock starting at `k`. -/
def vt : Forest → Nat → Nat → Nat
  | .nil, _, _ => 0
  | .cons v ch rest, k, x => if x = v then k else if x ∈ ch.pre then vt ch (k + 1) x else vt rest (k + 2 + 2 * ch.size) x

/-- Exit times. -/
def lv : Forest → Nat → Nat → Nat
  | .nil, _, _ => 0
  | .cons v ch rest, k, x => if x = v then k + 1 + 2 * ch.size else if x ∈ ch.pre then lv ch (k + 1) x else lv rest (k + 2 + 2 * ch.size) x

/-- The effect of visiting the children `F` of `u`. -/
structure Post (m u : Nat) (F : Forest) (s t : St) : Prop where
  k : t.k = s.k + 2 * F.size
  vsize : t.visit.size = s.visit.size
  lsize : t.leave.size = s.leave.size
  dsize : t.dep.size = s.dep.size
  ssize : t.seg.size = s.seg.size
  visit : ∀ x, at' 0 t.visit x = if x ∈ F.pre then vt F s.k x else at' 0 s.visit x
  leave : ∀ x, at' 0 t.leave x = if x ∈ F.pre then lv F s.k x else at' 0 s.leave x
  dep : ∀ x, at' 0 t.dep x = if x ∈ F.pre then at' 0 s.dep u + (F.path x).length else at' 0 s.dep x
  seg : ∀ j, at' 0 t.seg (m + j) = if s.k ≤ j ∧ j < s.k + 2 * F.size then (tour F u)[j - s.k]?.getD 0 else at' 0 s.seg (m + j)
  low : ∀ j, j < m → at' 0 t.seg j = at' 0 s.seg j

theorem filter_parent (l : List Nat) (p : Nat) : (l.filter fun w => decide (some w ≠ some p)) = l.filter fun w => decide (w ≠ p) := by
  congr 1
  funext w
  simp

theorem kids_dfs {g : Array (List Nat)} {m : Nat} (F : Forest) : ∀ (u p fuel : Nat) (l : List Nat) (s : St), (l.filter fun w => decide (w ≠ p)) = F.roots → F.Fits g (some u) →
    F.height ≤ fuel → (u :: F.pre).Nodup → u < g.size → s.visit.size = g.size → s.leave.size = g.size → s.dep.size = g.size + 1 → m + s.k + 2 * F.size ≤ s.seg.size →
    0 ≤ at' 0 s.dep u → at' 0 s.dep u + F.height < 2 ^ 31 → Tot (forEach l s (kid m u p (dfs g m fuel))) (Post m u F s) := by
  induction F with
  | nil =>
    intro u p fuel l s hl hf hh hn hu s1 s2 s3 s4 d1 d2
    rw [kids_nil (q := fun w => decide (w ≠ p)) (fun s x hx => by simp at hx; rw [kid, if_neg (by simp [hx])]; rfl) hl]
    refine Tot.pure ⟨rfl, rfl, rfl, rfl, rfl, fun x => by simp [Forest.pre], fun x => by simp [Forest.pre], fun x => by simp [Forest.pre], fun j => ?_, fun _ _ => rfl⟩
    rw [if_neg (by simp)]
  | cons v ch rest ih1 ih2 =>
    intro u p fuel l s hl hf hh hn hu s1 s2 s3 s4 d1 d2
    obtain ⟨hv, f1, f2, f3⟩ := hf
    have hn' := hn
    rw [Forest.pre, List.nodup_cons, List.nodup_cons, List.mem_cons, List.mem_append, List.mem_append, List.nodup_append] at hn'
    obtain ⟨m1, m2, m3, m4, m5⟩ := hn'
    have huv : u ≠ v := fun e => m1 (Or.inl e)
    have n1 : (v :: ch.pre).Nodup := List.nodup_cons.2 ⟨fun h => m2 (Or.inl h), m3⟩
    have n2 : (u :: rest.pre).Nodup := List.nodup_cons.2 ⟨fun h => m1 (Or.inr (Or.inr h)), m4⟩
    simp only [Forest.height] at hh d2
    simp only [Forest.size_cons] at s4
    obtain ⟨fuel, rfl⟩ : ∃ f, fuel = f + 1 := ⟨fuel - 1, by omega⟩
    have hvp : v ≠ p := by
      obtain ⟨a, b, -, -, h, -⟩ := kids_cons hl
      simpa using h
    refine kids_tot (q := fun w => decide (w ≠ p)) (R := rest.roots) (v := v) (fun s x hx => by simp at hx; rw [kid, if_neg (by simp [hx])]; rfl) hl ?_
    rw [kid, if_pos hvp, setDep, rd_at 0 (by omega), ok_bind, i32_ok ⟨by omega, by omega⟩, ok_bind, wr_eq (by omega), ok_bind]
    simp only [pure_eq, ok_bind]
    rw [dfs, enter, wr_eq (by show v < s.visit.size; omega), ok_bind, wr_eq (by show m + s.k < s.seg.size; omega), ok_bind]
    simp only [pure_eq, ok_bind]
    rw [rd_some (adj_eq hv), ok_bind]
    have hset : ∀ y, at' 0 (s.dep.setIfInBounds v (at' 0 s.dep u + 1)) y = if y = v then at' 0 s.dep u + 1 else at' 0 s.dep y := fun y => at_set' 0 (by omega) _ y
    refine Tot.bind (ih1 v u fuel (adj g v) _ (by rw [f1, filter_parent]) f2 (by omega) n1 hv (by simpa using s1) (by simpa using s2) (by simpa using s3) (by simp; omega)
      (by dsimp only; rw [hset, if_pos rfl]; omega) (by dsimp only; rw [hset, if_pos rfl]; omega)) fun t ht => ?_
    have tk := ht.k
    have tv := ht.vsize
    have tl := ht.lsize
    have td := ht.dsize
    have ts := ht.ssize
    have tvis := ht.visit
    have tlea := ht.leave
    have tdep := ht.dep
    have tseg := ht.seg
    simp only [Array.size_setIfInBounds] at tk tv tl td ts tvis tlea tdep tseg
    rw [exit, wr_eq (by omega), ok_bind, wr_eq (by omega), ok_bind]
    refine Tot.pure fun b _ hb => ?_
    have hdu : at' 0 t.dep u = at' 0 s.dep u := by
      rw [tdep, if_neg (fun h => m1 (Or.inr (Or.inl h))), hset, if_neg huv]
    refine (ih2 u p (fuel + 1) b _ hb f3 (by omega) n2 hu (by dsimp only; omega) (by simp; omega) (by dsimp only; omega) (by simp; omega) (by dsimp only; omega) (by dsimp only; omega)).mono fun w hw => ?_
    have wk := hw.k
    have wv := hw.vsize
    have wl := hw.lsize
    have wd := hw.dsize
    have ws := hw.ssize
    have wvis := hw.visit
    have wlea := hw.leave
    have wdep := hw.dep
    have wseg := hw.seg
    simp only [Array.size_setIfInBounds] at wk wv wl wd ws wvis wlea wdep wseg
    have hk1 : t.k + 1 = s.k + 2 + 2 * ch.size := by omega
    refine ⟨by simp only [Forest.size_cons]; omega, by omega, by omega, by omega, by omega, fun x => ?_, fun x => ?_, fun x => ?_, fun j => ?_, fun j hj => ?_⟩
    · rw [wvis, tvis, at_set' 0 (by omega)]
      simp only [Forest.pre, List.mem_cons, List.mem_append, vt, hk1]
      by_cases hxv : x = v
      · subst hxv
        rw [if_neg (fun h => m2 (Or.inr h)), if_neg (fun h => m2 (Or.inl h))]
        simp
      · by_cases hxc : x ∈ ch.pre
        · rw [if_neg (fun h => m5 x hxc x h rfl)]
          simp [hxv, hxc]
        · by_cases hxr : x ∈ rest.pre <;> simp [hxv, hxc, hxr]
    · rw [wlea, at_set' 0 (by omega), tlea]
      simp only [Forest.pre, List.mem_cons, List.mem_append, lv, hk1]
      by_cases hxv : x = v
      · subst hxv
        rw [if_neg (fun h => m2 (Or.inr h)), if_pos rfl]
        simp only [true_or, if_true]
        omega
      · by_cases hxc : x ∈ ch.pre
        · rw [if_neg (fun h => m5 x hxc x h rfl)]
          simp [hxv, hxc]
        · by_cases hxr : x ∈ rest.pre <;> simp [hxv, hxc, hxr]
    · rw [wdep, hdu, tdep, hset, hset]
      simp only [Forest.pre, List.mem_cons, List.mem_append, Forest.path]
      by_cases hxv : x = v
      · subst hxv
        rw [if_neg (fun h => m2 (Or.inr h)), if_neg (fun h => m2 (Or.inl h))]
        simp
      · by_cases hxc : x ∈ ch.pre
        · rw [if_neg (fun h => m5 x hxc x h rfl)]
          simp only [hxv, hxc, if_true, if_false, true_or, or_true, List.length_cons]
          push_cast
          omega
        · by_cases hxr : x ∈ rest.pre <;> simp [hxv, hxc, hxr]
    · have lt1 := tour_length ch v
      have lt2 := tour_length rest u
      simp only [Forest.size_cons, tour]
      by_cases h1 : s.k ≤ j ∧ j < s.k + 2 * (ch.size + rest.size + 1)
      · rw [if_pos h1, wseg]
        by_cases h2 : t.k + 1 ≤ j ∧ j < t.k + 1 + 2 * rest.size
        · rw [if_pos h2]
          obtain ⟨i, rfl⟩ : ∃ i, j = t.k + 1 + i := ⟨j - (t.k + 1), by omega⟩
          rw [show t.k + 1 + i - s.k = (2 * ch.size + (i + 1)) + 1 by omega, List.getElem?_cons_succ, List.getElem?_append_right (by omega),
            show 2 * ch.size + (i + 1) - (tour ch v).length = i + 1 by omega, List.getElem?_cons_succ, show t.k + 1 + i - (t.k + 1) = i by omega]
        · rw [if_neg h2, at_set' 0 (by omega)]
          by_cases h3 : m + j = m + t.k
          · rw [if_pos h3]
            rw [show j - s.k = 2 * ch.size + 1 by omega, List.getElem?_cons_succ, List.getElem?_append_right (by omega), show 2 * ch.size - (tour ch v).length = 0 by omega]
            rfl
          · rw [if_neg h3, tseg]
            by_cases h4 : s.k + 1 ≤ j ∧ j < s.k + 1 + 2 * ch.size
            · rw [if_pos h4]
              obtain ⟨i, rfl⟩ : ∃ i, j = s.k + 1 + i := ⟨j - (s.k + 1), by omega⟩
              rw [show s.k + 1 + i - s.k = i + 1 by omega, List.getElem?_cons_succ, List.getElem?_append_left (by omega), show s.k + 1 + i - (s.k + 1) = i by omega]
            · rw [if_neg h4, at_set' 0 (by omega), if_pos (by omega), show j - s.k = 0 by omega]
              rfl
      · rw [if_neg h1, wseg, if_neg (by omega), at_set' 0 (by omega), if_neg (by omega), tseg, if_neg (by omega), at_set' 0 (by omega), if_neg (by omega)]
    · rw [hw.low j hj]
      dsimp only
      rw [at_set' 0 (by omega), if_neg (by omega), ht.low j hj]
      dsimp only
      rw [at_set' 0 (by omega), if_neg (by omega)]

/-! ### Facts about the times -/

theorem vt_spec (F : Forest) : ∀ (u k x : Nat), x ∈ F.pre → k ≤ vt F k x ∧ (tour F u)[vt F k x - k]? = some x := by
  induction F with
  | nil => intro u k x hx; simp [Forest.pre] at hx
  | cons v ch rest ih1 ih2 =>
    intro u k x hx
    simp only [Forest.pre, List.mem_cons, List.mem_append] at hx
    have lt1 := tour_length ch v
    rw [vt, tour]
    split
    · rename_i h; simp [h]
    · rename_i hxv
      split
      · rename_i hxc
        obtain ⟨h1, h2⟩ := ih1 v (k + 1) x hxc
        have := (List.getElem?_eq_some_iff.1 h2).1
        refine ⟨by omega, ?_⟩
        rw [show vt ch (k + 1) x - k = vt ch (k + 1) x - (k + 1) + 1 by omega, List.getElem?_cons_succ, List.getElem?_append_left this, h2]
      · rename_i hxc
        obtain ⟨h1, h2⟩ := ih2 u (k + 2 + 2 * ch.size) x ((hx.resolve_left hxv).resolve_left hxc)
        refine ⟨by omega, ?_⟩
        rw [show vt rest (k + 2 + 2 * ch.size) x - k = 2 * ch.size + (vt rest (k + 2 + 2 * ch.size) x - (k + 2 + 2 * ch.size) + 1) + 1 by omega, List.getElem?_cons_succ,
          List.getElem?_append_right (by omega), lt1, Nat.add_sub_cancel_left, List.getElem?_cons_succ, h2]

theorem vt_lt (F : Forest) {k x : Nat} (hx : x ∈ F.pre) : vt F k x < k + 2 * F.size := by
  obtain ⟨h1, h2⟩ := vt_spec F 0 k x hx
  have := (List.getElem?_eq_some_iff.1 h2).1
  rw [tour_length] at this
  omega

theorem lv_spec (F : Forest) : ∀ (u k x : Nat), (u :: F.pre).Nodup → x ∈ F.pre → k ≤ lv F k x ∧ ∃ q, (tour F u)[lv F k x - k]? = some q ∧ rpath u F x = rpath u F q ++ [x] := by
  induction F with
  | nil => intro u k x hn hx; simp [Forest.pre] at hx
  | cons v ch rest ih1 ih2 =>
    intro u k x hn hx
    have hn' := hn
    rw [Forest.pre, List.nodup_cons, List.nodup_cons, List.mem_cons, List.mem_append, List.mem_append, List.nodup_append] at hn'
    obtain ⟨m1, m2, m3, m4, m5⟩ := hn'
    have n1 : (v :: ch.pre).Nodup := List.nodup_cons.2 ⟨fun h => m2 (Or.inl h), m3⟩
    have n2 : (u :: rest.pre).Nodup := List.nodup_cons.2 ⟨fun h => m1 (Or.inr (Or.inr h)), m4⟩
    simp only [Forest.pre, List.mem_cons, List.mem_append] at hx
    have lt1 := tour_length ch v
    by_cases hxv : x = v
    · subst hxv
      rw [lv, if_pos rfl]
      refine ⟨by omega, u, ?_, ?_⟩
      · rw [tour, show k + 1 + 2 * ch.size - k = 2 * ch.size + 1 by omega, List.getElem?_cons_succ, List.getElem?_append_right (by omega), lt1, Nat.sub_self]
        rfl
      · rw [rpath_cons_left hn (Or.inl rfl), rpath_root, rpath_root]; rfl
    · rw [lv, if_neg hxv]
      by_cases hxc : x ∈ ch.pre
      · rw [if_pos hxc]
        obtain ⟨h1, q, h2, h3⟩ := ih1 v (k + 1) x n1 hxc
        have := (List.getElem?_eq_some_iff.1 h2).1
        refine ⟨by omega, q, ?_, ?_⟩
        · rw [tour, show lv ch (k + 1) x - k = lv ch (k + 1) x - (k + 1) + 1 by omega, List.getElem?_cons_succ, List.getElem?_append_left this, h2]
        · have hq := tour_mem (List.mem_cons_of_mem v (List.mem_of_getElem? h2))
          rw [rpath_cons_left hn (Or.inr hxc), rpath_cons_left hn hq, h3]; rfl
      · rw [if_neg hxc]
        have hxr := (hx.resolve_left hxv).resolve_left hxc
        obtain ⟨h1, q, h2, h3⟩ := ih2 u (k + 2 + 2 * ch.size) x n2 hxr
        refine ⟨by omega, q, ?_, ?_⟩
        · rw [tour, show lv rest (k + 2 + 2 * ch.size) x - k = 2 * ch.size + (lv rest (k + 2 + 2 * ch.size) x - (k + 2 + 2 * ch.size) + 1) + 1 by omega, List.getElem?_cons_succ,
            List.getElem?_append_right (by omega), lt1, Nat.add_sub_cancel_left, List.getElem?_cons_succ, h2]
        · have hq := tour_mem (List.mem_cons_of_mem u (List.mem_of_getElem? h2))
          rw [rpath_cons_right hn (Or.inr hxr), rpath_cons_right hn hq, h3]

theorem lv_lt (F : Forest) {k x : Nat} (hx : x ∈ F.pre) : vt F k x < lv F k x ∧ lv F k x < k + 2 * F.size := by
  induction F generalizing k with
  | nil => simp [Forest.pre] at hx
  | cons v ch rest ih1 ih2 =>
    simp only [Forest.pre, List.mem_cons, List.mem_append] at hx
    rw [vt, lv, Forest.size_cons]
    split
    · omega
    · rename_i hxv
      split
      · rename_i hxc
        have := ih1 (k := k + 1) hxc
        omega
      · rename_i hxc
        have := ih2 (k := k + 2 + 2 * ch.size) ((hx.resolve_left hxv).resolve_left hxc)
        omega

/-- Time intervals of ancestors are nested, others are disjoint. -/
theorem nested (F : Forest) {k a x : Nat} (hn : F.pre.Nodup) (ha : a ∈ F.pre) (hx : x ∈ F.pre) :
    (a ∈ F.path x ∧ vt F k a ≤ vt F k x ∧ lv F k x ≤ lv F k a) ∨ (x ∈ F.path a ∧ vt F k x ≤ vt F k a ∧ lv F k a ≤ lv F k x) ∨
      (a ∉ F.path x ∧ x ∉ F.path a ∧ (lv F k a < vt F k x ∨ lv F k x < vt F k a)) := by
  induction F generalizing k with
  | nil => simp [Forest.pre] at hx
  | cons v ch rest ih1 ih2 =>
    rw [Forest.pre, List.nodup_cons, List.mem_append, List.nodup_append] at hn
    obtain ⟨m2, m3, m4, m5⟩ := hn
    simp only [Forest.pre, List.mem_cons, List.mem_append] at hx ha
    have b1 : ∀ y, y ∈ ch.pre → k + 1 ≤ vt ch (k + 1) y ∧ vt ch (k + 1) y < lv ch (k + 1) y ∧ lv ch (k + 1) y < k + 1 + 2 * ch.size := fun y hy => ⟨(vt_spec ch 0 _ y hy).1, lv_lt ch hy⟩
    have b2 : ∀ y, y ∈ rest.pre → k + 2 + 2 * ch.size ≤ vt rest (k + 2 + 2 * ch.size) y ∧ vt rest (k + 2 + 2 * ch.size) y < lv rest (k + 2 + 2 * ch.size) y := fun y hy => ⟨(vt_spec rest 0 _ y hy).1, (lv_lt rest hy).1⟩
    have p1 : ∀ y z, y ∈ ch.path z → y ∈ ch.pre := fun y z h => Forest.path_sub h
    have p2 : ∀ y z, y ∈ rest.path z → y ∈ rest.pre := fun y z h => Forest.path_sub h
    have q1 : ∀ y, y ∈ ch.pre → y ≠ v := by rintro y h rfl; exact m2 (Or.inl h)
    have q2 : ∀ y, y ∈ rest.pre → y ≠ v := by rintro y h rfl; exact m2 (Or.inr h)
    have q3 : ∀ y, y ∈ rest.pre → y ∉ ch.pre := fun y h h' => m5 y h' y h rfl
    rcases hx with rfl | hx | hx
    · rcases ha with rfl | ha | ha
      · left; simp [Forest.path]
      · right; left
        have := b1 a ha
        simp only [Forest.path, vt, lv, if_true, if_false, if_neg (q1 a ha), if_pos ha, if_pos rfl, List.mem_cons, true_or, true_and]
        omega
      · right; right
        have := b2 a ha
        have h1 := q2 a ha
        simp only [Forest.path, vt, lv, if_true, if_false, if_neg h1, if_neg (q3 a ha), if_pos rfl, List.mem_singleton]
        refine ⟨h1, fun h => q2 _ (p2 _ _ h) rfl, ?_⟩
        right; omega
    · have hxv := q1 x hx
      rcases ha with rfl | ha | ha
      · left
        have := b1 x hx
        simp only [Forest.path, vt, lv, if_true, if_false, if_neg hxv, if_pos hx, if_pos rfl, List.mem_cons, true_or, true_and]
        omega
      · have hav := q1 a ha
        simp only [Forest.path, vt, lv, if_true, if_false, if_neg hxv, if_pos hx, if_neg hav, if_pos ha, List.mem_cons, hxv, hav, false_or]
        exact ih1 m3 ha hx
      · right; right
        have hav := q2 a ha
        have hac := q3 a ha
        have c1 := b1 x hx
        have c2 := b2 a ha
        simp only [Forest.path, vt, lv, if_true, if_false, if_neg hxv, if_pos hx, if_neg hav, if_neg hac, List.mem_cons, hav, false_or]
        refine ⟨fun h => hac (p1 _ _ h), fun h => q3 x (p2 _ _ h) hx, ?_⟩
        right; omega
    · have hxv := q2 x hx
      have hxc := q3 x hx
      have c2 := b2 x hx
      rcases ha with rfl | ha | ha
      · right; right
        simp only [Forest.path, vt, lv, if_true, if_false, if_neg hxv, if_neg hxc, if_pos rfl, List.mem_singleton]
        refine ⟨fun h => q2 _ (p2 _ _ h) rfl, hxv, ?_⟩
        left; omega
      · right; right
        have hav := q1 a ha
        have c1 := b1 a ha
        simp only [Forest.path, vt, lv, if_true, if_false, if_neg hxv, if_neg hxc, if_neg hav, if_pos ha, List.mem_cons, hxv, false_or]
        refine ⟨fun h => q3 a (p2 _ _ h) ha, fun h => hxc (p1 _ _ h), ?_⟩
        left; omega
      · have hav := q2 a ha
        have hac := q3 a ha
        simp only [Forest.path, vt, lv, if_true, if_false, if_neg hxv, if_neg hxc, if_neg hav, if_neg hac]
        exact ih2 m4 ha hx

/-! ### The segment tree -/

/-- The minimum of two entries. -/
def amin (D : Nat → Int) (u v : Nat) : Nat := if D u < D v then u else v

theorem argmin_ok {dep : Array Int} {u v : Nat} (hu : u < dep.size) (hv : v < dep.size) : argmin dep u v = .ok (amin (at' 0 dep) u v) := by
  rw [argmin, rd_at 0 hu, ok_bind, rd_at 0 hv, ok_bind]; rfl

theorem amin_spec (D : Nat → Int) (u v : Nat) : (amin D u v = u ∨ amin D u v = v) ∧ D (amin D u v) ≤ D u ∧ D (amin D u v) ≤ D v := by
  unfold amin
  split <;> refine ⟨by simp, ?_, ?_⟩ <;> omega

theorem pull_tot {dep : Array Int} {m : Nat} {seg : Array Nat} (hm : 1 ≤ m) (hs : seg.size = 2 * m) (hlt : ∀ j, at' 0 seg j < dep.size) :
    Tot (forDown m 1 seg (pull dep)) fun t => t.size = 2 * m ∧ (∀ j, at' 0 t j < dep.size) ∧ (∀ j, m ≤ j → at' 0 t j = at' 0 seg j) ∧
      ∀ k, 1 ≤ k → k < m → at' 0 t k = amin (at' 0 dep) (at' 0 t (2 * k)) (at' 0 t (2 * k + 1)) := by
  refine Tot.forDown (P := fun i (t : Array Nat) => t.size = 2 * m ∧ (∀ j, at' 0 t j < dep.size) ∧ (∀ j, m ≤ j → at' 0 t j = at' 0 seg j) ∧
      ∀ k, i ≤ k → k < m → at' 0 t k = amin (at' 0 dep) (at' 0 t (2 * k)) (at' 0 t (2 * k + 1))) hm ⟨hs, hlt, fun _ _ => rfl, fun k h1 h2 => by omega⟩ ?_
  rintro j t hj1 hj2 ⟨h1, h2, h3, h4⟩
  rw [pull, rd_at 0 (by omega), ok_bind, rd_at 0 (by omega), ok_bind, argmin_ok (h2 _) (h2 _), ok_bind, wr_eq (by omega)]
  have hmin := amin_spec (at' 0 dep) (at' 0 t (2 * j)) (at' 0 t (2 * j + 1))
  refine Tot.pure ⟨by simpa using h1, fun i => ?_, fun i hi => ?_, fun k hk1 hk2 => ?_⟩
  · rw [at_set' 0 (by omega)]
    split
    · rcases hmin.1 with e | e <;> rw [e] <;> exact h2 _
    · exact h2 i
  · rw [at_set' 0 (by omega), if_neg (by omega)]
    exact h3 i hi
  · rw [at_set' 0 (by omega), at_set' 0 (by omega), at_set' 0 (by omega), if_neg (show 2 * k ≠ j by omega), if_neg (show 2 * k + 1 ≠ j by omega)]
    split
    · rename_i e; rw [e]
    · exact h4 k (by omega) hk2

/-- A finished segment tree. -/
structure Seg (m : Nat) (D : Nat → Int) (S : Nat → Nat) : Prop where
  node : ∀ k, 1 ≤ k → k < m → S k = amin D (S (2 * k)) (S (2 * k + 1))

theorem Seg.min {m : Nat} {D : Nat → Int} {S : Nat → Nat} (h : Seg m D S) (e : Nat) : ∀ k, 1 ≤ k → (k + 1) * 2 ^ e ≤ 2 * m →
    (∃ i, k * 2 ^ e ≤ i ∧ i < (k + 1) * 2 ^ e ∧ S k = S i) ∧ ∀ i, k * 2 ^ e ≤ i → i < (k + 1) * 2 ^ e → D (S k) ≤ D (S i) := by
  induction e with
  | zero =>
    intro k hk hm
    simp only [pow_zero, Nat.mul_one] at hm ⊢
    refine ⟨⟨k, by omega, by omega, rfl⟩, fun i h1 h2 => ?_⟩
    rw [show i = k by omega]
  | succ e ih =>
    intro k hk hm
    have hpos : 1 ≤ 2 ^ e := Nat.one_le_two_pow
    have e1 : k * 2 ^ (e + 1) = 2 * k * 2 ^ e := by rw [pow_succ]; ac_rfl
    have e2 : (k + 1) * 2 ^ (e + 1) = (2 * k + 1 + 1) * 2 ^ e := by rw [pow_succ, show 2 * k + 1 + 1 = 2 * (k + 1) by omega]; ac_rfl
    rw [e2] at hm
    have e3 : (2 * k + 1 + 1) * 2 ^ e = (2 * k + 1) * 2 ^ e + 2 ^ e := Nat.succ_mul _ _
    have e4 : (2 * k + 1) * 2 ^ e = 2 * k * 2 ^ e + 2 ^ e := Nat.succ_mul _ _
    have hkm : k < m := by
      have : 2 * k + 1 + 1 ≤ (2 * k + 1 + 1) * 2 ^ e := Nat.le_mul_of_pos_right _ hpos
      omega
    rw [e1, e2, h.node k hk hkm]
    obtain ⟨⟨i, a1, a2, a3⟩, a4⟩ := ih (2 * k) (by omega) (by omega)
    obtain ⟨⟨j, b1, b2, b3⟩, b4⟩ := ih (2 * k + 1) (by omega) hm
    obtain ⟨c1, c2, c3⟩ := amin_spec D (S (2 * k)) (S (2 * k + 1))
    refine ⟨?_, fun x h1 h2 => ?_⟩
    · rcases c1 with c1 | c1
      · exact ⟨i, a1, by omega, by rw [c1, a3]⟩
      · exact ⟨j, by omega, b2, by rw [c1, b3]⟩
    · by_cases hx : x < (2 * k + 1) * 2 ^ e
      · exact le_trans c2 (a4 x h1 hx)
      · exact le_trans c3 (b4 x (by omega) h2)

/-- Invariant of the query loop. -/
structure QInv (t : Obj) (L R : Nat) (e : Nat) (s : Nat × Nat × Nat) : Prop where
  pos : 1 ≤ s.1
  lo : L ≤ s.1 * 2 ^ e
  hi : s.2.1 * 2 ^ e ≤ R
  val : s.2.2 = t.n ∨ ∃ i, L ≤ i ∧ i < R ∧ s.2.2 = at' 0 t.seg i
  min : ∀ i, L ≤ i → i < R → (s.1 * 2 ^ e ≤ i ∧ i < s.2.1 * 2 ^ e) ∨ at' 0 t.dep s.2.2 ≤ at' 0 t.dep (at' 0 t.seg i)

theorem query_tot {t : Obj} (hs : t.seg.size = 2 * t.m) (hd : t.dep.size = t.n + 1) (hlt : ∀ j, at' 0 t.seg j < t.dep.size) (hm : 1 ≤ t.m)
    (hseg : Seg t.m (at' 0 t.dep) (at' 0 t.seg)) {l r : Nat} (hr : r < t.m) :
    Tot (query t l r) fun w => (w = t.n ∨ ∃ i, t.m + l ≤ i ∧ i < t.m + r + 1 ∧ w = at' 0 t.seg i) ∧ ∀ i, t.m + l ≤ i → i < t.m + r + 1 → at' 0 t.dep w ≤ at' 0 t.dep (at' 0 t.seg i) := by
  unfold query
  refine Tot.bind (P := fun s : Nat × Nat × Nat => (s.2.2 = t.n ∨ ∃ i, t.m + l ≤ i ∧ i < t.m + r + 1 ∧ s.2.2 = at' 0 t.seg i) ∧ ∀ i, t.m + l ≤ i → i < t.m + r + 1 → at' 0 t.dep s.2.2 ≤ at' 0 t.dep (at' 0 t.seg i)) ?_ fun s h => Tot.pure h
  refine Tot.loop (P := fun s => ∃ e, QInv t (t.m + l) (t.m + r + 1) e s) (fun s => s.2.1 - s.1) ?_ ⟨0, by dsimp only; omega, by simp, by simp, Or.inl rfl, fun i h1 h2 => by left; simpa using ⟨h1, h2⟩⟩ (by dsimp only; omega)
  rintro ⟨a, b, res⟩ ⟨e, h1, h2, h3, h4, h5⟩
  dsimp only at h1 h2 h3 h4 h5
  rw [queryStep]
  dsimp only
  have hres : res < t.dep.size := by
    rcases h4 with h4 | ⟨i, -, -, h4⟩
    · omega
    · rw [h4]; exact hlt i
  have hp : 1 ≤ 2 ^ e := Nat.one_le_two_pow
  by_cases hab : a < b
  · rw [if_pos hab]
    have m1 : (a + 1) * 2 ^ e = a * 2 ^ e + 2 ^ e := Nat.succ_mul _ _
    have m2 : (a + 1) * 2 ^ e ≤ b * 2 ^ e := Nat.mul_le_mul_right _ hab
    have m3 : a + 1 ≤ (a + 1) * 2 ^ e := Nat.le_mul_of_pos_right _ hp
    have m4 : b ≤ b * 2 ^ e := Nat.le_mul_of_pos_right _ hp
    refine Tot.bind (P := fun (x : Nat × Nat) => x.1 % 2 = 0 ∧ a ≤ x.1 ∧ x.1 ≤ a + 1 ∧ QInv t (t.m + l) (t.m + r + 1) e (x.1, b, x.2) ∧ x.2 < t.dep.size) ?_ ?_
    · rw [left]
      by_cases ho : a % 2 = 1
      · rw [if_pos ho, rd_at 0 (by omega), ok_bind, argmin_ok hres (hlt _), ok_bind]
        obtain ⟨⟨j, j1, j2, j3⟩, j4⟩ := hseg.min e a h1 (by omega)
        obtain ⟨c1, c2, c3⟩ := amin_spec (at' 0 t.dep) res (at' 0 t.seg a)
        refine Tot.pure ⟨by dsimp only; omega, by dsimp only; omega, by dsimp only; omega, ⟨by dsimp only; omega, by dsimp only; omega, h3, ?_, fun i hi1 hi2 => ?_⟩, ?_⟩
        · dsimp only
          rcases c1 with c1 | c1
          · rw [c1]; exact h4
          · rw [c1]; exact Or.inr ⟨j, by omega, by omega, j3⟩
        · dsimp only
          rcases h5 i hi1 hi2 with h | h
          · by_cases hi : i < (a + 1) * 2 ^ e
            · right
              exact le_trans c3 (j4 i (by omega) hi)
            · left; omega
          · right; exact le_trans c2 h
        · dsimp only
          rcases c1 with c1 | c1 <;> rw [c1]
          · exact hres
          · exact hlt _
      · rw [if_neg ho]
        exact Tot.pure ⟨by dsimp only; omega, le_refl _, by dsimp only; omega, ⟨h1, h2, h3, h4, h5⟩, hres⟩
    · rintro ⟨a', res'⟩ ⟨g0, g1, g2, g3, g4⟩
      dsimp only at g0 g1 g2 g4 ⊢
      obtain ⟨k1, k2, k3, k4, k5⟩ := g3
      dsimp only at k1 k2 k3 k4 k5
      refine Tot.bind (P := fun (x : Nat × Nat) => x.1 % 2 = 0 ∧ x.1 ≤ b ∧ QInv t (t.m + l) (t.m + r + 1) e (a', x.1, x.2)) ?_ ?_
      · rw [right]
        by_cases ho : b % 2 = 1
        · obtain ⟨c, rfl⟩ : ∃ c, b = c + 1 := ⟨b - 1, by omega⟩
          have m5 : (c + 1) * 2 ^ e = c * 2 ^ e + 2 ^ e := Nat.succ_mul _ _
          have m6 : a' * 2 ^ e ≤ c * 2 ^ e := Nat.mul_le_mul_right _ (by omega)
          rw [if_pos ho, Nat.add_sub_cancel, rd_at 0 (by omega), ok_bind, argmin_ok g4 (hlt _), ok_bind]
          obtain ⟨⟨j, j1, j2, j3⟩, j4⟩ := hseg.min e c (by omega) (by omega)
          obtain ⟨c1, c2, c3⟩ := amin_spec (at' 0 t.dep) res' (at' 0 t.seg c)
          refine Tot.pure ⟨by dsimp only; omega, by dsimp only; omega, ⟨k1, k2, by dsimp only; omega, ?_, fun i hi1 hi2 => ?_⟩⟩
          · dsimp only
            rcases c1 with c1 | c1
            · rw [c1]; exact k4
            · rw [c1]; exact Or.inr ⟨j, by omega, by omega, j3⟩
          · dsimp only
            rcases k5 i hi1 hi2 with h | h
            · by_cases hi : c * 2 ^ e ≤ i
              · right
                exact le_trans c3 (j4 i hi h.2)
              · left; omega
            · right; exact le_trans c2 h
        · rw [if_neg ho]
          exact Tot.pure ⟨by dsimp only; omega, le_refl _, ⟨k1, k2, k3, k4, k5⟩⟩
      · rintro ⟨b', res''⟩ ⟨i0, i1, i2⟩
        dsimp only at i0 i1 ⊢
        obtain ⟨q1, q2, q3, q4, q5⟩ := i2
        dsimp only at q1 q2 q3 q4 q5
        have ea : a' / 2 * 2 ^ (e + 1) = a' * 2 ^ e := by
          rw [pow_succ, show a' / 2 * (2 ^ e * 2) = (a' / 2 * 2) * 2 ^ e by ac_rfl]
          congr 1; omega
        have eb : b' / 2 * 2 ^ (e + 1) = b' * 2 ^ e := by
          rw [pow_succ, show b' / 2 * (2 ^ e * 2) = (b' / 2 * 2) * 2 ^ e by ac_rfl]
          congr 1; omega
        refine Tot.pure ⟨⟨e + 1, by dsimp only; omega, by dsimp only; rw [ea]; exact q2, by dsimp only; rw [eb]; exact q3, q4, by dsimp only; rw [ea, eb]; exact q5⟩, by dsimp only; omega⟩
  · rw [if_neg hab]
    refine Tot.pure ⟨h4, fun i hi1 hi2 => ?_⟩
    rcases h5 i hi1 hi2 with h | h
    · have : b * 2 ^ e ≤ a * 2 ^ e := Nat.mul_le_mul_right _ (by omega)
      omega
    · exact h

theorem ceilPow2_tot {n : Nat} (hn : n ≤ 2 ^ 29) : Tot (ceilPow2 n) fun m => ∃ e : Nat, e ≤ 29 ∧ m = 2 ^ e ∧ n ≤ 2 ^ e := by
  unfold ceilPow2
  refine Tot.loopG (P := fun k (m : Int) => ∃ e : Nat, e ≤ 29 ∧ k = 29 - e ∧ m = 2 ^ e) (k := 29) ?_ ⟨0, by simp⟩ (by simp)
  rintro k m ⟨e, h1, h2, rfl⟩
  by_cases h : (2 : Int) ^ e < n
  · rw [if_pos h]
    have hlt : 2 ^ e < n := by exact_mod_cast h
    have he : e < 29 := by
      by_contra hc
      rw [show e = 29 by omega] at hlt
      omega
    have hle : (2 : Int) ^ (e + 1) ≤ 2 ^ 29 := pow_le_pow_right₀ (by norm_num) (by omega)
    have hpos : (0 : Int) < 2 ^ e := by positivity
    rw [i32_ok ⟨by omega, by rw [pow_succ] at hle; omega⟩, ok_bind]
    exact Tot.pure ⟨28 - e, by omega, e + 1, by omega, by omega, by rw [pow_succ]; ring⟩
  · rw [if_neg h]
    refine Tot.pure ⟨e, h1, rfl, ?_⟩
    have : (n : Int) ≤ 2 ^ e := by omega
    exact_mod_cast this

/-! ### The object -/

/-- What the constructor establishes; `F` is the forest of the children of the root. -/
structure Built (g : Array (List Nat)) (r : Nat) (F : Forest) (t : Obj) : Prop where
  rooted : Rooted g r F
  n : t.n = g.size
  vsize : t.visit.size = g.size
  lsize : t.leave.size = g.size
  dsize : t.dep.size = g.size + 1
  ssize : t.seg.size = 2 * t.m
  pos : 2 * g.size ≤ t.m
  lt : ∀ j, at' 0 t.seg j < t.dep.size
  seg : Seg t.m (at' 0 t.dep) (at' 0 t.seg)
  dep : ∀ x, x < g.size → at' 0 t.dep x = Tree.depth r F x
  depn : at' 0 t.dep g.size = 2 ^ 31 - 1
  visit : ∀ x, x < g.size → at' 0 t.visit x = vt (.cons r F .nil) 0 x
  leave : ∀ x, x < g.size → at' 0 t.leave x = lv (.cons r F .nil) 0 x
  leaves : ∀ j, j < 2 * g.size → at' 0 t.seg (t.m + j) = (tour (.cons r F .nil) g.size)[j]?.getD 0

theorem rooted_size {g : Array (List Nat)} {r : Nat} {F : Forest} (h : Rooted g r F) : F.size + 1 = g.size := by
  have := h.perm.length_eq
  simpa [Forest.size] using this

theorem at_replicate {α : Type} (d : α) (n j : Nat) : at' d (Array.replicate n d) j = d := by
  by_cases h : j < n <;> simp [at', h]

theorem make_tot {g : Array (List Nat)} (hg : IsTree g) (hsz : g.size ≤ 2 ^ 28) {r : Nat} {F : Forest} (h : Rooted g r F) : Tot (make g r) (Built g r F) := by
  have hr := h.lt
  have hfs := rooted_size h
  have hv := hg.valid
  rw [make]
  dsimp only
  rw [i32_ok ⟨by omega, by omega⟩, ok_bind]
  refine Tot.bind (ceilPow2_tot (n := 2 * g.size) (by omega)) ?_
  rintro m ⟨e, he, rfl, hm⟩
  have hmn : ((2 : Int) ^ e).toNat = 2 ^ e := by
    rw [show ((2 : Int) ^ e) = ((2 ^ e : Nat) : Int) by push_cast; rfl]; rfl
  rw [hmn]
  have hme : 2 ^ e ≤ 2 ^ 29 := Nat.pow_le_pow_right (by omega) he
  generalize 2 ^ e = m at hm hme
  rw [i32_ok ⟨by omega, by omega⟩, ok_bind, wr_eq (by simp; omega), ok_bind, wr_eq (by simp), ok_bind]
  obtain ⟨dep, hdep⟩ : ∃ dep, dep = ((Array.replicate (g.size + 1) (0 : Int)).setIfInBounds r 0).setIfInBounds g.size (2 ^ 31 - 1) := ⟨_, rfl⟩
  rw [← hdep]
  have hds : dep.size = g.size + 1 := by rw [hdep]; simp
  have hdv : ∀ x, at' 0 dep x = if x = g.size then 2 ^ 31 - 1 else 0 := by
    intro x
    rw [hdep, at_set' 0 (by simp), at_set' 0 (by simp; omega), at_replicate]
    split <;> simp
  have hadj : (adj g r).filter (fun w => decide (w ≠ g.size)) = F.roots := by
    rw [h.roots, List.filter_eq_self]
    intro w hw
    have := hv r w hw
    simp; omega
  refine Tot.bind (P := fun s : St => s.visit.size = g.size ∧ s.leave.size = g.size ∧ s.dep.size = g.size + 1 ∧ s.seg.size = 2 * m ∧ (∀ j, at' 0 s.seg j < g.size + 1) ∧
      (∀ x, x < g.size → at' 0 s.dep x = Tree.depth r F x) ∧ at' 0 s.dep g.size = 2 ^ 31 - 1 ∧ (∀ x, x < g.size → at' 0 s.visit x = vt (.cons r F .nil) 0 x) ∧
      (∀ x, x < g.size → at' 0 s.leave x = lv (.cons r F .nil) 0 x) ∧ ∀ j, j < 2 * g.size → at' 0 s.seg (m + j) = (tour (.cons r F .nil) g.size)[j]?.getD 0) ?_ ?_
  · obtain ⟨f, hf⟩ : ∃ f, g.size = f + 1 := ⟨g.size - 1, by omega⟩
    have hheight := F.height_le
    conv => arg 1; arg 3; rw [hf]
    rw [dfs, enter, wr_eq (by simp; omega), ok_bind, wr_eq (by simp; omega), ok_bind]
    simp only [pure_eq, ok_bind]
    rw [rd_some (adj_eq hr), ok_bind]
    have hd0 : at' 0 dep r = 0 := by rw [hdv, if_neg (by omega)]
    refine Tot.bind (kids_dfs F r g.size f (adj g r) _ hadj h.fits (by omega) h.nodup hr (by simp) (by simp) (by simpa using hds) (by simp; omega) (by dsimp only; omega) (by dsimp only; omega)) fun s hs => ?_
    have sk := hs.k
    have sv := hs.vsize
    have sl := hs.lsize
    have sd := hs.dsize
    have ss := hs.ssize
    have svis := hs.visit
    have slea := hs.leave
    have sdep := hs.dep
    have sseg := hs.seg
    simp only [Array.size_setIfInBounds, Array.size_replicate] at sk sv sl sd ss svis slea sdep sseg
    have hrF : r ∉ F.pre := (List.nodup_cons.1 h.nodup).1
    rw [exit, wr_eq (by omega), ok_bind, wr_eq (by omega), ok_bind]
    have hseg : ∀ j, at' 0 (s.seg.setIfInBounds (m + s.k) g.size) (m + j) = if j < 2 * g.size then (tour (.cons r F .nil) g.size)[j]?.getD 0 else at' 0 (Array.replicate (2 * m) g.size) (m + j) := by
      intro j
      have lt1 := tour_length F r
      rw [at_set' 0 (by omega), sseg, at_set' 0 (by simp; omega)]
      simp only [tour]
      by_cases hj : j < 2 * g.size
      · rw [if_pos hj]
        by_cases h1 : m + j = m + s.k
        · rw [if_pos h1, show j = 2 * F.size + 1 by omega, List.getElem?_cons_succ, List.getElem?_append_right (by omega), show 2 * F.size - (tour F r).length = 0 by omega]
          rfl
        · rw [if_neg h1]
          by_cases h2 : 0 + 1 ≤ j ∧ j < 0 + 1 + 2 * F.size
          · obtain ⟨i, rfl⟩ : ∃ i, j = i + 1 := ⟨j - 1, by omega⟩
            rw [if_pos h2, List.getElem?_cons_succ, List.getElem?_append_left (by omega)]
            rfl
          · rw [if_neg h2, show j = 0 by omega, if_pos (by omega)]
            rfl
      · rw [if_neg hj, if_neg (by omega), if_neg (by omega), if_neg (by omega)]
    refine Tot.pure ⟨by dsimp only; omega, by simp; omega, by dsimp only; omega, by simp; omega, fun j => ?_, fun x hx => ?_, ?_, fun x hx => ?_, fun x hx => ?_, fun j hj => ?_⟩
    · dsimp only
      by_cases hj : m ≤ j
      · obtain ⟨i, rfl⟩ : ∃ i, j = m + i := ⟨j - m, by omega⟩
        rw [hseg]
        split
        · rename_i hi
          have hlen : i < (tour (.cons r F .nil) g.size).length := by rw [tour_length, Forest.size_cons, Forest.size_nil]; omega
          rw [List.getElem?_eq_getElem hlen]
          have hmem : (tour (.cons r F .nil) g.size)[i] ∈ g.size :: tour (.cons r F .nil) g.size := List.mem_cons_of_mem _ (List.getElem_mem hlen)
          rcases tour_mem hmem with h1 | h1
          · rw [h1]; simp
          · simp only [Forest.pre, List.append_nil] at h1
            have := (h.lt_iff _).2 (List.mem_cons.1 h1)
            simp only [Option.getD_some]
            omega
        · by_cases hlt : m + i < 2 * m
          · simp [at', hlt]
          · rw [at_ge 0 (by simp; omega)]; omega
      · rw [at_set' 0 (by omega), if_neg (by omega)]
        have hsame : at' 0 s.seg j = at' 0 (Array.replicate (2 * m) g.size) j := by
          -- positions below `m` are not written
          have := hs.low j (by omega)
          rw [this]
          dsimp only
          rw [at_set' 0 (by simp; omega), if_neg (by omega)]
        rw [hsame]
        simp [at', show j < 2 * m by omega]
    · dsimp only
      rw [sdep, hd0]
      rcases (h.lt_iff x).1 hx with rfl | hm'
      · rw [if_neg hrF, hd0, Tree.depth, rpath_root]; rfl
      · have hxr : x ≠ r := by rintro rfl; exact hrF hm'
        rw [if_pos hm', Tree.depth, rpath_ne _ hxr]
        simp
    · dsimp only
      rw [sdep, if_neg (fun hm' => by have := (h.lt_iff g.size).2 (Or.inr hm'); omega), hdv, if_pos rfl]
    · dsimp only
      rw [svis, vt]
      rcases (h.lt_iff x).1 hx with rfl | hm'
      · rw [if_neg hrF, at_set' 0 (by simp; omega), if_pos rfl, if_pos rfl]
      · have hxr : x ≠ r := by rintro rfl; exact hrF hm'
        rw [if_pos hm', if_neg hxr, if_pos hm']
    · dsimp only
      rw [at_set' 0 (by omega), slea, lv]
      rcases (h.lt_iff x).1 hx with rfl | hm'
      · rw [if_pos rfl, if_pos rfl]
        omega
      · have hxr : x ≠ r := by rintro rfl; exact hrF hm'
        rw [if_pos hm', if_neg hxr, if_neg hxr, if_pos hm']
    · dsimp only
      rw [hseg, if_pos hj]
  · rintro ⟨k, visit, leave, dep', seg⟩ ⟨a1, a2, a3, a4, a5, a6, a7, a8, a9, a10⟩
    dsimp only at a1 a2 a3 a4 a5 a6 a7 a8 a9 a10 ⊢
    refine Tot.bind (pull_tot (dep := dep') (by omega) a4 (by rw [a3]; exact a5)) ?_
    rintro seg' ⟨b1, b2, b3, b4⟩
    exact Tot.pure ⟨h, rfl, a1, a2, a3, b1, hm, b2, ⟨b4⟩, a6, a7, a8, a9, fun j hj => by dsimp only; rw [b3 _ (by omega), a10 j hj]⟩

theorem Built.times {g : Array (List Nat)} {r : Nat} {F : Forest} {t : Obj} (b : Built g r F t) {x : Nat} (hx : x < g.size) :
    (r :: tour F r)[at' 0 t.visit x]? = some x ∧ at' 0 t.visit x + 1 < 2 * g.size := by
  have hm : x ∈ (Forest.cons r F .nil).pre := by
    simp only [Forest.pre, List.append_nil, List.mem_cons]
    exact (b.rooted.lt_iff x).1 hx
  obtain ⟨-, h1⟩ := vt_spec (.cons r F .nil) g.size 0 x hm
  obtain ⟨h2, h3⟩ := lv_lt (.cons r F .nil) (k := 0) hm
  have hfs := rooted_size b.rooted
  rw [Forest.size_cons, Forest.size_nil] at h3
  rw [b.visit x hx]
  have hlt : vt (.cons r F .nil) 0 x + 1 < 2 * g.size := by omega
  refine ⟨?_, hlt⟩
  rw [Nat.sub_zero, tour, ← List.cons_append, List.getElem?_append_left (by rw [List.length_cons, tour_length]; omega)] at h1
  exact h1

theorem Built.leaf {g : Array (List Nat)} {r : Nat} {F : Forest} {t : Obj} (b : Built g r F t) {j : Nat} (hj : j + 1 < 2 * g.size) :
    (r :: tour F r)[j]? = some (at' 0 t.seg (t.m + j)) := by
  have hfs := rooted_size b.rooted
  have hl : j < (r :: tour F r).length := by rw [List.length_cons, tour_length]; omega
  rw [b.leaves j (by omega), tour, ← List.cons_append, List.getElem?_append_left hl, List.getElem?_eq_getElem hl]
  rfl

theorem Built.depth_lt {g : Array (List Nat)} (hg : IsTree g) {r : Nat} {F : Forest} (h : Rooted g r F) {x : Nat} (hx : x < g.size) : Tree.depth r F x < g.size := by
  have := path_length_le hg h.lt (h.isPath hx)
  rw [rpath_length] at this
  omega

theorem query_lca {g : Array (List Nat)} (hg : IsTree g) (hsz : g.size ≤ 2 ^ 28) {r : Nat} {F : Forest} {t : Obj} (b : Built g r F t) {u v : Nat} (hu : u < g.size) (hv : v < g.size)
    (hle : at' 0 t.visit u ≤ at' 0 t.visit v) :
    Tot (query t (at' 0 t.visit u) (at' 0 t.visit v)) fun w => w < g.size ∧ ∀ a, a ∈ rpath r F w ↔ a ∈ rpath r F u ∧ a ∈ rpath r F v := by
  obtain ⟨u1, u2⟩ := b.times hu
  obtain ⟨v1, v2⟩ := b.times hv
  have hpos := b.pos
  have hfs := rooted_size b.rooted
  refine (query_tot b.ssize (by rw [b.dsize, b.n]) b.lt (by omega) b.seg (l := at' 0 t.visit u) (r := at' 0 t.visit v) (by omega)).mono ?_
  rintro w ⟨h1, h2⟩
  obtain ⟨x, x1, ⟨k, k1, k2, k3⟩, x2⟩ := tour_lca F r b.rooted.nodup _ _ u v hle u1 v1
  have hxl : x < g.size := (b.rooted.lt_iff x).2 (tour_mem (List.mem_of_getElem? k3))
  have hk : at' 0 t.seg (t.m + k) = x := by
    have := b.leaf (j := k) (by omega)
    rw [k3] at this
    simpa using this.symm
  have hD := h2 (t.m + k) (by omega) (by omega)
  rw [hk, b.dep x hxl] at hD
  have hdx := Built.depth_lt hg b.rooted hxl
  have hwx : w = x := by
    rcases h1 with h1 | ⟨i, i1, i2, i3⟩
    · rw [h1, b.n, b.depn] at hD
      omega
    · obtain ⟨j, rfl⟩ : ∃ j, i = t.m + j := ⟨i - t.m, by omega⟩
      have hj := b.leaf (j := j) (by omega)
      rw [← i3] at hj
      have hwl : w < g.size := (b.rooted.lt_iff w).2 (tour_mem (List.mem_of_getElem? hj))
      have hanc := x2 j w (by omega) (by omega) hj
      rw [b.dep w hwl] at hD
      exact (anc_eq b.rooted.nodup ((b.rooted.lt_iff w).1 hwl) hanc (by omega)).symm
  rw [hwx]
  exact ⟨hxl, x1⟩

theorem lca_tot {g : Array (List Nat)} (hg : IsTree g) (hsz : g.size ≤ 2 ^ 28) {r : Nat} {F : Forest} {t : Obj} (b : Built g r F t) {u v : Nat} (hu : u < g.size) (hv : v < g.size) :
    Tot (lca t u v) fun w => w < g.size ∧ ∀ a, a ∈ rpath r F w ↔ a ∈ rpath r F u ∧ a ∈ rpath r F v := by
  have s := b.vsize
  rw [lca, rd_at 0 (by omega), ok_bind, rd_at 0 (by omega), ok_bind]
  by_cases h : at' 0 t.visit u > at' 0 t.visit v
  · rw [if_pos h]
    refine (query_lca hg hsz b hv hu (by omega)).mono fun w hw => ⟨hw.1, fun a => ?_⟩
    rw [hw.2, and_comm]
  · rw [if_neg h]
    exact query_lca hg hsz b hu hv (by omega)

theorem dist_tot {g : Array (List Nat)} (hg : IsTree g) (hsz : g.size ≤ 2 ^ 28) {r : Nat} {F : Forest} {t : Obj} (b : Built g r F t) {u v : Nat} (hu : u < g.size) (hv : v < g.size) :
    Tot (dist t u v) fun d => ∃ k : Nat, d = k ∧ Dist g u v k := by
  have s := b.dsize
  rw [dist, rd_at 0 (by omega), ok_bind, rd_at 0 (by omega), ok_bind]
  refine Tot.bind (lca_tot hg hsz b hu hv) ?_
  rintro w ⟨hw, hw'⟩
  obtain ⟨h1, h2, h3, -⟩ := b.rooted.dist_of_lca hg hu hv hw' hw
  have hdu := Built.depth_lt hg b.rooted hu
  have hdv := Built.depth_lt hg b.rooted hv
  rw [rd_at 0 (by omega), ok_bind, b.dep u hu, b.dep v hv, b.dep w hw, i32_ok ⟨by omega, by omega⟩, ok_bind, i32_ok ⟨by omega, by omega⟩, ok_bind, i32_ok ⟨by omega, by omega⟩]
  exact Tot.pure ⟨_, by omega, h1⟩

theorem parent_tot {g : Array (List Nat)} (hg : IsTree g) (hsz : g.size ≤ 2 ^ 28) {r : Nat} {F : Forest} {t : Obj} (b : Built g r F t) {u : Nat} (hu : u < g.size) :
    Tot (parent t u) fun p => (u = r ∧ p = -1) ∨ (u ≠ r ∧ ∃ q : Nat, p = q ∧ q < g.size ∧ rpath r F u = rpath r F q ++ [u]) := by
  have s1 := b.lsize
  have s2 := b.ssize
  have s3 := b.pos
  have hfs := rooted_size b.rooted
  have hm : u ∈ (Forest.cons r F .nil).pre := by
    simp only [Forest.pre, List.append_nil, List.mem_cons]
    exact (b.rooted.lt_iff u).1 hu
  have hrn : g.size ≠ r := by have := b.rooted.lt; omega
  have hgn : g.size ∉ (Forest.cons r F .nil).pre := by
    intro hh
    simp only [Forest.pre, List.append_nil, List.mem_cons] at hh
    have := (b.rooted.lt_iff g.size).2 hh
    omega
  obtain ⟨-, q, q1, q2⟩ := lv_spec (.cons r F .nil) g.size 0 u (List.nodup_cons.2 ⟨hgn, by simpa [Forest.pre] using b.rooted.nodup⟩) hm
  have hlt := (lv_lt (.cons r F .nil) (k := 0) hm).2
  rw [Forest.size_cons, Forest.size_nil] at hlt
  rw [parent, rd_at 0 (by omega), ok_bind, b.leave u hu, rd_at 0 (by omega), ok_bind, b.leaves _ (by omega)]
  rw [Nat.sub_zero] at q1
  rw [q1, Option.getD_some, b.n]
  have hpath : ∀ x, x < g.size → rpath g.size (.cons r F .nil) x = g.size :: rpath r F x := by
    intro x hx
    exact rpath_cons_left (by rw [List.nodup_cons]; exact ⟨hgn, by simpa [Forest.pre] using b.rooted.nodup⟩) ((b.rooted.lt_iff x).1 hx)
  rw [hpath u hu] at q2
  by_cases hq : q = g.size
  · rw [if_pos hq]
    refine Tot.pure (Or.inl ⟨?_, rfl⟩)
    rw [hq, rpath_root] at q2
    simp only [List.cons_append, List.nil_append, List.cons.injEq, true_and] at q2
    have := root_mem r F u
    rw [q2] at this
    exact (List.mem_singleton.1 this).symm
  · rw [if_neg hq]
    have hql : q < g.size := by
      rcases tour_mem (List.mem_cons_of_mem g.size (List.mem_of_getElem? q1)) with h | h
      · exact absurd h hq
      · simp only [Forest.pre, List.append_nil, List.mem_cons] at h
        exact (b.rooted.lt_iff q).2 h
    rw [hpath q hql] at q2
    simp only [List.cons_append, List.cons.injEq, true_and] at q2
    refine Tot.pure (Or.inr ⟨?_, q, rfl, hql, q2⟩)
    rintro rfl
    rw [rpath_root] at q2
    have := congrArg List.length q2
    rw [List.length_append, rpath_length] at this
    simp at this

end EulerTour
