import Verif.Proof.HLDBuild
import Verif.Proof.LevelAncestor

/-! # The second search of the heavy light decomposition -/

namespace HLD
open Cxx Graph Tree

/-- The effect of visiting the children `F` of `u`. -/
structure PostB (u : Nat) (F : Forest) (q q' : Nat × St) : Prop where
  time : q'.1 = q.1 + F.size
  g : q'.2.g = q.2.g
  siz : q'.2.siz = q.2.siz
  par : q'.2.par = q.2.par
  dep : q'.2.dep = q.2.dep
  vsz : q'.2.visit.size = q.2.visit.size
  lsz : q'.2.leave.size = q.2.leave.size
  hsz : q'.2.head.size = q.2.head.size
  osz : q'.2.ord.size = q.2.ord.size
  vis : ∀ x, at' 0 q'.2.visit x = if x ∈ F.pre then q.1 + F.pre.idxOf x else at' 0 q.2.visit x
  lev : ∀ x, at' 0 q'.2.leave x = if x ∈ F.pre then q.1 + F.pre.idxOf x + F.sub x else at' 0 q.2.leave x
  ord : ∀ j, at' 0 q'.2.ord j = if q.1 ≤ j ∧ j < q.1 + F.size then F.pre[j - q.1]?.getD 0 else at' 0 q.2.ord j
  hd : ∀ x, x ∉ F.pre → at' 0 q'.2.head x = at' 0 q.2.head x
  hd2 : ∀ x ∈ F.pre, ∀ p, F.par (some u) x = some p → at' 0 q'.2.head x = if (adj q.2.g p).head? = some x then at' 0 q'.2.head p else x

theorem headOf_some {u p : Nat} {s : St} (hp : p < s.g.size) (hh : p < s.head.size) (hne : adj s.g p ≠ []) : headOf u s (some p) = .ok (if (adj s.g p).head? = some u then at' 0 s.head p else u) := by
  obtain ⟨f, a, e⟩ : ∃ f a, adj s.g p = f :: a := List.exists_cons_of_ne_nil hne
  rw [headOf, rd_adj hp, ok_bind, e, rd_some (x := f) (by simp), ok_bind]
  simp only [List.head?_cons, Option.some.injEq]
  split
  · rw [rd_at 0 hh]
  · rfl

theorem kidsB {g : Array (List Nat)} (F : Forest) : ∀ (u : Nat) (p : Option Nat) (fuel : Nat) (l : List Nat) (q : Nat × St), q.2.g = g → (l.filter fun w => decide (some w ≠ p)) = F.roots → (∀ x ∈ l, x ∈ adj g u) → F.Fits g (some u) →
    F.height ≤ fuel → (u :: F.pre).Nodup → u < g.size → q.2.visit.size = g.size → q.2.leave.size = g.size → q.2.head.size = g.size → q.2.ord.size = g.size → q.1 + F.size ≤ g.size →
    Tot (forEach l q (kid2 (hld fuel) u p)) (PostB u F q) := by
  induction F with
  | nil =>
    intro u p fuel l q hg hl hla hf hh hn hu s1 s2 s3 s4 s5
    rw [kids_nil (q := fun w => decide (some w ≠ p)) (fun s x hx => by simp at hx; rw [kid2, if_pos (by simp [hx])]; rfl) hl]
    refine Tot.pure ⟨rfl, rfl, rfl, rfl, rfl, rfl, rfl, rfl, rfl, fun x => by simp [Forest.pre], fun x => by simp [Forest.pre], fun j => ?_, fun _ _ => rfl, by simp [Forest.pre]⟩
    rw [if_neg (by simp)]
  | cons v ch rest ih1 ih2 =>
    intro u p fuel l q hg hl hla hf hh hn hu s1 s2 s3 s4 s5
    obtain ⟨hv, f1, f2, f3⟩ := hf
    have hn' := hn
    rw [Forest.pre, List.nodup_cons, List.nodup_cons, List.mem_cons, List.mem_append, List.mem_append, List.nodup_append] at hn'
    obtain ⟨m1, m2, m3, m4, m5⟩ := hn'
    have huv : u ≠ v := fun e => m1 (Or.inl e)
    have n1 : (v :: ch.pre).Nodup := List.nodup_cons.2 ⟨fun h => m2 (Or.inl h), m3⟩
    have n2 : (u :: rest.pre).Nodup := List.nodup_cons.2 ⟨fun h => m1 (Or.inr (Or.inr h)), m4⟩
    simp only [Forest.height] at hh
    simp only [Forest.size_cons] at s5
    obtain ⟨fuel, rfl⟩ : ∃ f, fuel = f + 1 := ⟨fuel - 1, by omega⟩
    have hvc : v ∉ ch.pre := fun h => m2 (Or.inl h)
    have hvr : v ∉ rest.pre := fun h => m2 (Or.inr h)
    have huc : u ∉ ch.pre := fun h => m1 (Or.inr (Or.inl h))
    have hur : u ∉ rest.pre := fun h => m1 (Or.inr (Or.inr h))
    have hvp : some v ≠ p := by
      obtain ⟨a, b, -, -, h, -⟩ := kids_cons hl
      simpa using h
    have hvl : v ∈ l := by
      obtain ⟨a, b, e, -, -, -⟩ := kids_cons hl
      rw [e]; simp
    refine kids_tot (q := fun w => decide (some w ≠ p)) (R := rest.roots) (v := v) (fun s x hx => by simp at hx; rw [kid2, if_pos (by simp [hx])]; rfl) hl ?_
    rw [kid2, if_neg hvp, hld, begin, wr_eq (by omega), ok_bind, wr_eq (by omega), ok_bind, headOf_some (by rw [hg]; exact hu) (by omega) (by rw [hg]; exact List.ne_nil_of_mem (hla v hvl)), ok_bind, wr_eq (by omega), ok_bind, pure_eq, ok_bind]
    dsimp only
    rw [rd_adj (by rw [hg]; exact hv), ok_bind, hg]
    obtain ⟨hd, hhd⟩ : ∃ hd, hd = (if (adj g u).head? = some v then at' 0 q.2.head u else v) := ⟨_, rfl⟩
    rw [← hhd]
    refine Tot.bind (P := PostB v ch (q.1 + 1, ⟨g, q.2.visit.setIfInBounds v q.1, q.2.leave, q.2.head.setIfInBounds v hd, q.2.ord.setIfInBounds q.1 v, q.2.siz, q.2.par, q.2.dep⟩)) ?_ ?_
    · exact ih1 v (some u) fuel (adj g v) _ rfl f1.symm (fun _ h => h) f2 (by omega) n1 hv (by simpa using s1) s2 (by simpa using s3) (by simpa using s4) (by dsimp only; omega)
    · intro t ht
      have tk := ht.time
      have tg := ht.g
      have tv := ht.vsz
      have tl := ht.lsz
      have th := ht.hsz
      have tvis := ht.vis
      have tlev := ht.lev
      have tord := ht.ord
      have thd := ht.hd
      have thd2 := ht.hd2
      have tos := ht.osz
      simp only [Array.size_setIfInBounds] at tk tg tv tl th tos tvis tlev tord thd thd2
      have hthu : at' 0 t.2.head u = at' 0 q.2.head u := by rw [thd u huc, at_set' 0 (by omega), if_neg huv]
      have hthv : at' 0 t.2.head v = hd := by rw [thd v hvc, at_set' 0 (by omega), if_pos rfl]
      rw [finish, wr_eq (by omega), ok_bind]
      refine Tot.pure fun b hbl hb => ?_
      refine (ih2 u p (fuel + 1) b (t.1, ⟨t.2.g, t.2.visit, t.2.leave.setIfInBounds v t.1, t.2.head, t.2.ord, t.2.siz, t.2.par, t.2.dep⟩) tg hb (fun x hx => hla x (hbl x hx)) f3 (by omega) n2 hu (by dsimp only; omega) (by simp; omega) (by dsimp only; omega) (by dsimp only; omega) (by dsimp only; omega)).mono fun w hw => ?_
      have wk := hw.time
      have wv := hw.vsz
      have wl := hw.lsz
      have wh := hw.hsz
      have wo := hw.osz
      have wvis := hw.vis
      have wlev := hw.lev
      have word := hw.ord
      have whd := hw.hd
      have whd2 := hw.hd2
      simp only [Array.size_setIfInBounds] at wk wv wl wh wo wvis wlev word whd whd2
      have hlen : ch.pre.length = ch.size := rfl
      refine ⟨by simp only [Forest.size_cons]; omega, by rw [hw.g, hg]; exact tg, by rw [hw.siz]; exact ht.siz, by rw [hw.par]; exact ht.par, by rw [hw.dep]; exact ht.dep, by omega, by omega, by omega, by omega,
        fun x => ?_, fun x => ?_, fun j => ?_, fun x hx => ?_, fun x hx y hy => ?_⟩
      · rw [wvis, tvis, at_set' 0 (by omega)]
        simp only [Forest.pre, List.mem_cons, List.mem_append]
        by_cases hxv : x = v
        · subst hxv
          rw [if_neg hvr, if_neg hvc]
          simp
        · rw [List.idxOf_cons_ne _ (Ne.symm hxv), List.idxOf_append]
          by_cases hxc : x ∈ ch.pre
          · rw [if_neg (fun h => m5 x hxc x h rfl)]
            simp only [hxv, hxc, if_true, if_false, true_or, or_true]
            omega
          · by_cases hxr : x ∈ rest.pre
            · simp only [hxv, hxc, hxr, if_true, if_false, or_true]
              omega
            · simp only [hxv, hxc, hxr, if_false, or_false]
      · rw [wlev, at_set' 0 (by omega), tlev]
        simp only [Forest.pre, List.mem_cons, List.mem_append, Forest.sub, Forest.under]
        by_cases hxv : x = v
        · subst hxv
          rw [if_neg hvr]
          simp
          omega
        · rw [List.idxOf_cons_ne _ (Ne.symm hxv), List.idxOf_append]
          by_cases hxc : x ∈ ch.pre
          · rw [if_neg (fun h => m5 x hxc x h rfl)]
            simp only [hxv, hxc, if_true, if_false, true_or, or_true, Forest.sub]
            omega
          · by_cases hxr : x ∈ rest.pre
            · simp only [hxv, hxc, hxr, if_true, if_false, or_true, Forest.sub]
              omega
            · simp only [hxv, hxc, hxr, if_false, or_false]
      · rw [word, tord, at_set' 0 (by omega)]
        simp only [Forest.pre, Forest.size_cons]
        by_cases h1 : t.1 ≤ j ∧ j < t.1 + rest.size
        · rw [if_pos h1, if_pos (by omega)]
          obtain ⟨i, rfl⟩ : ∃ i, j = t.1 + i := ⟨j - t.1, by omega⟩
          rw [show t.1 + i - q.1 = (ch.size + i) + 1 by omega, List.getElem?_cons_succ, List.getElem?_append_right (by omega), hlen, Nat.add_sub_cancel_left, Nat.add_sub_cancel_left]
        · rw [if_neg h1]
          by_cases h2 : q.1 + 1 ≤ j ∧ j < q.1 + 1 + ch.size
          · rw [if_pos h2, if_pos (by omega)]
            obtain ⟨i, rfl⟩ : ∃ i, j = q.1 + 1 + i := ⟨j - (q.1 + 1), by omega⟩
            rw [show q.1 + 1 + i - q.1 = i + 1 by omega, List.getElem?_cons_succ, List.getElem?_append_left (by omega), Nat.add_sub_cancel_left]
          · rw [if_neg h2]
            by_cases h3 : j = q.1
            · rw [if_pos h3, if_pos (by omega), h3]
              simp
            · rw [if_neg h3, if_neg (by omega)]
      · simp only [Forest.pre, List.mem_cons, List.mem_append, not_or] at hx
        rw [whd x hx.2.2, thd x hx.2.1, at_set' 0 (by omega), if_neg hx.1]
      · rw [hg]
        simp only [Forest.pre, List.mem_cons, List.mem_append] at hx
        rw [Forest.par] at hy
        by_cases hxv : x = v
        · rw [if_pos hxv] at hy
          cases hy
          subst hxv
          rw [whd x hvr, hthv, whd u hur, hthu]
          exact hhd
        · rw [if_neg hxv] at hy
          by_cases hxc : x ∈ ch.pre
          · rw [if_pos hxc] at hy
            have h1 := thd2 x hxc y hy
            have h2 : y ∉ rest.pre := by
              rcases Forest.par_some m3 (p := some v) hxc with ⟨-, h⟩ | ⟨z, h, hz, -⟩
              · rw [h] at hy; cases hy; exact hvr
              · rw [h] at hy; cases hy; exact fun h => m5 y hz y h rfl
            rw [whd x (fun h => m5 x hxc x h rfl), whd y h2]
            exact h1
          · rw [if_neg hxc] at hy
            have h1 := whd2 x (by tauto) y hy
            rw [tg] at h1
            exact h1

end HLD
