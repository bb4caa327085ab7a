import Verif.Model.HLD
import Verif.Proof.TreePerm
import Verif.Proof.Under
import Verif.Proof.Rerooting

/-! # The two searches of the heavy light decomposition -/

namespace HLD
open Cxx Graph Tree

/-- The functions `S`, `PA`, `D` give subtree size, parent and depth for the vertices of `F`. -/
structure Glob (S : Nat → Nat) (PA : Nat → Option Nat) (D : Nat → Nat) (u : Nat) (F : Forest) : Prop where
  s : ∀ x ∈ F.pre, F.sub x = S x
  p : ∀ x ∈ F.pre, F.par (some u) x = PA x
  d : ∀ x ∈ F.pre, D u + (F.path x).length = D x

variable {S : Nat → Nat} {PA : Nat → Option Nat} {D : Nat → Nat}

theorem Glob.cons {u v : Nat} {ch rest : Forest} (h : Glob S PA D u (.cons v ch rest)) (hn : (Forest.cons v ch rest).pre.Nodup) :
    S v = ch.size + 1 ∧ PA v = some u ∧ D v = D u + 1 ∧ Glob S PA D v ch ∧ Glob S PA D u rest := by
  rw [Forest.pre, List.nodup_cons, List.mem_append, List.nodup_append] at hn
  obtain ⟨m2, m3, m4, m5⟩ := hn
  have hs := h.s
  have hp := h.p
  have hd := h.d
  simp only [Forest.pre, List.mem_cons, List.mem_append, Forest.sub, Forest.under, Forest.par, Forest.path] at hs hp hd
  have e1 := hs v (Or.inl rfl)
  have e2 := hp v (Or.inl rfl)
  have e3 := hd v (Or.inl rfl)
  rw [if_pos rfl] at e1 e2 e3
  have hvc : ∀ x ∈ ch.pre, x ≠ v := fun x hx e => m2 (Or.inl (e ▸ hx))
  have hvr : ∀ x ∈ rest.pre, x ≠ v := fun x hx e => m2 (Or.inr (e ▸ hx))
  have hcr : ∀ x ∈ rest.pre, x ∉ ch.pre := fun x hx hc => m5 x hc x hx rfl
  refine ⟨e1.symm, e2.symm, by simpa using e3.symm, ⟨fun x hx => ?_, fun x hx => ?_, fun x hx => ?_⟩, ⟨fun x hx => ?_, fun x hx => ?_, fun x hx => ?_⟩⟩
  · have := hs x (Or.inr (Or.inl hx)); rw [if_neg (hvc x hx), if_pos hx] at this; exact this
  · have := hp x (Or.inr (Or.inl hx)); rw [if_neg (hvc x hx), if_pos hx] at this; exact this
  · have := hd x (Or.inr (Or.inl hx)); rw [if_neg (hvc x hx), if_pos hx, List.length_cons] at this; simp at e3; omega
  · have := hs x (Or.inr (Or.inr hx)); rw [if_neg (hvr x hx), if_neg (hcr x hx)] at this; exact this
  · have := hp x (Or.inr (Or.inr hx)); rw [if_neg (hvr x hx), if_neg (hcr x hx)] at this; exact this
  · have := hd x (Or.inr (Or.inr hx)); rw [if_neg (hvr x hx), if_neg (hcr x hx)] at this; exact this

/-- The part `a` of an adjacency list that was scanned: its front is the heaviest child, if there is one. -/
def HF (S : Nat → Nat) (p : Option Nat) (a : List Nat) (mx : Nat) : Prop :=
  (mx = 0 ∧ ∀ c ∈ a, some c = p) ∨ (0 < mx ∧ ∃ c a', a = c :: a' ∧ some c ≠ p ∧ S c = mx ∧ ∀ d ∈ a, some d ≠ p → S d ≤ mx)

/-- What the loop of `dfs` does. -/
structure PostA (S : Nat → Nat) (PA : Nat → Option Nat) (D : Nat → Nat) (g0 : Array (List Nat)) (u : Nat) (p : Option Nat) (F : Forest) (s s' : St) : Prop where
  v : s'.visit = s.visit
  l : s'.leave = s.leave
  h : s'.head = s.head
  o : s'.ord = s.ord
  gsz : s'.g.size = s.g.size
  ssz : s'.siz.size = s.siz.size
  psz : s'.par.size = s.par.size
  dsz : s'.dep.size = s.dep.size
  par : ∀ x, at' none s'.par x = if x ∈ F.pre then PA x else at' none s.par x
  siz : ∀ x, at' 0 s'.siz x = if x ∈ F.pre then S x else if x = u then at' 0 s.siz u + F.size else at' 0 s.siz x
  dep : ∀ x, at' 0 s'.dep x = if x ∈ F.pre then (D x : Int) else at' 0 s.dep x
  other : ∀ x, x ∉ F.pre → x ≠ u → adj s'.g x = adj s.g x
  perm : ∀ x ∈ F.pre, (adj s'.g x).Perm (adj g0 x)
  permu : (adj s'.g u).Perm (adj s.g u)
  heavy : ∀ x ∈ F.pre, ∃ mx, HF S (PA x) (adj s'.g x) mx
  heavyu : ∃ mx, HF S p (adj s'.g u) mx

theorem adj_set {g : Array (List Nat)} {u : Nat} (h : u < g.size) (l : List Nat) (x : Nat) : adj (g.setIfInBounds u l) x = if x = u then l else adj g x := by
  have := at_set' [] h l x
  simpa [at', adj] using this

theorem rd_adj {g : Array (List Nat)} {u : Nat} (h : u < g.size) : rd g u = .ok (adj g u) := rd_some (adj_eq h)

theorem heavy_tot {u i v mx z : Nat} {p : Option Nat} {a l : List Nat} {s : St} (hu : u < s.g.size) (hv : v < s.siz.size) (ha : adj s.g u = a ++ v :: l) (hi : i = a.length) (hz : at' 0 s.siz v = z) (hz0 : 0 < z) (hS : S v = z)
    (hvp : some v ≠ p) (hH : HF S p a mx) :
    Tot (heavy u i v mx s) fun q => ∃ a', q.2 = ⟨s.g.setIfInBounds u (a' ++ l), s.visit, s.leave, s.head, s.ord, s.siz, s.par, s.dep⟩ ∧ a'.Perm (a ++ [v]) ∧ HF S p a' q.1 := by
  subst hi
  unfold heavy
  rw [rd_at 0 hv, ok_bind, hz]
  by_cases hlt : mx < z
  · rw [if_pos hlt, swapFront, rd_adj hu, ok_bind, ha]
    cases a with
    | nil =>
      rw [rd_some (x := v) (by simp), ok_bind, rd_some (x := v) (by simp), ok_bind, wr_eq hu]
      refine Tot.pure ⟨[v], ?_, by simp, Or.inr ⟨hz0, v, [], rfl, hvp, hS, by simp; omega⟩⟩
      simp
    | cons c a =>
      rw [rd_some (x := c) (by simp), ok_bind, rd_some (x := v) (by simp), ok_bind, wr_eq hu]
      refine Tot.pure ⟨v :: (a ++ [c]), ?_, ?_, Or.inr ⟨hz0, v, _, rfl, hvp, hS, fun d hd hdp => ?_⟩⟩
      · simp
      · refine ((List.perm_append_singleton c a).cons v).trans ?_
        exact (List.perm_append_singleton v (c :: a)).symm
      · have hd' : d = v ∨ d ∈ c :: a := by
          simp only [List.mem_cons, List.mem_append, List.not_mem_nil, or_false] at hd ⊢
          tauto
        rcases hd' with rfl | hd'
        · omega
        · rcases hH with ⟨-, h⟩ | ⟨-, -, -, -, -, -, h⟩
          · exact absurd (h d hd') hdp
          · have := h d hd' hdp; omega
  · rw [if_neg hlt]
    refine Tot.pure ⟨a ++ [v], ?_, List.Perm.refl _, ?_⟩
    · obtain ⟨g, vi, le, he, od, sz, pa, de⟩ := s
      dsimp only at ha hu ⊢
      congr 1
      refine Array.ext_getElem? fun j => ?_
      rw [get?_set _ _ _ _ hu]
      split
      · rename_i hj; rw [← hj, adj_eq hu, ha]; simp
      · rfl
    · rcases hH with ⟨h1, h2⟩ | ⟨h1, c, a', h2, h3, h4, h5⟩
      · omega
      · refine Or.inr ⟨h1, c, a' ++ [v], by rw [h2]; rfl, h3, h4, fun d hd hdp => ?_⟩
        rcases List.mem_append.1 hd with hd | hd
        · exact h5 d hd hdp
        · simp at hd; subst hd; omega

theorem kidsA {g0 : Array (List Nat)} (F : Forest) : ∀ (u : Nat) (p : Option Nat) (fuel mx : Nat) (a l : List Nat) (s : St), adj s.g u = a ++ l → (l.filter fun w => decide (some w ≠ p)) = F.roots →
    (∀ x ∈ F.pre, adj s.g x = adj g0 x) → F.Fits g0 (some u) → F.height ≤ fuel → (u :: F.pre).Nodup → u < g0.size → s.g.size = g0.size → s.siz.size = g0.size → s.par.size = g0.size → s.dep.size = g0.size →
    at' 0 s.dep u = (D u : Int) → D u + F.height < 2 ^ 31 → Glob S PA D u F → HF S p a mx →
    Tot (forUp a.length (a ++ l).length (mx, s) (kid (dfs fuel) u p)) fun q => PostA S PA D g0 u p F s q.2 := by
  induction F with
  | nil =>
    intro u p fuel mx a l s hgu hl hg0 hf hh hn hu s1 s2 s3 s4 d1 d2 hG hH
    induction l generalizing a mx with
    | nil =>
      rw [List.append_nil, Rerooting.forUp_ge (by omega)]
      rw [List.append_nil] at hgu
      refine Tot.pure ⟨rfl, rfl, rfl, rfl, rfl, rfl, rfl, rfl, by simp [Forest.pre], fun x => ?_, by simp [Forest.pre], fun _ _ _ => rfl, by simp [Forest.pre], List.Perm.refl _, by simp [Forest.pre], mx, by rw [hgu]; exact hH⟩
      dsimp only
      rw [if_neg (by simp [Forest.pre])]
      split
      · rename_i h; rw [h]; simp
      · rfl
    | cons q l ih =>
      have hq : some q = p := by
        by_contra hq
        rw [List.filter_cons_of_pos (by simpa using hq)] at hl
        simp [Forest.roots] at hl
      rw [Rerooting.forUp_lt (by simp), kid]
      dsimp only
      rw [rd_adj (by omega), ok_bind, hgu, rd_some (x := q) (by simp), ok_bind, if_pos hq, pure_eq, ok_bind]
      rw [List.filter_cons_of_neg (by simpa using hq)] at hl
      have := ih mx (a ++ [q]) (by rw [hgu]; simp) hl (by
        rcases hH with ⟨h1, h2⟩ | ⟨h1, c, a', h2, h3, h4, h5⟩
        · exact Or.inl ⟨h1, fun c hc => by
            rcases List.mem_append.1 hc with hc | hc
            · exact h2 c hc
            · simp at hc; subst hc; exact hq⟩
        · exact Or.inr ⟨h1, c, a' ++ [q], by rw [h2]; rfl, h3, h4, fun d hd hdp => by
            rcases List.mem_append.1 hd with hd | hd
            · exact h5 d hd hdp
            · simp at hd; subst hd; exact absurd hq hdp⟩)
      simpa using this
  | cons v ch rest ih1 ih2 =>
    intro u p fuel mx a l s hgu hl hg0 hf hh hn hu s1 s2 s3 s4 d1 d2 hG hH
    induction l generalizing a mx with
    | nil => simp [Forest.roots] at hl
    | cons q l ih =>
      rw [Rerooting.forUp_lt (by simp), kid]
      dsimp only
      rw [rd_adj (by omega), ok_bind, hgu, rd_some (x := q) (by simp), ok_bind]
      by_cases hq : some q = p
      · rw [if_pos hq, pure_eq, ok_bind]
        rw [List.filter_cons_of_neg (by simpa using hq)] at hl
        have := ih mx (a ++ [q]) (by rw [hgu]; simp) hl (by
          rcases hH with ⟨h1, h2⟩ | ⟨h1, c, a', h2, h3, h4, h5⟩
          · exact Or.inl ⟨h1, fun c hc => by
              rcases List.mem_append.1 hc with hc | hc
              · exact h2 c hc
              · simp at hc; subst hc; exact hq⟩
          · exact Or.inr ⟨h1, c, a' ++ [q], by rw [h2]; rfl, h3, h4, fun d hd hdp => by
              rcases List.mem_append.1 hd with hd | hd
              · exact h5 d hd hdp
              · simp at hd; subst hd; exact absurd hq hdp⟩)
        simpa using this
      · clear ih
        rw [if_neg hq]
        rw [List.filter_cons_of_pos (by simpa using hq), Forest.roots, List.cons.injEq] at hl
        obtain ⟨rfl, hl⟩ := hl
        obtain ⟨hv, f1, f2, f3⟩ := hf
        have hn' := hn
        have hnF := (List.nodup_cons.1 hn).2
        rw [Forest.pre, List.nodup_cons, List.nodup_cons, List.mem_cons, List.mem_append, List.mem_append, List.nodup_append] at hn'
        obtain ⟨m1, m2, m3, m4, m5⟩ := hn'
        have huv : u ≠ q := fun e => m1 (Or.inl e)
        have n1 : (q :: ch.pre).Nodup := List.nodup_cons.2 ⟨fun h => m2 (Or.inl h), m3⟩
        have n2 : (u :: rest.pre).Nodup := List.nodup_cons.2 ⟨fun h => m1 (Or.inr (Or.inr h)), m4⟩
        simp only [Forest.height] at hh d2
        simp only [Forest.pre, List.mem_cons, List.mem_append] at hg0
        obtain ⟨gs, gp, gd, gc, gr⟩ := hG.cons hnF
        obtain ⟨fuel, rfl⟩ : ∃ f, fuel = f + 1 := ⟨fuel - 1, by omega⟩
        have hqc : q ∉ ch.pre := fun h => m2 (Or.inl h)
        have hqr : q ∉ rest.pre := fun h => m2 (Or.inr h)
        have huc : u ∉ ch.pre := fun h => m1 (Or.inr (Or.inl h))
        have hur : u ∉ rest.pre := fun h => m1 (Or.inr (Or.inr h))
        rw [setDep, rd_at 0 (by omega), ok_bind, i32_ok ⟨by omega, by omega⟩, ok_bind, wr_eq (by omega), ok_bind, pure_eq, ok_bind, d1]
        -- the recursive call
        rw [bind_assoc]
        refine Tot.bind (P := fun r : Nat × St => r.1 = S q ∧ PostA S PA D g0 q (some u) ch ⟨s.g, s.visit, s.leave, s.head, s.ord, s.siz.setIfInBounds q 1, s.par.setIfInBounds q (some u), s.dep.setIfInBounds q ((D u : Int) + 1)⟩ r.2) ?_ ?_
        · rw [dfs, enter, wr_eq (by dsimp only; omega), ok_bind, wr_eq (by dsimp only; omega), ok_bind, pure_eq, ok_bind]
          rw [rd_adj (by dsimp only; omega), ok_bind]
          have := ih1 q (some u) fuel 0 [] (adj s.g q) ⟨s.g, s.visit, s.leave, s.head, s.ord, s.siz.setIfInBounds q 1, s.par.setIfInBounds q (some u), s.dep.setIfInBounds q ((D u : Int) + 1)⟩
            rfl (by rw [hg0 q (Or.inl rfl), f1]) (fun x hx => hg0 x (Or.inr (Or.inl hx))) f2 (by omega) n1 hv s1 (by simpa using s2) (by simpa using s3) (by simpa using s4)
            (by dsimp only; rw [at_set' 0 (by omega), if_pos rfl, gd]; push_cast; rfl) (by omega) gc (Or.inl ⟨rfl, by simp⟩)
          refine Tot.bind this ?_
          rintro ⟨z, s'⟩ hs'
          dsimp only at hs' ⊢
          have hsz := hs'.ssz
          simp only [Array.size_setIfInBounds] at hsz
          rw [rd_at 0 (by omega), ok_bind]
          refine Tot.pure ⟨?_, hs'⟩
          rw [hs'.siz q, if_neg hqc, if_pos rfl]
          dsimp only
          rw [at_set' 0 (by omega), if_pos rfl, gs]; omega
        · rintro ⟨z, t⟩ ⟨hz, ht⟩
          dsimp only at hz ht ⊢
          have t1 := ht.gsz
          have t2 := ht.ssz
          have t3 := ht.psz
          have t4 := ht.dsz
          dsimp only at t1 t2 t3 t4
          simp only [Array.size_setIfInBounds] at t2 t3 t4
          have tsiz : ∀ x, at' 0 t.siz x = if x = q ∨ x ∈ ch.pre then S x else at' 0 s.siz x := by
            intro x
            rw [ht.siz x]
            dsimp only
            by_cases hx : x ∈ ch.pre
            · rw [if_pos hx, if_pos (Or.inr hx)]
            · rw [if_neg hx]
              by_cases hxq : x = q
              · rw [if_pos hxq, if_pos (Or.inl hxq), at_set' 0 (by omega), if_pos rfl, hxq, gs]; omega
              · rw [if_neg hxq, if_neg (by tauto), at_set' 0 (by omega), if_neg hxq]
          have tpar : ∀ x, at' none t.par x = if x = q ∨ x ∈ ch.pre then PA x else at' none s.par x := by
            intro x
            rw [ht.par x]
            dsimp only
            by_cases hx : x ∈ ch.pre
            · rw [if_pos hx, if_pos (Or.inr hx)]
            · rw [if_neg hx, at_set' none (by omega)]
              by_cases hxq : x = q
              · rw [if_pos hxq, if_pos (Or.inl hxq), hxq, gp]
              · rw [if_neg hxq, if_neg (by tauto)]
          have tdep : ∀ x, at' 0 t.dep x = if x = q ∨ x ∈ ch.pre then (D x : Int) else at' 0 s.dep x := by
            intro x
            rw [ht.dep x]
            dsimp only
            by_cases hx : x ∈ ch.pre
            · rw [if_pos hx, if_pos (Or.inr hx)]
            · rw [if_neg hx, at_set' 0 (by omega)]
              by_cases hxq : x = q
              · rw [if_pos hxq, if_pos (Or.inl hxq), hxq, gd]; push_cast; rfl
              · rw [if_neg hxq, if_neg (by tauto)]
          rw [bind_assoc, addSiz, rd_at 0 (by omega), ok_bind, wr_eq (by omega), ok_bind, pure_eq, ok_bind, hz]
          have hgut : adj t.g u = a ++ q :: l := by rw [ht.other u huc huv, ← hgu]
          refine Tot.bind (heavy_tot (S := S) (p := p) (a := a) (l := l) (z := S q) ?_ ?_ ?_ rfl ?_ ?_ rfl hq hH) ?_
          · dsimp only; omega
          · dsimp only; rw [Array.size_setIfInBounds]; omega
          · exact hgut
          · dsimp only; rw [at_set' 0 (by omega), if_neg (Ne.symm huv), tsiz, if_pos (Or.inl rfl)]
          · omega
          · rintro ⟨mx', t'⟩ ⟨a', e1, e2, e3⟩
            dsimp only at e1 e2 e3 ⊢
            have hug : u < t.g.size := by omega
            have hga : ∀ x, adj t'.g x = if x = u then a' ++ l else adj t.g x := fun x => by rw [e1]; exact adj_set hug _ x
            have hlen : (a ++ q :: l).length = (a' ++ l).length := by have := e2.length_eq; simp at this ⊢; omega
            have hlen2 : a.length + 1 = a'.length := by have := e2.length_eq; simp at this; omega
            rw [hlen, hlen2]
            refine Tot.mono (ih2 u p (fuel + 1) mx' a' l t' (by rw [hga, if_pos rfl]) hl (fun x hx => ?_) f3 (by omega) n2 hu (by rw [e1]; simp; omega) (by rw [e1]; simp; omega) (by rw [e1]; simp; omega) (by rw [e1]; simp; omega) ?_ (by omega) gr e3) ?_
            · have hxu : x ≠ u := fun e => hur (e ▸ hx)
              have hxq : x ≠ q := fun e => hqr (e ▸ hx)
              have hxc : x ∉ ch.pre := fun h => m5 x h x hx rfl
              rw [hga, if_neg hxu, ht.other x hxc hxq]
              exact hg0 x (Or.inr (Or.inr hx))
            · rw [e1]
              dsimp only
              rw [tdep, if_neg (by tauto), d1]
            · rintro ⟨mz, w⟩ hw
              dsimp only at hw ⊢
              have w1 := hw.gsz
              have w2 := hw.ssz
              have w3 := hw.psz
              have w4 := hw.dsz
              have wpar := hw.par
              have wsiz := hw.siz
              have wdep := hw.dep
              rw [e1] at w1 w2 w3 w4
              simp only [e1] at wpar wsiz wdep
              dsimp only at w1 w2 w3 w4
              simp only [Array.size_setIfInBounds] at w1 w2
              have memc : ∀ x, x ∈ (Forest.cons q ch rest).pre ↔ x = q ∨ x ∈ ch.pre ∨ x ∈ rest.pre := by intro x; simp [Forest.pre]
              refine ⟨?_, ?_, ?_, ?_, by omega, by omega, by omega, by omega, fun x => ?_, fun x => ?_, fun x => ?_, fun x h1 h2 => ?_, fun x hx => ?_, ?_, fun x hx => ?_, hw.heavyu⟩
              · rw [hw.v, e1]; exact ht.v
              · rw [hw.l, e1]; exact ht.l
              · rw [hw.h, e1]; exact ht.h
              · rw [hw.o, e1]; exact ht.o
              · rw [wpar x, tpar x]
                simp only [memc]
                by_cases h1 : x ∈ rest.pre
                · rw [if_pos h1, if_pos (Or.inr (Or.inr h1))]
                · rw [if_neg h1]
                  by_cases h2 : x = q ∨ x ∈ ch.pre
                  · rw [if_pos h2, if_pos (by tauto)]
                  · rw [if_neg h2, if_neg (by tauto)]
              · rw [wsiz x]
                simp only [memc, Forest.size_cons]
                by_cases h1 : x ∈ rest.pre
                · rw [if_pos h1, if_pos (Or.inr (Or.inr h1))]
                · rw [if_neg h1]
                  by_cases hxu : x = u
                  · subst hxu
                    rw [if_pos rfl, at_set' 0 (by omega), if_pos rfl, if_neg (by tauto), if_pos rfl, tsiz, if_neg (by tauto), gs]; omega
                  · rw [if_neg hxu, if_neg hxu, at_set' 0 (by omega), if_neg hxu, tsiz]
                    by_cases h2 : x = q ∨ x ∈ ch.pre
                    · rw [if_pos h2, if_pos (by tauto)]
                    · rw [if_neg h2, if_neg (by tauto)]
              · rw [wdep x, tdep x]
                simp only [memc]
                by_cases h1 : x ∈ rest.pre
                · rw [if_pos h1, if_pos (Or.inr (Or.inr h1))]
                · rw [if_neg h1]
                  by_cases h2 : x = q ∨ x ∈ ch.pre
                  · rw [if_pos h2, if_pos (by tauto)]
                  · rw [if_neg h2, if_neg (by tauto)]
              · rw [memc, not_or, not_or] at h1
                rw [hw.other x h1.2.2 h2, hga, if_neg h2, ht.other x h1.2.1 h1.1]
              · rw [memc] at hx
                by_cases h1 : x ∈ rest.pre
                · exact hw.perm x h1
                · have hxu : x ≠ u := by rintro rfl; tauto
                  rw [hw.other x h1 hxu, hga, if_neg hxu]
                  rcases hx with rfl | hx | hx
                  · have := ht.permu
                    rw [hg0 x (Or.inl rfl)] at this
                    exact this
                  · exact ht.perm x hx
                  · exact absurd hx h1
              · refine hw.permu.trans ?_
                rw [hga, if_pos rfl, hgu]
                have := e2.append_right l
                simpa using this
              · rw [memc] at hx
                by_cases h1 : x ∈ rest.pre
                · exact hw.heavy x h1
                · have hxu : x ≠ u := by rintro rfl; tauto
                  rw [hw.other x h1 hxu, hga, if_neg hxu]
                  rcases hx with rfl | hx | hx
                  · rw [gp]; exact ht.heavyu
                  · exact ht.heavy x hx
                  · exact absurd hx h1

end HLD
