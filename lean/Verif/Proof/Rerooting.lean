import Verif.Proof.RerootingCSR
import Verif.Proof.TreePerm
import Verif.Proof.Under
import Mathlib.Algebra.BigOperators.Group.List.Basic

/-! # Correctness of the rerooting dynamic programming -/

namespace Rerooting
open Cxx Graph Tree

variable {V W T : Type}

section
variable [CommMonoid T] {sub : T → V → W → T} {w : Nat → V} {es : List (Nat × Nat × W)}

theorem Below.unique {u : Nat} {p : Option Nat} {x : T} (h : Below sub w es u p x) : ∀ {x'}, Below sub w es u p x' → x = x' := by
  induction h with
  | mk u p y h ih =>
    intro x' h'
    cases h' with
    | mk _ _ y' h' =>
      congr 1
      refine List.map_congr_left fun q hq => ?_
      rw [List.mem_filter] at hq
      rw [ih q hq.1 (by simpa using hq.2) (h' q hq.1 (by simpa using hq.2))]

theorem nbrs_symm {u v : Nat} {x : W} (h : (v, x) ∈ nbrs es u) : (u, x) ∈ nbrs es v := by
  rw [nbrs, List.mem_flatMap] at h ⊢
  obtain ⟨q, hq, h⟩ := h
  refine ⟨q, hq, ?_⟩
  rw [List.mem_append] at h ⊢
  rcases h with h | h
  · right
    split at h
    · rename_i h1
      rw [List.mem_singleton, Prod.mk.injEq] at h
      rw [if_pos h.1.symm, List.mem_singleton, Prod.mk.injEq]
      exact ⟨h1.symm, h.2⟩
    · simp at h
  · left
    split at h
    · rename_i h1
      rw [List.mem_singleton, Prod.mk.injEq] at h
      rw [if_pos h.1.symm, List.mem_singleton, Prod.mk.injEq]
      exact ⟨h1.symm, h.2⟩
    · simp at h

theorem adj_graph {n u : Nat} (hu : u < n) : adj (graph n es) u = (nbrs es u).map Prod.fst := by
  simp [adj, graph, hu]

theorem below_forest {n : Nat} {F : Forest} : ∀ {u : Nat}, F.Fits (graph n es) (some u) → ∀ v ∈ F.roots, ∃ x, Below sub w es v (some u) x := by
  induction F with
  | nil => intro u _ v hv; simp [Forest.roots] at hv
  | cons v ch rest ih1 ih2 =>
    intro u hf x hx
    obtain ⟨hv, f1, f2, f3⟩ := hf
    rw [Forest.roots, List.mem_cons] at hx
    rcases hx with rfl | hx
    · have := ih1 f2
      choose! y hy using this
      refine ⟨_, Below.mk x (some u) y fun q hq hqp => hy q.1 ?_⟩
      rw [f1, adj_graph (by simpa [graph] using hv), List.mem_filter]
      exact ⟨List.mem_map.2 ⟨q, hq, rfl⟩, by simpa using hqp⟩
    · exact ih2 f3 x hx

theorem below_exists {n : Nat} (hg : IsTree (graph n es)) {u : Nat} (hu : u < n) : (∀ v x, (v, x) ∈ nbrs es u → ∃ y, Below sub w es v (some u) y) ∧ ∃ x, Below sub w es u none x := by
  obtain ⟨F, hF⟩ := exists_rooted hg (r := u) (by simpa [graph] using hu)
  have h1 : ∀ v x, (v, x) ∈ nbrs es u → ∃ y, Below sub w es v (some u) y := by
    intro v x hv
    refine below_forest hF.fits v ?_
    rw [hF.roots, adj_graph hu]
    exact List.mem_map.2 ⟨_, hv, rfl⟩
  refine ⟨h1, ?_⟩
  have h2 : ∀ v, v ∈ (nbrs es u).map Prod.fst → ∃ y, Below sub w es v (some u) y := by
    intro v hv
    obtain ⟨q, hq, rfl⟩ := List.mem_map.1 hv
    exact h1 q.1 q.2 hq
  choose! y hy using h2
  exact ⟨_, Below.mk u none y fun q hq _ => hy q.1 (List.mem_map.2 ⟨q, hq, rfl⟩)⟩

/-- The adjacency list in the order of the code. -/
def nb (es : List (Nat × Nat × W)) (u : Nat) : List (Nat × W) := (nbrs es u).reverse

/-- The contribution of the neighbour `q` to `u`. -/
def T1 (sub : T → V → W → T) (w : Nat → V) (val : Nat → Option Nat → T) (u : Nat) (q : Nat × W) : T := sub (val q.1 (some u)) (w q.1) q.2

/-- Values of all parts of the tree. -/
structure Vals (n : Nat) (sub : T → V → W → T) (w : Nat → V) (es : List (Nat × Nat × W)) (val : Nat → Option Nat → T) : Prop where
  none : ∀ u < n, val u none = ((nb es u).map (T1 sub w val u)).prod
  some : ∀ u < n, ∀ v x, (v, x) ∈ nb es u → val u (some v) = (((nb es u).filter fun q => decide (q.1 ≠ v)).map (T1 sub w val u)).prod
  below : ∀ u < n, Below sub w es u Option.none (val u Option.none)

theorem vals_exists {n : Nat} (hg : IsTree (graph n es)) : ∃ val, Vals n sub w es val := by
  have hex : ∀ u p, ∃ x, (∃ y, Below sub w es u p y) → Below sub w es u p x := by
    intro u p
    by_cases h : ∃ y, Below sub w es u p y
    · obtain ⟨y, hy⟩ := h; exact ⟨y, fun _ => hy⟩
    · exact ⟨1, fun h' => absurd h' h⟩
  choose val hval using hex
  have key : ∀ u p, (∃ y, Below sub w es u p y) → val u p = (((nb es u).filter fun q => decide (some q.1 ≠ p)).map (T1 sub w val u)).prod := by
    intro u p h
    have hb := hval u p h
    obtain ⟨x, hx⟩ : ∃ x, x = val u p := ⟨_, rfl⟩
    rw [← hx] at hb ⊢
    cases hb with
    | mk _ _ y hy =>
      rw [nb, List.filter_reverse, List.map_reverse, (List.reverse_perm _).prod_eq]
      congr 1
      refine List.map_congr_left fun q hq => ?_
      rw [List.mem_filter] at hq
      have hy1 := hy q hq.1 (by simpa using hq.2)
      rw [T1, hy1.unique (hval _ _ ⟨_, hy1⟩)]
  refine ⟨val, fun u hu => ?_, fun u hu v x hv => ?_, fun u hu => hval u none (below_exists hg hu).2⟩
  · rw [key u none (below_exists hg hu).2]
    congr 2
    exact List.filter_eq_self.2 (by simp)
  · rw [nb, List.mem_reverse] at hv
    have hvn : v < n := by
      have := hg.valid u v (by rw [E, adj_graph hu]; exact List.mem_map.2 ⟨_, hv, rfl⟩)
      simpa [graph] using this
    rw [key u (Option.some v) ((below_exists hg hvn).1 u x (nbrs_symm hv))]
    congr 2
    refine List.filter_congr fun q _ => ?_
    simp

variable {n : Nat} {val : Nat → Option Nat → T}

theorem nb_nodup (hg : IsTree (graph n es)) {u : Nat} (hu : u < n) : ((nb es u).map Prod.fst).Nodup := by
  rw [nb, List.map_reverse, List.nodup_reverse, ← adj_graph hu]
  exact hg.simple u

theorem nb_lt (hg : IsTree (graph n es)) {u : Nat} (hu : u < n) {q : Nat × W} (hq : q ∈ nb es u) : q.1 < n := by
  rw [nb, List.mem_reverse] at hq
  have := hg.valid u q.1 (by rw [E, adj_graph hu]; exact List.mem_map.2 ⟨_, hq, rfl⟩)
  simpa [graph] using this

/-- Removing one neighbour. -/
theorem Vals.remove (h : Vals n sub w es val) (hg : IsTree (graph n es)) {u : Nat} (hu : u < n) {a b : List (Nat × W)} {q : Nat × W} (e : nb es u = a ++ q :: b) :
    val u (Option.some q.1) = (a.map (T1 sub w val u)).prod * (b.map (T1 sub w val u)).prod := by
  have hnd := nb_nodup hg hu
  rw [h.some u hu q.1 q.2 (by rw [e]; simp), e]
  rw [e, List.map_append, List.map_cons, List.nodup_append, List.nodup_cons] at hnd
  obtain ⟨-, ⟨h2, -⟩, h3⟩ := hnd
  rw [List.filter_append, List.filter_cons_of_neg (by simp), List.map_append, List.prod_append]
  congr 3
  · exact List.filter_eq_self.2 fun y hy => by
      simp only [ne_eq, decide_not, Bool.not_eq_eq_eq_not, Bool.not_true, decide_eq_false_iff_not]
      exact fun e' => h3 y.1 (List.mem_map.2 ⟨y, hy, rfl⟩) q.1 (by simp) e'
  · exact List.filter_eq_self.2 fun y hy => by
      simp only [ne_eq, decide_not, Bool.not_eq_eq_eq_not, Bool.not_true, decide_eq_false_iff_not]
      exact fun e' => h2 (List.mem_map.2 ⟨y, hy, e'⟩)

theorem Vals.add (h : Vals n sub w es val) (hg : IsTree (graph n es)) {u : Nat} (hu : u < n) {q : Nat × W} (hq : q ∈ nb es u) :
    val u Option.none = val u (Option.some q.1) * T1 sub w val u q := by
  obtain ⟨a, b, e⟩ := List.append_of_mem hq
  rw [h.remove hg hu e, h.none u hu, e, List.map_append, List.map_cons, List.prod_append, List.prod_cons]
  rw [mul_assoc, mul_comm (T1 sub w val u q)]

/-- The children of the code's graph. -/
def cg (n : Nat) (es : List (Nat × Nat × W)) : Array (List Nat) := Array.ofFn fun u : Fin n => (nb es u).map Prod.fst

theorem adj_cg {u : Nat} (hu : u < n) : adj (cg n es) u = (nb es u).map Prod.fst := by simp [adj, cg, hu]

theorem cg_size : (cg n es).size = n := by simp [cg]

theorem cg_tree (hg : IsTree (graph n es)) : IsTree (cg n es) := by
  refine hg.perm (by simp [cg, graph]) fun u => ?_
  by_cases hu : u < n
  · rw [adj_cg hu, adj_graph hu]
    exact (List.reverse_perm _).map _
  · rw [adj_ge (by rw [cg_size]; omega), adj_ge (by simp [graph]; omega)]

end

section
variable [CommMonoid T] {sub : T → V → W → T} {root : T → V → T} {wv : Array V} {w : Nat → V} {es : List (Nat × Nat × W)} {n : Nat} {val : Nat → Option Nat → T} {c : CSR W}

theorem term_ok (hw : ∀ v < n, wv[v]? = some (w v)) {x : T} {v : Nat} (hv : v < n) (ew : W) : term sub wv x v ew = .ok (sub x (w v) ew) := by
  rw [term, rd_some (hw v hv)]; rfl

theorem kids1 (hg : IsTree (graph n es)) (hc : IsCSR n es c) (hw : ∀ v < n, wv[v]? = some (w v)) (hval : Vals n sub w es val) (F : Forest) :
    ∀ (u : Nat) (p : Option Nat) (fuel : Nat) (l : List (Nat × W)) (dp : Array T), (∀ q ∈ l, q ∈ nb es u) → ((l.map Prod.fst).filter fun v => decide (some v ≠ p)) = F.roots → F.Fits (cg n es) (some u) →
      F.height ≤ fuel → (u :: F.pre).Nodup → u < n → dp.size = n → (∀ x ∈ F.pre, at' 1 dp x = 1) →
      Tot (forEach l dp (kid1 sub wv (dfs1 sub wv c fuel) u p)) fun dp' => dp'.size = n ∧ (∀ x ∈ F.pre, at' 1 dp' x = val x (F.par (some u) x)) ∧
        at' 1 dp' u = at' 1 dp u * ((l.filter fun q => decide (some q.1 ≠ p)).map (T1 sub w val u)).prod ∧ ∀ x, x ≠ u → x ∉ F.pre → at' 1 dp' x = at' 1 dp x := by
  induction F with
  | nil =>
    intro u p fuel l dp hlu hl hf hh hn hu hs h1
    induction l with
    | nil => exact Tot.pure ⟨hs, by simp [Forest.pre], by simp, fun _ _ _ => rfl⟩
    | cons q l ih =>
      have hq : some q.1 = p := by
        by_contra hq
        rw [List.map_cons, List.filter_cons_of_pos (by simpa using hq)] at hl
        simp [Forest.roots] at hl
      rw [forEach, kid1, if_neg (by simpa using hq), pure_eq, ok_bind]
      rw [List.map_cons, List.filter_cons_of_neg (by simpa using hq)] at hl
      rw [List.filter_cons_of_neg (by simpa using hq)]
      exact ih (fun q hq => hlu q (by simp [hq])) hl
  | cons v ch rest ih1 ih2 =>
    intro u p fuel l dp hlu hl hf hh hn hu hs h1
    induction l with
    | nil => simp [Forest.roots] at hl
    | cons q l ih =>
      by_cases hq : some q.1 = p
      · rw [forEach, kid1, if_neg (by simpa using hq), pure_eq, ok_bind]
        rw [List.map_cons, List.filter_cons_of_neg (by simpa using hq)] at hl
        rw [List.filter_cons_of_neg (by simpa using hq)]
        exact ih (fun q hq => hlu q (by simp [hq])) hl
      · clear ih
        rw [List.map_cons, List.filter_cons_of_pos (by simpa using hq), Forest.roots, List.cons.injEq] at hl
        obtain ⟨hqv, hl⟩ := hl
        rw [List.filter_cons_of_pos (by simpa using hq), List.map_cons, List.prod_cons]
        obtain ⟨hv, f1, f2, f3⟩ := hf
        rw [cg_size] at hv
        have hn' := hn
        rw [Forest.pre, List.nodup_cons, List.nodup_cons, List.mem_cons, List.mem_append, List.mem_append, List.nodup_append] at hn'
        obtain ⟨m1, m2, m3, m4, m5⟩ := hn'
        have huv : u ≠ v := fun e => m1 (Or.inl e)
        have n1 : (v :: ch.pre).Nodup := List.nodup_cons.2 ⟨fun h => m2 (Or.inl h), m3⟩
        have n2 : (u :: rest.pre).Nodup := List.nodup_cons.2 ⟨fun h => m1 (Or.inr (Or.inr h)), m4⟩
        simp only [Forest.height] at hh
        simp only [Forest.pre, List.mem_cons, List.mem_append] at h1
        obtain ⟨fuel, rfl⟩ : ∃ f, fuel = f + 1 := ⟨fuel - 1, by omega⟩
        rw [forEach, kid1, if_pos (by simpa using hq)]
        have hqu := hlu q (by simp)
        have hvu : (u, q.2) ∈ nb es v := by
          rw [← hqv]
          unfold nb at hqu ⊢
          rw [List.mem_reverse] at hqu ⊢
          exact nbrs_symm (es := es) (v := q.1) hqu
        refine Tot.bind (P := fun dp' : Array T => dp'.size = n ∧ (∀ x ∈ ch.pre, at' 1 dp' x = val x (ch.par (some v) x)) ∧ at' 1 dp' v = val v (some u) ∧
          at' 1 dp' u = at' 1 dp u * T1 sub w val u q ∧ ∀ x, x ≠ u → x ≠ v → x ∉ ch.pre → at' 1 dp' x = at' 1 dp x) ?_ ?_
        · rw [hqv, dfs1, hc.view v hv, ok_bind]
          refine Tot.bind (ih1 v (some u) fuel (nb es v) dp (fun _ h => h) (by rw [← adj_cg hv, f1]) f2 (by omega) n1 hv hs (fun x hx => h1 x (Or.inr (Or.inl hx)))) ?_
          rintro dp1 ⟨a1, a2, a3, a4⟩
          have e1 : at' 1 dp1 v = val v (some u) := by
            rw [a3, h1 v (Or.inl rfl), one_mul, hval.some v hv u q.2 hvu]
            congr 2
            exact List.filter_congr fun q _ => by simp
          have e2 : at' 1 dp1 u = at' 1 dp u := a4 u huv (fun h => m1 (Or.inr (Or.inl h)))
          rw [absorb, rd_at 1 (by omega), ok_bind, hqv, rd_at 1 (by omega), ok_bind, term_ok hw hv, ok_bind, wr_eq (by omega), tot_ok]
          refine ⟨by simpa using a1, fun x hx => ?_, ?_, ?_, fun x h1 h2 h3 => ?_⟩
          · rw [at_set' 1 (by omega), if_neg (fun e : x = u => m1 (Or.inr (Or.inl (e ▸ hx)))), a2 x hx]
          · rw [at_set' 1 (by omega), if_neg (Ne.symm huv), e1]
          · rw [at_set' 1 (by omega), if_pos rfl, e2, e1, T1, hqv]
          · rw [at_set' 1 (by omega), if_neg h1, a4 x h2 h3]
        · rintro dp1 ⟨a1, a2, a3, a4, a5⟩
          refine Tot.mono (ih2 u p (fuel + 1) l dp1 (fun q hq => hlu q (by simp [hq])) hl f3 (by omega) n2 hu a1 (fun x hx => ?_)) ?_
          · rw [a5 x (fun e : x = u => m1 (Or.inr (Or.inr (e ▸ hx)))) (fun e : x = v => m2 (Or.inr (e ▸ hx))) (fun h => m5 x h x hx rfl)]
            exact h1 x (Or.inr (Or.inr hx))
          · rintro dp2 ⟨b1, b2, b3, b4⟩
            refine ⟨b1, fun x hx => ?_, ?_, fun x h1 h2 => ?_⟩
            · simp only [Forest.par]
              simp only [Forest.pre, List.mem_cons, List.mem_append] at hx
              by_cases hxv : x = v
              · subst hxv
                rw [if_pos rfl, b4 x (Ne.symm huv) (fun h => m2 (Or.inr h)), a3]
              · rw [if_neg hxv]
                by_cases hxc : x ∈ ch.pre
                · rw [if_pos hxc, b4 x (fun e => m1 (Or.inr (Or.inl (e ▸ hxc)))) (fun h => m5 x hxc x h rfl), a2 x hxc]
                · rw [if_neg hxc]
                  exact b2 x ((hx.resolve_left hxv).resolve_left hxc)
            · rw [b3, a4, mul_assoc]
            · simp only [Forest.pre, List.mem_cons, List.mem_append, not_or] at h2
              rw [b4 x h1 h2.2.2, a5 x h1 h2.1 h2.2.1]

theorem edgeTerm_ok (hw : ∀ v < n, wv[v]? = some (w v)) {u : Nat} {p : Option Nat} {sp : T} {dp : Array T} {q : Nat × W} (hq : q.1 < n) (hs : dp.size = n)
    (hp : some q.1 = p → sp = val q.1 (some u)) (hd : some q.1 ≠ p → at' 1 dp q.1 = val q.1 (some u)) : edgeTerm sub wv p sp dp q = .ok (T1 sub w val u q) := by
  have : getSum p sp dp q.1 = .ok (val q.1 (some u)) := by
    unfold getSum
    split
    · rename_i h; rw [hp h]; rfl
    · rename_i h; rw [rd_at 1 (by omega), hd h]
  rw [edgeTerm, this, ok_bind, term_ok hw hq, T1]

/-- The suffix products. -/
theorem sumR_tot (hw : ∀ v < n, wv[v]? = some (w v)) {u : Nat} {p : Option Nat} {sp : T} {dp : Array T} {a : List (Nat × W)} (ha : ∀ q ∈ a, edgeTerm sub wv p sp dp q = .ok (T1 sub w val u q)) :
    Tot (forDown a.length 0 (Array.replicate (a.length + 1) 1) (rightStep sub wv a p sp dp)) fun r => r.size = a.length + 1 ∧ ∀ i ≤ a.length, at' 1 r i = ((a.drop i).map (T1 sub w val u)).prod := by
  refine Tot.mono (Tot.forDown (P := fun i (r : Array T) => r.size = a.length + 1 ∧ ∀ j, i ≤ j → j ≤ a.length → at' 1 r j = ((a.drop j).map (T1 sub w val u)).prod) (by omega) ?_ ?_) ?_
  · refine ⟨by simp, fun j h1 h2 => ?_⟩
    have : j = a.length := by omega
    subst this
    simp [at']
  · intro i r h1 h2 hr
    rw [rightStep, rd_eq (by simpa using h2)]
    simp only [ok_bind, List.getElem_toArray]
    rw [rd_at 1 (by omega), ok_bind, ha _ (List.getElem_mem h2), ok_bind, wr_eq (by omega), tot_ok]
    refine ⟨by simpa using hr.1, fun j hj1 hj2 => ?_⟩
    rw [at_set' 1 (by omega)]
    by_cases hji : j = i
    · subst hji
      rw [if_pos rfl, hr.2 (j + 1) (by omega) (by omega), List.drop_eq_getElem_cons h2, List.map_cons, List.prod_cons, mul_comm]
    · rw [if_neg hji, hr.2 j (by omega) hj2]
  · intro r hr
    exact ⟨hr.1, fun i hi => hr.2 i (Nat.zero_le _) hi⟩

theorem forUp_lt {σ : Type} {lo hi : Nat} (h : lo < hi) (s : σ) (f : Nat → σ → M σ) : forUp lo hi s f = f lo s >>= fun s => forUp (lo + 1) hi s f := by
  unfold forUp
  rw [show hi - lo = (hi - (lo + 1)) + 1 by omega]
  rfl

theorem forUp_ge {σ : Type} {lo hi : Nat} (h : hi ≤ lo) (s : σ) (f : Nat → σ → M σ) : forUp lo hi s f = .ok s := by
  unfold forUp
  rw [show hi - lo = 0 by omega]
  rfl

theorem kids2 (hg : IsTree (graph n es)) (hc : IsCSR n es c) (hw : ∀ v < n, wv[v]? = some (w v)) (hval : Vals n sub w es val) (F : Forest) :
    ∀ (u : Nat) (p : Option Nat) (fuel : Nat) (pr l : List (Nat × W)) (sp : T) (sumR dp : Array T), nb es u = pr ++ l → ((l.map Prod.fst).filter fun v => decide (some v ≠ p)) = F.roots →
      F.Fits (cg n es) (some u) → F.height ≤ fuel → (u :: F.pre).Nodup → u < n → dp.size = n → sumR.size = (nb es u).length + 1 →
      (∀ i ≤ (nb es u).length, at' 1 sumR i = (((nb es u).drop i).map (T1 sub w val u)).prod) →
      (∀ q, p = some q → sp = val q (some u)) → (∀ x ∈ F.pre, at' 1 dp x = val x (F.par (some u) x)) →
      Tot (forUp pr.length (nb es u).length ((pr.map (T1 sub w val u)).prod, dp) (leftStep sub root wv (dfs2 sub root wv c fuel) u (nb es u) p sp sumR)) fun s => s.2.size = n ∧
        (∀ x ∈ F.pre, at' 1 s.2 x = root (val x none) (w x)) ∧ ∀ x, x ∉ F.pre → at' 1 s.2 x = at' 1 dp x := by
  induction F with
  | nil =>
    intro u p fuel pr l sp sumR dp hnb hl hf hh hn hu hs hr1 hr2 hsp hd
    induction l generalizing pr with
    | nil =>
      rw [hnb, List.append_nil, forUp_ge (by omega)]
      exact Tot.pure ⟨hs, by simp [Forest.pre], fun _ _ => rfl⟩
    | cons q l ih =>
      have hq : some q.1 = p := by
        by_contra hq
        rw [List.map_cons, List.filter_cons_of_pos (by simpa using hq)] at hl
        simp [Forest.roots] at hl
      have hlen : pr.length < (nb es u).length := by rw [hnb]; simp
      have hget : (nb es u)[pr.length]? = some q := by rw [hnb]; simp
      have hqn : q.1 < n := nb_lt hg hu (List.mem_of_getElem? hget)
      rw [forUp_lt hlen, leftStep, rd_some (by simpa using hget), ok_bind]
      rw [edgeTerm_ok (val := val) (u := u) hw hqn hs (fun h => hsp _ h.symm) (fun h => absurd hq h), ok_bind, rd_at 1 (by omega), ok_bind, descend, if_neg (by simpa using hq)]
      simp only [pure_eq, ok_bind]
      rw [List.map_cons, List.filter_cons_of_neg (by simpa using hq)] at hl
      have := ih (pr ++ [q]) (by rw [hnb]; simp) hl
      rw [List.map_append, List.prod_append] at this
      simpa using this
  | cons v ch rest ih1 ih2 =>
    intro u p fuel pr l sp sumR dp hnb hl hf hh hn hu hs hr1 hr2 hsp hd
    induction l generalizing pr with
    | nil => simp [Forest.roots] at hl
    | cons q l ih =>
      have hlen : pr.length < (nb es u).length := by rw [hnb]; simp
      have hget : (nb es u)[pr.length]? = some q := by rw [hnb]; simp
      have hqn : q.1 < n := nb_lt hg hu (List.mem_of_getElem? hget)
      rw [forUp_lt hlen, leftStep, rd_some (by simpa using hget), ok_bind]
      by_cases hq : some q.1 = p
      · rw [edgeTerm_ok (val := val) (u := u) hw hqn hs (fun h => hsp _ h.symm) (fun h => absurd hq h), ok_bind, rd_at 1 (by omega), ok_bind, descend, if_neg (by simpa using hq)]
        simp only [pure_eq, ok_bind]
        rw [List.map_cons, List.filter_cons_of_neg (by simpa using hq)] at hl
        have := ih (pr ++ [q]) (by rw [hnb]; simp) hl
        rw [List.map_append, List.prod_append] at this
        simpa using this
      · clear ih
        rw [List.map_cons, List.filter_cons_of_pos (by simpa using hq), Forest.roots, List.cons.injEq] at hl
        obtain ⟨hqv, hl⟩ := hl
        obtain ⟨hv, f1, f2, f3⟩ := hf
        rw [cg_size] at hv
        have hn' := hn
        rw [Forest.pre, List.nodup_cons, List.nodup_cons, List.mem_cons, List.mem_append, List.mem_append, List.nodup_append] at hn'
        obtain ⟨m1, m2, m3, m4, m5⟩ := hn'
        have huv : u ≠ v := fun e => m1 (Or.inl e)
        have n1 : (v :: ch.pre).Nodup := List.nodup_cons.2 ⟨fun h => m2 (Or.inl h), m3⟩
        have n2 : (u :: rest.pre).Nodup := List.nodup_cons.2 ⟨fun h => m1 (Or.inr (Or.inr h)), m4⟩
        simp only [Forest.height] at hh
        simp only [Forest.pre, List.mem_cons, List.mem_append, Forest.par] at hd
        obtain ⟨fuel, rfl⟩ : ∃ f, fuel = f + 1 := ⟨fuel - 1, by omega⟩
        have hqu : q ∈ nb es u := List.mem_of_getElem? hget
        have hvu : (u, q.2) ∈ nb es v := by
          rw [← hqv]
          unfold nb at hqu ⊢
          rw [List.mem_reverse] at hqu ⊢
          exact nbrs_symm (es := es) (v := q.1) hqu
        have hdv : at' 1 dp v = val v (some u) := by rw [hd v (Or.inl rfl), if_pos rfl]
        have hlr : (pr.map (T1 sub w val u)).prod * at' 1 sumR (pr.length + 1) = val u (some v) := by
          rw [hr2 _ (by omega), ← hqv, hval.remove hg hu hnb, hnb]
          congr 3
          rw [show pr ++ q :: l = (pr ++ [q]) ++ l by simp, show pr.length + 1 = (pr ++ [q]).length by simp, List.drop_left]
        rw [edgeTerm_ok (val := val) (u := u) hw hqn hs (fun h => absurd h hq) (fun _ => by rw [hqv, hdv]), ok_bind, rd_at 1 (by omega), ok_bind]
        simp only [hlr]
        rw [descend, if_pos (by simpa using hq), hqv, rd_at 1 (by omega), ok_bind, hlr, term_ok hw hu, ok_bind, setRoot, rd_some (hw v hv), ok_bind, wr_eq (by omega), ok_bind]
        have hfin : at' 1 dp v * sub (val u (some v)) (w u) q.2 = val v none := by rw [hdv, hval.add hg hv hvu, T1]
        rw [hfin]
        obtain ⟨dp1, hdp1⟩ : ∃ dp1, dp1 = dp.setIfInBounds v (root (val v none) (w v)) := ⟨_, rfl⟩
        have hset : ∀ y, at' 1 dp1 y = if y = v then root (val v none) (w v) else at' 1 dp y := fun y => by rw [hdp1]; exact at_set' 1 (by omega) _ y
        have hsz1 : dp1.size = n := by rw [hdp1]; simpa using hs
        rw [← hdp1]
        -- the recursive call
        have hrec : Tot (dfs2 sub root wv c (fuel + 1) v (some u) (val u (some v)) dp1) fun dp2 => dp2.size = n ∧ (∀ x ∈ ch.pre, at' 1 dp2 x = root (val x none) (w x)) ∧
            ∀ x, x ∉ ch.pre → at' 1 dp2 x = at' 1 dp1 x := by
          have hch : ∀ x ∈ ch.pre, at' 1 dp1 x = val x (ch.par (some v) x) := by
            intro x hx
            have hxv : x ≠ v := fun e => m2 (Or.inl (e ▸ hx))
            rw [hset, if_neg hxv, hd x (Or.inr (Or.inl hx)), if_neg hxv, if_pos hx]
          have hroots : ((nb es v).map Prod.fst).filter (fun x => decide (some x ≠ some u)) = ch.roots := by rw [f1, adj_cg hv]
          rw [dfs2, hc.view v hv, ok_bind]
          refine Tot.bind (sumR_tot (val := val) (u := v) hw (a := nb es v) fun q' hq' => ?_) ?_
          · refine edgeTerm_ok hw (nb_lt hg hv hq') hsz1 (fun h => by simp at h; rw [h]) fun h => ?_
            have hr : q'.1 ∈ ch.roots := by
              rw [← hroots, List.mem_filter]
              exact ⟨List.mem_map.2 ⟨q', hq', rfl⟩, by simpa using h⟩
            rw [hch q'.1 (Forest.roots_sub hr)]
            rcases Forest.par_some m3 (p := some v) (Forest.roots_sub hr) with ⟨-, h⟩ | ⟨y, -, hy1, hy2⟩
            · rw [h]
            · have h1 := Forest.path_root m3 hr
              have h2 := ((Forest.mem_under_roots m3 hy1).1 hy2).2
              have h3 := Forest.path_ne hy1
              rw [h1] at h2
              have := congrArg List.length h2
              simp at this
              exact absurd this h3
          · rintro R ⟨R1, R2⟩
            have := ih1 v (some u) fuel [] (nb es v) (val u (some v)) R dp1 (by simp) hroots f2 (by omega) n1 hv hsz1 R1 R2 (fun y hy => by simp at hy; rw [hy]) hch
            refine Tot.bind this ?_
            rintro s ⟨s1, s2, s3⟩
            exact Tot.pure ⟨s1, s2, s3⟩
        refine Tot.bind (P := fun s : T × Array T => s.1 = ((pr ++ [q]).map (T1 sub w val u)).prod ∧ s.2.size = n ∧ (∀ x ∈ ch.pre, at' 1 s.2 x = root (val x none) (w x)) ∧
            ∀ x, x ∉ ch.pre → at' 1 s.2 x = at' 1 dp1 x) ?_ ?_
        · refine Tot.bind hrec ?_
          intro dp2 hdp2
          exact Tot.pure ⟨by simp, hdp2⟩
        · rintro ⟨sl, dp2⟩ ⟨e1, a1, a2, a3⟩
          dsimp only at e1 a1 a2 a3
          subst e1
          have := ih2 u p (fuel + 1) (pr ++ [q]) l sp sumR dp2 (by rw [hnb]; simp) hl f3 (by omega) n2 hu a1 hr1 hr2 hsp (fun x hx => ?_)
          · rw [List.length_append] at this
            refine Tot.mono this ?_
            rintro s ⟨b1, b2, b3⟩
            refine ⟨b1, fun x hx => ?_, fun x hx => ?_⟩
            · simp only [Forest.pre, List.mem_cons, List.mem_append] at hx
              rcases hx with rfl | hx | hx
              · rw [b3 x (fun h => m2 (Or.inr h)), a3 x (fun h => m2 (Or.inl h)), hset, if_pos rfl]
              · rw [b3 x (fun h => m5 x hx x h rfl), a2 x hx]
              · exact b2 x hx
            · simp only [Forest.pre, List.mem_cons, List.mem_append, not_or] at hx
              rw [b3 x hx.2.2, a3 x hx.2.1, hset, if_neg hx.1]
          · have hxv : x ≠ v := fun e => m2 (Or.inr (e ▸ hx))
            have hxc : x ∉ ch.pre := fun h => m5 x h x hx rfl
            rw [a3 x hxc, hset, if_neg hxv, hd x (Or.inr (Or.inr hx)), if_neg hxv, if_neg hxc]

end

theorem par_root {F : Forest} (hn : F.pre.Nodup) {p : Option Nat} {x : Nat} (hr : x ∈ F.roots) : F.par p x = p := by
  rcases Forest.par_some hn (p := p) (Forest.roots_sub hr) with ⟨-, h⟩ | ⟨y, -, hy1, hy2⟩
  · exact h
  · have h1 := Forest.path_root hn hr
    have h2 := ((Forest.mem_under_roots hn hy1).1 hy2).2
    have h3 := Forest.path_ne hy1
    rw [h1] at h2
    have := congrArg List.length h2
    simp at this
    exact absurd this h3

theorem edges_lt {n : Nat} {es : List (Nat × Nat × W)} {u : Nat} {q : Nat × W} (hg : IsTree (graph n es)) (hu : u < n) (h : q ∈ nbrs es u) : q.1 < n := by
  have := hg.valid u q.1 (by rw [E, adj_graph hu]; exact List.mem_map.2 ⟨_, h, rfl⟩)
  simpa [graph] using this

section
variable [CommMonoid T] {sub : T → V → W → T} {root : T → V → T} {wv : Array V} {w : Nat → V} {es : List (Nat × Nat × W)} {n : Nat} {val : Nat → Option Nat → T} {c : CSR W}

theorem first_tot (hg : IsTree (graph n es)) (hc : IsCSR n es c) (hw : ∀ v < n, wv[v]? = some (w v)) (hval : Vals n sub w es val) {F : Forest} (hF : Rooted (cg n es) 0 F) :
    Tot (dfs1 sub wv c (n + 1) 0 none (Array.replicate n 1)) fun dp => dp.size = n ∧ at' 1 dp 0 = val 0 none ∧ ∀ x ∈ F.pre, at' 1 dp x = val x (F.par (some 0) x) := by
  have h0 : 0 < n := by have := hF.lt; rwa [cg_size] at this
  have hrep : ∀ x, at' 1 (Array.replicate n (1 : T)) x = 1 := by
    intro x
    rw [at', Array.getElem?_replicate]; split <;> rfl
  rw [dfs1, hc.view 0 h0, ok_bind]
  refine Tot.mono (kids1 hg hc hw hval F 0 none n (nb es 0) _ (fun _ h => h) ?_ hF.fits ?_ hF.nodup h0 (by simp) (fun x _ => hrep x)) ?_
  · rw [hF.roots, adj_cg h0]
    exact List.filter_eq_self.2 (by simp)
  · have := F.height_le
    have h2 := hF.perm.length_eq
    rw [List.length_cons, List.length_range, cg_size] at h2
    unfold Forest.size at this
    omega
  · rintro dp ⟨a1, a2, a3, a4⟩
    refine ⟨a1, ?_, a2⟩
    rw [a3, hrep, one_mul, hval.none 0 h0]
    congr 2
    exact List.filter_eq_self.2 (by simp)

theorem runDp_tot [Inhabited W] {o : Obj V W} (he : ∀ q ∈ o.e, q.1 < o.w.size ∧ q.2.1 < o.w.size) (hg : IsTree (graph o.w.size o.e)) (hw : ∀ v < o.w.size, o.w[v]? = some (w v))
    (hval : Vals o.w.size sub w o.e val) : Tot (runDp sub root o) fun dp => dp.size = o.w.size ∧ ∀ x < o.w.size, at' 1 dp x = root (val x none) (w x) := by
  have h0 : 0 < o.w.size := by simpa [graph] using hg.pos
  obtain ⟨F, hF⟩ := exists_rooted (cg_tree hg) (r := 0) (by rw [cg_size]; exact h0)
  unfold runDp
  refine Tot.bind (csr_tot he) fun c hc => ?_
  refine Tot.bind (first_tot hg hc hw hval hF) ?_
  rintro dp ⟨a1, a2, a3⟩
  rw [rd_at 1 (by omega), ok_bind, setRoot, rd_some (hw 0 h0), ok_bind, wr_eq (by omega), ok_bind, a2]
  obtain ⟨dp1, hdp1⟩ : ∃ dp1, dp1 = dp.setIfInBounds 0 (root (val 0 none) (w 0)) := ⟨_, rfl⟩
  have hset : ∀ y, at' 1 dp1 y = if y = 0 then root (val 0 none) (w 0) else at' 1 dp y := fun y => by rw [hdp1]; exact at_set' 1 (by omega) _ y
  have hsz1 : dp1.size = o.w.size := by rw [hdp1]; simpa using a1
  rw [← hdp1]
  have hnd := List.nodup_cons.1 hF.nodup
  have hch : ∀ x ∈ F.pre, at' 1 dp1 x = val x (F.par (some 0) x) := by
    intro x hx
    rw [hset, if_neg (fun e : x = 0 => hnd.1 (e ▸ hx)), a3 x hx]
  have hroots : ((nb o.e 0).map Prod.fst).filter (fun x => decide (some x ≠ none)) = F.roots := by
    rw [hF.roots, adj_cg h0]
    exact List.filter_eq_self.2 (by simp)
  rw [dfs2, hc.view 0 h0, ok_bind]
  refine Tot.bind (sumR_tot (val := val) (u := 0) hw (a := nb o.e 0) fun q' hq' => ?_) ?_
  · refine edgeTerm_ok hw (nb_lt hg h0 hq') hsz1 (fun h => by simp at h) fun h => ?_
    have hr : q'.1 ∈ F.roots := by
      rw [hF.roots, adj_cg h0]
      exact List.mem_map.2 ⟨q', hq', rfl⟩
    rw [hch q'.1 (Forest.roots_sub hr), par_root hnd.2 hr]
  · rintro R ⟨R1, R2⟩
    have := kids2 (root := root) hg hc hw hval F 0 none o.w.size [] (nb o.e 0) 1 R dp1 (by simp) hroots hF.fits ?_ hF.nodup h0 hsz1 R1 R2 (fun y hy => by simp at hy) hch
    · refine Tot.bind this ?_
      rintro s ⟨s1, s2, s3⟩
      refine Tot.pure ⟨s1, fun x hx => ?_⟩
      rcases (hF.lt_iff x).1 (by rw [cg_size]; exact hx) with rfl | hx
      · rw [s3 0 hnd.1, hset, if_pos rfl]
      · exact s2 x hx
    · have := F.height_le
      have h2 := hF.perm.length_eq
      rw [List.length_cons, List.length_range, cg_size] at h2
      unfold Forest.size at this
      omega

end

section
variable [CommGroup T] {sub : T → V → W → T} {root : T → V → T} {wv : Array V} {w : Nat → V} {es : List (Nat × Nat × W)} {n : Nat} {val : Nat → Option Nat → T} {c : CSR W}

theorem kids3 (hg : IsTree (graph n es)) (hc : IsCSR n es c) (hw : ∀ v < n, wv[v]? = some (w v)) (hval : Vals n sub w es val) (F : Forest) :
    ∀ (u : Nat) (p : Option Nat) (fuel : Nat) (l : List (Nat × W)) (dp : Array T), (∀ q ∈ l, q ∈ nb es u) → ((l.map Prod.fst).filter fun v => decide (some v ≠ p)) = F.roots → F.Fits (cg n es) (some u) →
      F.height ≤ fuel → (u :: F.pre).Nodup → u < n → dp.size = n → at' 1 dp u = val u none → (∀ x ∈ F.pre, at' 1 dp x = val x (F.par (some u) x)) →
      Tot (forEach l dp (kidInv sub wv (dfsInv sub root wv c fuel) u p)) fun dp' => dp'.size = n ∧ (∀ x ∈ F.pre, at' 1 dp' x = root (val x none) (w x)) ∧
        ∀ x, x ∉ F.pre → at' 1 dp' x = at' 1 dp x := by
  induction F with
  | nil =>
    intro u p fuel l dp hlu hl hf hh hn hu hs hdu h1
    induction l with
    | nil => exact Tot.pure ⟨hs, by simp [Forest.pre], fun _ _ => rfl⟩
    | cons q l ih =>
      have hq : some q.1 = p := by
        by_contra hq
        rw [List.map_cons, List.filter_cons_of_pos (by simpa using hq)] at hl
        simp [Forest.roots] at hl
      rw [forEach, kidInv, if_neg (by simpa using hq), pure_eq, ok_bind]
      rw [List.map_cons, List.filter_cons_of_neg (by simpa using hq)] at hl
      exact ih (fun q hq => hlu q (by simp [hq])) hl
  | cons v ch rest ih1 ih2 =>
    intro u p fuel l dp hlu hl hf hh hn hu hs hdu h1
    induction l with
    | nil => simp [Forest.roots] at hl
    | cons q l ih =>
      by_cases hq : some q.1 = p
      · rw [forEach, kidInv, if_neg (by simpa using hq), pure_eq, ok_bind]
        rw [List.map_cons, List.filter_cons_of_neg (by simpa using hq)] at hl
        exact ih (fun q hq => hlu q (by simp [hq])) hl
      · clear ih
        rw [List.map_cons, List.filter_cons_of_pos (by simpa using hq), Forest.roots, List.cons.injEq] at hl
        obtain ⟨hqv, hl⟩ := hl
        obtain ⟨hv, f1, f2, f3⟩ := hf
        rw [cg_size] at hv
        have hn' := hn
        rw [Forest.pre, List.nodup_cons, List.nodup_cons, List.mem_cons, List.mem_append, List.mem_append, List.nodup_append] at hn'
        obtain ⟨m1, m2, m3, m4, m5⟩ := hn'
        have huv : u ≠ v := fun e => m1 (Or.inl e)
        have n1 : (v :: ch.pre).Nodup := List.nodup_cons.2 ⟨fun h => m2 (Or.inl h), m3⟩
        have n2 : (u :: rest.pre).Nodup := List.nodup_cons.2 ⟨fun h => m1 (Or.inr (Or.inr h)), m4⟩
        simp only [Forest.height] at hh
        simp only [Forest.pre, List.mem_cons, List.mem_append, Forest.par] at h1
        obtain ⟨fuel, rfl⟩ : ∃ f, fuel = f + 1 := ⟨fuel - 1, by omega⟩
        have hqu := hlu q (by simp)
        have hvu : (u, q.2) ∈ nb es v := by
          rw [← hqv]
          unfold nb at hqu ⊢
          rw [List.mem_reverse] at hqu ⊢
          exact nbrs_symm (es := es) (v := q.1) hqu
        have hdv : at' 1 dp v = val v (some u) := by rw [h1 v (Or.inl rfl), if_pos rfl]
        rw [forEach, kidInv, if_pos (by simpa using hq), hqv, rd_at 1 (by omega), ok_bind, rd_at 1 (by omega), ok_bind, term_ok hw hv, ok_bind, term_ok hw hu, ok_bind, wr_eq (by omega), ok_bind, hdu, hdv]
        have e1 : val u none * (sub (val v (some u)) (w v) q.2)⁻¹ = val u (some v) := by
          rw [hval.add hg hu hqu, T1, hqv, mul_inv_cancel_right]
        have e2 : val v (some u) * sub (val u (some v)) (w u) q.2 = val v none := by rw [hval.add hg hv hvu, T1]
        rw [e1, e2]
        obtain ⟨dp1, hdp1⟩ : ∃ dp1, dp1 = dp.setIfInBounds v (val v none) := ⟨_, rfl⟩
        have hset : ∀ y, at' 1 dp1 y = if y = v then val v none else at' 1 dp y := fun y => by rw [hdp1]; exact at_set' 1 (by omega) _ y
        have hsz1 : dp1.size = n := by rw [hdp1]; simpa using hs
        rw [← hdp1]
        refine Tot.bind (P := fun dp2 : Array T => dp2.size = n ∧ (∀ x, x = v ∨ x ∈ ch.pre → at' 1 dp2 x = root (val x none) (w x)) ∧ ∀ x, x ≠ v → x ∉ ch.pre → at' 1 dp2 x = at' 1 dp x) ?_ ?_
        · rw [dfsInv, hc.view v hv, ok_bind]
          refine Tot.bind (ih1 v (some u) fuel (nb es v) dp1 (fun _ h => h) (by rw [← adj_cg hv, f1]) f2 (by omega) n1 hv hsz1 (by rw [hset, if_pos rfl]) (fun x hx => ?_)) ?_
          · have hxv : x ≠ v := fun e => m2 (Or.inl (e ▸ hx))
            rw [hset, if_neg hxv, h1 x (Or.inr (Or.inl hx)), if_neg hxv, if_pos hx]
          · rintro dp2 ⟨a1, a2, a3⟩
            have hvc : v ∉ ch.pre := fun h => m2 (Or.inl h)
            rw [rd_at 1 (by omega), ok_bind, setRoot, rd_some (hw v hv), ok_bind, wr_eq (by omega), tot_ok, a3 v hvc, hset, if_pos rfl]
            refine ⟨by simpa using a1, fun x hx => ?_, fun x hx1 hx2 => ?_⟩
            · rw [at_set' 1 (by omega)]
              by_cases hxv : x = v
              · rw [if_pos hxv, hxv]
              · rw [if_neg hxv, a2 x (hx.resolve_left hxv)]
            · rw [at_set' 1 (by omega), if_neg hx1, a3 x hx2, hset, if_neg hx1]
        · rintro dp2 ⟨a1, a2, a3⟩
          refine Tot.mono (ih2 u p (fuel + 1) l dp2 (fun q hq => hlu q (by simp [hq])) hl f3 (by omega) n2 hu a1 (by rw [a3 u huv (fun h => m1 (Or.inr (Or.inl h))), hdu]) (fun x hx => ?_)) ?_
          · have hxv : x ≠ v := fun e => m2 (Or.inr (e ▸ hx))
            have hxc : x ∉ ch.pre := fun h => m5 x h x hx rfl
            rw [a3 x hxv hxc, h1 x (Or.inr (Or.inr hx)), if_neg hxv, if_neg hxc]
          · rintro dp3 ⟨b1, b2, b3⟩
            refine ⟨b1, fun x hx => ?_, fun x hx => ?_⟩
            · simp only [Forest.pre, List.mem_cons, List.mem_append] at hx
              rcases hx with rfl | hx | hx
              · rw [b3 x (fun h => m2 (Or.inr h)), a2 x (Or.inl rfl)]
              · rw [b3 x (fun h => m5 x hx x h rfl), a2 x (Or.inr hx)]
              · exact b2 x hx
            · simp only [Forest.pre, List.mem_cons, List.mem_append, not_or] at hx
              rw [b3 x hx.2.2, a3 x hx.1 hx.2.1]

theorem runDpInv_tot [Inhabited W] {o : Obj V W} (he : ∀ q ∈ o.e, q.1 < o.w.size ∧ q.2.1 < o.w.size) (hg : IsTree (graph o.w.size o.e)) (hw : ∀ v < o.w.size, o.w[v]? = some (w v))
    (hval : Vals o.w.size sub w o.e val) : Tot (runDpInv sub root o) fun dp => dp.size = o.w.size ∧ ∀ x < o.w.size, at' 1 dp x = root (val x none) (w x) := by
  have h0 : 0 < o.w.size := by simpa [graph] using hg.pos
  obtain ⟨F, hF⟩ := exists_rooted (cg_tree hg) (r := 0) (by rw [cg_size]; exact h0)
  have hnd := List.nodup_cons.1 hF.nodup
  unfold runDpInv
  refine Tot.bind (csr_tot he) fun c hc => ?_
  refine Tot.bind (first_tot hg hc hw hval hF) ?_
  rintro dp ⟨a1, a2, a3⟩
  rw [dfsInv, hc.view 0 h0, ok_bind]
  refine Tot.bind (kids3 hg hc hw hval F 0 none o.w.size (nb o.e 0) dp (fun _ h => h) ?_ hF.fits ?_ hF.nodup h0 a1 a2 a3) ?_
  · rw [hF.roots, adj_cg h0]
    exact List.filter_eq_self.2 (by simp)
  · have := F.height_le
    have h2 := hF.perm.length_eq
    rw [List.length_cons, List.length_range, cg_size] at h2
    unfold Forest.size at this
    omega
  · rintro dp2 ⟨b1, b2, b3⟩
    rw [rd_at 1 (by omega), ok_bind, setRoot, rd_some (hw 0 h0), ok_bind, wr_eq (by omega), tot_ok, b3 0 hnd.1, a2]
    refine ⟨by simpa using b1, fun x hx => ?_⟩
    rw [at_set' 1 (by omega)]
    rcases (hF.lt_iff x).1 (by rw [cg_size]; exact hx) with rfl | hx
    · rw [if_pos rfl]
    · rw [if_neg (fun e : x = 0 => hnd.1 (e ▸ hx)), b2 x hx]

end

theorem build_ok {w : Array V} {es : List (Nat × Nat × W)} (he : ∀ q ∈ es, q.1 < w.size ∧ q.2.1 < w.size) : build w es = .ok ⟨w, es⟩ := by
  rw [← tot_eq]
  refine Tot.mono (Tot.forEach (P := fun pre (o : Obj V W) => o = ⟨w, pre⟩) rfl ?_) fun o h => h
  intro pre q post o hp ho
  subst ho
  have hq := he q (by rw [hp]; simp)
  unfold addEdge
  dsimp only
  rw [decide_eq_true (show (0 : Int) ≤ q.1 ∧ (q.1 : Int) < w.size by omega), check_true, ok_bind, decide_eq_true (show (0 : Int) ≤ q.2.1 ∧ (q.2.1 : Int) < w.size by omega), check_true, ok_bind]
  exact Tot.pure (by simp)

end Rerooting
