import Verif.Model.IterDFS
import Verif.Proof.Under

/-! # The iterative depth first search processes the vertices in postorder -/

namespace IterDFS
open Cxx Graph Tree

variable {σ : Type}

/-- `k` iterations lead from `s` to `t`. -/
inductive Run {τ : Type} (f : τ → M (Option τ)) : Nat → τ → τ → Prop
  | zero (s : τ) : Run f 0 s s
  | succ {k : Nat} {s t u : τ} : f s = .ok (some t) → Run f k t u → Run f (k + 1) s u

theorem Run.trans {τ : Type} {f : τ → M (Option τ)} {k l : Nat} {s t u : τ} (h1 : Run f k s t) (h2 : Run f l t u) : Run f (k + l) s u := by
  induction h1 with
  | zero => rw [Nat.zero_add]; exact h2
  | succ h _ ih => rw [Nat.add_right_comm]; exact .succ h (ih h2)

theorem Run.one {τ : Type} {f : τ → M (Option τ)} {s t : τ} (h : f s = .ok (some t)) : Run f 1 s t := .succ h (.zero t)

theorem Run.loop {τ : Type} {f : τ → M (Option τ)} {k fuel : Nat} {s t : τ} (h : Run f k s t) (hk : k ≤ fuel) : Cxx.loop f fuel s = Cxx.loop f (fuel - k) t := by
  induction h generalizing fuel with
  | zero => rfl
  | @succ k s t u hs _ ih =>
    obtain ⟨m, rfl⟩ : ∃ m, fuel = m + 1 := ⟨fuel - 1, by omega⟩
    rw [Cxx.loop, hs, ok_bind]
    show Cxx.loop f m t = _
    rw [ih (by omega)]
    congr 1
    omega

/-- Vertices with their parents, children first. -/
def post (p : Option Nat) : Forest → List (Nat × Option Nat)
  | .nil => []
  | .cons v ch rest => post (some v) ch ++ (v, p) :: post p rest

/-- Number of steps spent on the vertices. -/
def cost (g : Array (List Nat)) (l : List Nat) : Nat := (l.map fun x => (adj g x).length + 1).sum

theorem cost_cons (g : Array (List Nat)) (x : Nat) (l : List Nat) : cost g (x :: l) = (adj g x).length + 1 + cost g l := by simp [cost]

theorem cost_append (g : Array (List Nat)) (l m : List Nat) : cost g (l ++ m) = cost g l + cost g m := by simp [cost]

theorem forEach_append_ok {τ α : Type} {f : τ → α → M τ} (l m : List α) {s u : τ} (h : forEach (l ++ m) s f = .ok u) : ∃ t, forEach l s f = .ok t ∧ forEach m t f = .ok u := by
  induction l generalizing s with
  | nil => exact ⟨s, rfl, h⟩
  | cons x l ih =>
    rw [List.cons_append, forEach] at h
    cases hx : f s x with
    | error e => rw [hx] at h; cases h
    | ok t =>
      rw [hx, ok_bind] at h
      obtain ⟨t', h1, h2⟩ := ih h
      exact ⟨t', by rw [forEach, hx, ok_bind]; exact h1, h2⟩

theorem forEach_cons_ok {τ α : Type} {f : τ → α → M τ} {x : α} {m : List α} {s u : τ} (h : forEach (x :: m) s f = .ok u) : ∃ t, f s x = .ok t ∧ forEach m t f = .ok u := by
  rw [forEach] at h
  cases hx : f s x with
  | error e => rw [hx] at h; cases h
  | ok t => rw [hx, ok_bind] at h; exact ⟨t, rfl, h⟩

/-- The state after walking over `F` below `u`. -/
structure Post (g : Array (List Nat)) (u : Nat) (F : Forest) (s t : DS σ) (r : σ) : Prop where
  cur : t.cur = some u
  esize : t.eid.size = s.eid.size
  psize : t.par.size = s.par.size
  eid : at' 0 t.eid u = (adj g u).length
  keepE : ∀ x, x ≠ u → x ∉ F.pre → at' 0 t.eid x = at' 0 s.eid x
  keepP : ∀ x, x ∉ F.pre → at' none t.par x = at' none s.par x
  st : t.st = r

theorem rd_list {α : Type} {a : List α} {e : Nat} {x : α} (h : a[e]? = some x) : rd a.toArray e = .ok x := rd_some (by simpa using h)

theorem skip_run {g : Array (List Nat)} {fin : Nat → Option Nat → σ → M σ} {u : Nat} {p : Option Nat} (hu : u < g.size) (c : List Nat) : ∀ (a b : List Nat) (s : DS σ), adj g u = a ++ c ++ b → (∀ x ∈ c, some x = p) →
    s.cur = some u → at' 0 s.eid u = a.length → s.eid.size = g.size → s.par.size = g.size → at' none s.par u = p →
    Run (step g fin) c.length s { s with eid := if c = [] then s.eid else s.eid.setIfInBounds u (a ++ c).length } := by
  induction c with
  | nil => intro a b s _ _ _ _ _ _ _; exact .zero s
  | cons x c ih =>
    intro a b s h1 h2 h3 h4 h5 h6 h7
    have hx : (adj g u)[a.length]? = some x := by rw [h1]; simp
    have hlen : (adj g u).length = a.length + (c.length + 1) + b.length := by rw [h1]; simp; omega
    have hst : step g fin s = .ok (some { s with eid := s.eid.setIfInBounds u (a.length + 1) }) := by
      rw [step, h3]
      simp only
      rw [body, rd_at 0 (by omega), ok_bind, rd_some (adj_eq hu), ok_bind, h4, if_neg (by omega), descend, wr_eq (by omega), ok_bind, rd_list hx, ok_bind, rd_at none (by omega), ok_bind, h7, go, if_pos (h2 x (by simp))]
      simp only [pure_eq, ok_bind, h3]
    have := ih (a ++ [x]) b { s with eid := s.eid.setIfInBounds u (a.length + 1) } (by rw [h1]; simp) (fun y hy => h2 y (by simp [hy])) h3 (by
      dsimp only; rw [at_set' 0 (by omega), if_pos rfl]; simp) (by simpa using h5) h6 h7
    refine .succ hst ?_
    convert this using 2
    rw [if_neg (by simp)]
    split
    · rename_i hc; subst hc; simp
    · simp [Array.setIfInBounds_setIfInBounds]

theorem kids_run {g : Array (List Nat)} {fin : Nat → Option Nat → σ → M σ} (F : Forest) : ∀ (u : Nat) (p : Option Nat) (a l : List Nat) (s : DS σ) (r : σ), adj g u = a ++ l →
    (l.filter fun w => decide (some w ≠ p)) = F.roots → F.Fits g (some u) → (u :: F.pre).Nodup → u < g.size → s.cur = some u → at' 0 s.eid u = a.length → s.eid.size = g.size → s.par.size = g.size →
    at' none s.par u = p → (∀ x ∈ F.pre, at' 0 s.eid x = 0) → forEach (post (some u) F) s.st (fun t x => fin x.1 x.2 t) = .ok r →
    ∃ t, Run (step g fin) (l.length + cost g F.pre) s t ∧ Post g u F s t r := by
  induction F with
  | nil =>
    intro u p a l s r ha hl hf hn hu c1 c2 c3 c4 c5 c6 hr
    have := skip_run (fin := fin) (p := p) hu l a [] s (by simpa using ha) (by
      intro x hx
      rw [Forest.roots, List.filter_eq_nil_iff] at hl
      simpa using hl x hx) c1 c2 c3 c4 c5
    refine ⟨_, this, ?_⟩
    cases hr
    refine ⟨c1, ?_, rfl, ?_, fun x hx _ => ?_, fun _ _ => rfl, rfl⟩
    · dsimp only; split <;> simp
    · dsimp only
      split
      · rename_i hl'; subst hl'; rw [c2, ha]; simp
      · rw [at_set' 0 (by omega), if_pos rfl, ha]
    · dsimp only
      split
      · rfl
      · rw [at_set' 0 (by omega), if_neg hx]
  | cons v ch rest ih1 ih2 =>
    intro u p a l s r ha hl hf hn hu c1 c2 c3 c4 c5 c6 hr
    obtain ⟨hv, f1, f2, f3⟩ := hf
    have hn' := hn
    rw [Forest.pre, List.nodup_cons, List.nodup_cons, List.mem_cons, List.mem_append, List.mem_append, List.nodup_append] at hn'
    obtain ⟨m1, m2, m3, m4, m5⟩ := hn'
    have huv : u ≠ v := fun e => m1 (Or.inl e)
    have n1 : (v :: ch.pre).Nodup := List.nodup_cons.2 ⟨fun h => m2 (Or.inl h), m3⟩
    have n2 : (u :: rest.pre).Nodup := List.nodup_cons.2 ⟨fun h => m1 (Or.inr (Or.inr h)), m4⟩
    obtain ⟨c, b, rfl, hc1, hc2, hb⟩ := kids_cons hl
    obtain ⟨r1, hr1, hr2⟩ := forEach_append_ok _ _ hr
    obtain ⟨r2, hr2, hr3⟩ := forEach_cons_ok hr2
    dsimp only at hr2
    -- skip the parent
    have hskip := skip_run (fin := fin) (p := p) hu c a (v :: b) s (by simpa using ha) (fun x hx => by simpa using hc1 x hx) c1 c2 c3 c4 c5
    obtain ⟨s1, hs1⟩ : ∃ s1, s1 = ({ s with eid := if c = [] then s.eid else s.eid.setIfInBounds u (a ++ c).length } : DS σ) := ⟨_, rfl⟩
    rw [← hs1] at hskip
    have e1 : at' 0 s1.eid u = (a ++ c).length := by
      rw [hs1]; dsimp only
      split
      · rename_i h; subst h; simpa using c2
      · rw [at_set' 0 (by omega), if_pos rfl]
    have e2 : ∀ x, x ≠ u → at' 0 s1.eid x = at' 0 s.eid x := fun x hx => by
      rw [hs1]; dsimp only
      split
      · rfl
      · rw [at_set' 0 (by omega), if_neg hx]
    have e3 : s1.eid.size = g.size := by rw [hs1]; dsimp only; split <;> simp [c3]
    have e4 : s1.par = s.par := by rw [hs1]
    have e5 : s1.st = s.st := by rw [hs1]
    have e6 : s1.cur = some u := by rw [hs1]; exact c1
    -- descend
    have hxv : (adj g u)[(a ++ c).length]? = some v := by rw [ha, ← List.append_assoc]; simp
    have hlen : (adj g u).length = a.length + (c.length + (b.length + 1)) := by rw [ha]; simp
    have hvp : some v ≠ p := by simpa using hc2
    have hst : step g fin s1 = .ok (some ⟨some v, s1.eid.setIfInBounds u ((a ++ c).length + 1), s1.par.setIfInBounds v (some u), s1.st⟩) := by
      rw [step, e6]
      simp only
      rw [body, rd_at 0 (by omega), ok_bind, rd_some (adj_eq hu), ok_bind, e1, if_neg (by simp; omega), descend, wr_eq (by omega), ok_bind, rd_list hxv, ok_bind, rd_at none (by rw [e4]; omega), ok_bind, e4, c5, go,
        if_neg hvp, wr_eq (by dsimp only; omega)]
      simp only [pure_eq, ok_bind, e4]
    obtain ⟨s2, hs2⟩ : ∃ s2, s2 = (⟨some v, s1.eid.setIfInBounds u ((a ++ c).length + 1), s1.par.setIfInBounds v (some u), s1.st⟩ : DS σ) := ⟨_, rfl⟩
    rw [← hs2] at hst
    have k1 : at' 0 s2.eid u = (a ++ c).length + 1 := by rw [hs2]; dsimp only; rw [at_set' 0 (by omega), if_pos rfl]
    have k2 : ∀ x, x ≠ u → at' 0 s2.eid x = at' 0 s.eid x := fun x hx => by rw [hs2]; dsimp only; rw [at_set' 0 (by omega), if_neg hx, e2 x hx]
    have k3 : s2.eid.size = g.size := by rw [hs2]; simpa using e3
    have k4 : s2.par.size = g.size := by rw [hs2]; simp [e4, c4]
    have k5 : at' none s2.par v = some u := by rw [hs2]; dsimp only; rw [at_set' none (by rw [e4]; omega), if_pos rfl]
    have k6 : ∀ x, x ≠ v → at' none s2.par x = at' none s.par x := fun x hx => by rw [hs2]; dsimp only; rw [at_set' none (by rw [e4]; omega), if_neg hx, e4]
    have k7 : s2.st = s.st := by rw [hs2]; exact e5
    have k8 : s2.cur = some v := by rw [hs2]
    have hmemv : v ∈ (Forest.cons v ch rest).pre := by simp [Forest.pre]
    obtain ⟨s3, hrun3, p3⟩ := ih1 v (some u) [] (adj g v) s2 r1 (by simp) f1.symm f2 n1 hv k8 (by rw [k2 v (Ne.symm huv), c6 v hmemv]; rfl) k3 k4 k5 (by
      intro x hx
      rw [k2 x (by rintro rfl; exact m1 (Or.inr (Or.inl hx))), c6 x (by simp [Forest.pre, hx])]) (by rw [k7]; exact hr1)
    have q1 := p3.esize
    have q2 := p3.psize
    have q3 : at' none s3.par v = some u := by rw [p3.keepP v (fun h => m2 (Or.inl h)), k5]
    have hst3 : step g fin s3 = .ok (some { s3 with cur := some u, st := r2 }) := by
      rw [step, p3.cur]
      simp only
      rw [body, rd_at 0 (by omega), ok_bind, rd_some (adj_eq hv), ok_bind, p3.eid, if_pos rfl, finish, rd_at none (by omega), ok_bind, q3, p3.st, hr2]
      rfl
    obtain ⟨s4, hs4⟩ : ∃ s4, s4 = ({ s3 with cur := some u, st := r2 } : DS σ) := ⟨_, rfl⟩
    rw [← hs4] at hst3
    have hu3 : u ∉ ch.pre := fun h => m1 (Or.inr (Or.inl h))
    obtain ⟨t, hrun4, p4⟩ := ih2 u p (a ++ c ++ [v]) b s4 r (by rw [ha]; simp) hb f3 n2 hu (by rw [hs4]) (by
        rw [hs4]; dsimp only; rw [p3.keepE u huv hu3, k1]; simp; omega) (by rw [hs4]; dsimp only; omega) (by rw [hs4]; dsimp only; omega)
      (by rw [hs4]; dsimp only; rw [p3.keepP u hu3, k6 u huv, c5]) (by
        intro x hx
        rw [hs4]; dsimp only
        rw [p3.keepE x (by rintro rfl; exact m2 (Or.inr hx)) (fun h => m5 x h x hx rfl), k2 x (by rintro rfl; exact m1 (Or.inr (Or.inr hx))), c6 x (by simp [Forest.pre, hx])]) (by rw [hs4]; exact hr3)
    have o1 := p4.esize
    have o2 := p4.psize
    rw [hs4] at o1 o2
    dsimp only at o1 o2
    refine ⟨t, ?_, p4.cur, by omega, by omega, p4.eid, fun x hx hm => ?_, fun x hm => ?_, p4.st⟩
    · have := ((hskip.trans (Run.one hst)).trans hrun3).trans ((Run.one hst3).trans hrun4)
      convert this using 1
      rw [Forest.pre, cost_cons, cost_append]
      simp only [List.length_append, List.length_cons]
      omega
    · simp only [Forest.pre, List.mem_cons, List.mem_append, not_or] at hm
      rw [p4.keepE x hx hm.2.2, hs4]; dsimp only
      rw [p3.keepE x hm.1 hm.2.1, k2 x hx]
    · simp only [Forest.pre, List.mem_cons, List.mem_append, not_or] at hm
      rw [p4.keepP x hm.2.2, hs4]; dsimp only
      rw [p3.keepP x hm.2.1, k6 x hm.1]

/-- The walk performs `fin` in postorder. -/
theorem walk_tot {g : Array (List Nat)} {fin : Nat → Option Nat → σ → M σ} {root : Nat} {F : Forest} (h : Rooted g root F) {s : σ} {Q : σ → Prop}
    (hp : Tot (forEach (post none (Forest.tree root F)) s (fun t x => fin x.1 x.2 t)) Q) : Tot (walk g fin root s) Q := by
  obtain ⟨r, hr, hQ⟩ := hp
  have hroot := h.lt
  rw [Forest.tree, post, post] at hr
  obtain ⟨r1, hr1, hr2⟩ := forEach_append_ok _ _ hr
  obtain ⟨r2, hr4, hr3⟩ := forEach_cons_ok hr2
  dsimp only at hr4
  have hr3 : r2 = r := by injection hr3
  subst hr3
  have z0 : ∀ x, at' 0 (Array.replicate g.size 0) x = 0 := fun x => by by_cases hx : x < g.size <;> simp [at', hx]
  have z1 : ∀ x, at' none (Array.replicate g.size (none : Option Nat)) x = none := fun x => by by_cases hx : x < g.size <;> simp [at', hx]
  obtain ⟨t, hrun, p⟩ := kids_run F root none [] (adj g root) (⟨some root, Array.replicate g.size 0, Array.replicate g.size none, s⟩ : DS σ) r1 (by simp) (by rw [h.roots]; simp) h.fits h.nodup hroot rfl (z0 _)
    (by simp) (by simp) (z1 _) (fun x _ => z0 x) hr1
  have q1 := p.esize
  have q2 := p.psize
  simp at q1 q2
  have hn : root ∉ F.pre := (List.nodup_cons.1 h.nodup).1
  have hst : step g fin t = .ok (some { t with cur := none, st := r2 }) := by
    rw [step, p.cur]
    simp only
    rw [body, rd_at 0 (by omega), ok_bind, rd_some (adj_eq hroot), ok_bind, p.eid, if_pos rfl, finish, rd_at none (by omega), ok_bind, p.keepP root hn, z1, p.st, hr4]
    rfl
  have hcost : ((List.range g.size).map fun x => (g[x]?.getD []).length + 1).sum = (adj g root).length + cost g F.pre + 1 := by
    have e1 : ((List.range g.size).map fun x => (g[x]?.getD []).length + 1).sum = cost g (List.range g.size) := rfl
    rw [e1]
    have e2 : cost g (root :: F.pre) = cost g (List.range g.size) := (h.perm.map fun x => (adj g x).length + 1).sum_eq
    rw [← e2, cost_cons]
    omega
  refine ⟨r2, ?_, hQ⟩
  rw [walk, (hrun.trans (Run.one hst)).loop (by omega), hcost, Nat.sub_self, Cxx.loop]
  rfl

theorem post_perm (F : Forest) : ∀ p, ((post p F).map Prod.fst).Perm F.pre := by
  induction F with
  | nil => intro p; exact List.Perm.refl _
  | cons v ch rest ih1 ih2 =>
    intro p
    simp only [post, Forest.pre, List.map_append, List.map_cons]
    exact List.perm_middle.trans ((List.Perm.append (ih1 _) (ih2 _)).cons v)

end IterDFS
