import Verif.Proof.FunctionalGraph
import Mathlib.Data.Finset.Card
import Mathlib.Order.Interval.Finset.Nat

/-! # Functional graphs: infinite paths and iterates -/

namespace FunctionalGraph
open Cxx

theorem rho_tail {f : Nat → Nat} {u h l : Nat} (hr : Rho f (f u) h l) (hn : ∀ k, f^[k] (f u) ≠ u) : Rho f u (h + 1) l := by
  obtain ⟨h1, h2, h3⟩ := hr
  refine ⟨h1, ?_, fun i j hij hj => ?_⟩
  · rw [show h + 1 + l = (h + l) + 1 by omega, Function.iterate_succ_apply, Function.iterate_succ_apply, h2]
  · obtain ⟨j, rfl⟩ : ∃ j', j = j' + 1 := ⟨j - 1, by omega⟩
    rw [Function.iterate_succ_apply]
    cases i with
    | zero => exact fun hc => hn j hc.symm
    | succ i =>
      rw [Function.iterate_succ_apply]
      exact h3 i j (by omega) (by omega)

theorem rho_reduce {f : Nat → Nat} {u h l : Nat} (hr : Rho f u h l) (m : Nat) : ∃ m', m' < h + l ∧ f^[m'] u = f^[m] u ∧ (h ≤ m → h ≤ m') := by
  obtain ⟨h1, h2, h3⟩ := hr
  induction m with
  | zero => exact ⟨0, by omega, rfl, fun h => h⟩
  | succ m ih =>
    obtain ⟨m', g1, g2, g3⟩ := ih
    by_cases e : m' + 1 < h + l
    · refine ⟨m' + 1, e, by rw [Function.iterate_succ_apply', g2, Function.iterate_succ_apply'], fun hh => ?_⟩
      by_cases hm : h ≤ m
      · have := g3 hm; omega
      · obtain rfl : h = m + 1 := by omega
        -- m < h, so m' = m
        have : m' = m := by
          by_contra hne
          rcases Nat.lt_or_ge m' m with hlt | hge
          · exact h3 m' m hlt (by omega) g2
          · exact h3 m m' (by omega) g1 g2.symm
        omega
    · refine ⟨h, by omega, ?_, fun _ => le_rfl⟩
      rw [Function.iterate_succ_apply', ← g2, ← h2, show h + l = m' + 1 by omega, Function.iterate_succ_apply']

theorem rho_loop {f : Nat → Nat} {u h l k : Nat} (hr : Rho f (f u) h l) (hk : f^[k] (f u) = u) : Rho f u 0 l := by
  have hh : h = 0 := by
    by_contra hne
    -- f u = f^[k+1] (f u), go round often enough
    have hper : ∀ t, f^[t * (k + 1)] (f u) = f u := by
      intro t
      induction t with
      | zero => rw [zero_mul]; rfl
      | succ t ih =>
        rw [Nat.succ_mul, Function.iterate_add_apply, Function.iterate_succ_apply', hk, ih]
    obtain ⟨m', g1, g2, g3⟩ := rho_reduce hr (h * (k + 1))
    rw [hper] at g2
    have := g3 (by rw [Nat.mul_succ]; omega)
    exact hr.2.2 0 m' (by omega) g1 g2.symm
  subst hh
  obtain ⟨m', g1, g2, -⟩ := rho_reduce hr k
  obtain ⟨h1, h2, h3⟩ := hr
  rw [Nat.zero_add] at g1 h2 h3
  have hl : m' + 1 = l := by
    by_contra hne
    refine h3 0 (m' + 1) (by omega) (by omega) ?_
    rw [Function.iterate_succ_apply', g2, hk]; rfl
  have hu : f^[l - 1] (f u) = u := by rw [show l - 1 = m' by omega, g2, hk]
  refine ⟨h1, ?_, fun i j hij hj => ?_⟩
  · rw [Nat.zero_add, show l = (l - 1) + 1 by omega, Function.iterate_succ_apply, hu]; rfl
  · rw [Nat.zero_add] at hj
    obtain ⟨j, rfl⟩ : ∃ j', j = j' + 1 := ⟨j - 1, by omega⟩
    rw [Function.iterate_succ_apply]
    cases i with
    | zero =>
      intro hc
      exact h3 j (l - 1) (by omega) (by omega) (by rw [hu]; exact hc.symm)
    | succ i =>
      rw [Function.iterate_succ_apply]
      exact h3 i j (by omega) (by omega)

theorem rho_unique {f : Nat → Nat} {u h l h' l' : Nat} (hr : Rho f u h l) (hr' : Rho f u h' l') : h = h' ∧ l = l' := by
  obtain ⟨h1, h2, h3⟩ := hr
  obtain ⟨g1, g2, g3⟩ := hr'
  have e : h + l = h' + l' := by
    by_contra hne
    rcases Nat.lt_or_ge (h + l) (h' + l') with hlt | hge
    · exact g3 h (h + l) (by omega) hlt h2.symm
    · exact h3 h' (h' + l') (by omega) (by omega) g2.symm
  rw [← e] at g2
  have : h = h' := by
    by_contra hne
    rcases Nat.lt_or_ge h h' with hlt | hge
    · exact h3 h h' hlt (by omega) (by rw [← h2, g2])
    · exact h3 h' h (by omega) (by omega) (by rw [← h2, g2])
  omega

theorem rho_succ {f : Nat → Nat} {u h l : Nat} (hr : Rho f u (h + 1) l) : Rho f (f u) h l := by
  obtain ⟨h1, h2, h3⟩ := hr
  refine ⟨h1, ?_, fun i j hij hj => ?_⟩
  · rw [← Function.iterate_succ_apply, ← Function.iterate_succ_apply]
    rw [show (h + l).succ = h + 1 + l by omega]; exact h2
  · rw [← Function.iterate_succ_apply, ← Function.iterate_succ_apply]
    exact h3 _ _ (by omega) (by omega)

theorem rho_zero {f : Nat → Nat} {u l : Nat} (hr : Rho f u 0 l) : Rho f (f u) 0 l := by
  obtain ⟨h1, h2, h3⟩ := hr
  rw [Nat.zero_add] at h2 h3
  refine ⟨h1, ?_, fun i j hij hj => ?_⟩
  · rw [Nat.zero_add, ← Function.iterate_succ_apply, Function.iterate_succ_apply', h2]; rfl
  · rw [Nat.zero_add] at hj
    rw [← Function.iterate_succ_apply, ← Function.iterate_succ_apply]
    by_cases e : j + 1 < l
    · exact h3 _ _ (by omega) (by omega)
    · rw [show j.succ = l by omega, h2]
      exact fun hc => h3 0 (i + 1) (by omega) (by omega) hc.symm

/-- Distinct values below `n`. -/
theorem inj_le {n d : Nat} {p : Nat → Nat} (hlt : ∀ j, j < d → p j < n) (hinj : ∀ i j, i < j → j < d → p i ≠ p j) : d ≤ n := by
  have := Finset.card_le_card_of_injOn (s := Finset.range d) (t := Finset.range n) p
    (by intro j hj; simp only [Finset.coe_range, Set.mem_Iio] at hj ⊢; exact hlt j hj)
    (by
      intro i hi j hj hij
      simp only [Finset.coe_range, Set.mem_Iio] at hi hj
      by_contra hne
      rcases Nat.lt_or_ge i j with h | h
      · exact hinj i j h hj hij
      · exact hinj j i (by omega) hi hij.symm)
  simpa using this

theorem rho_le {nxt : Array Nat} (hc : Closed nxt) {u h l : Nat} (hu : u < nxt.size) (hr : Rho (fn nxt) u h l) : h + l ≤ nxt.size :=
  inj_le (p := fun i => (fn nxt)^[i] u) (fun j _ => iter_lt hc hu j) (fun i j hij hj => hr.2.2 i j hij hj)

/-- The result is right for `w`. -/
def Good (f : Nat → Nat) (w : Nat) (r : Path) : Prop := r.headV = w ∧ Rho f w r.headLen r.loopLen ∧ r.loopV = f^[r.headLen] w

/-- What holds between the calls of the search. -/
structure Base (nxt : Array Nat) (time : Nat) (s : IP) : Prop where
  rs : s.res.size = nxt.size
  vs : s.vis.size = nxt.size
  ds : s.dep.size = nxt.size
  old : ∀ (w x : Nat), s.vis[w]? = some x → x < time → (∃ y, s.vis[fn nxt w]? = some y ∧ y < time) ∧ ∃ r, s.res[w]? = some r ∧ Good (fn nxt) w r
  cases : ∀ (w x : Nat), s.vis[w]? = some x → x < time ∨ x = time ∨ x = nxt.size

/-- The search is at `f^[d] r` and has come from `r`. -/
structure Pre (nxt : Array Nat) (time : Nat) (s : IP) (r d b : Nat) : Prop extends Base nxt time s where
  tlt : time < nxt.size
  rlt : r < nxt.size
  path : ∀ j, j < d → s.vis[(fn nxt)^[j] r]? = some time ∧ s.dep[(fn nxt)^[j] r]? = some (b + j)
  here : s.vis[(fn nxt)^[d] r]? = some nxt.size ∧ s.dep[(fn nxt)^[d] r]? = some (b + d)
  only : ∀ (w : Nat), s.vis[w]? = some time → ∃ j, j < d ∧ w = (fn nxt)^[j] r

/-- What the search guarantees. -/
structure Post (nxt : Array Nat) (time : Nat) (s : IP) (r d : Nat) (s' : IP) (c : Nat) : Prop where
  rs : s'.res.size = nxt.size
  vs : s'.vis.size = nxt.size
  ds : s'.dep.size = nxt.size
  vis : ∀ (w : Nat), s'.vis[w]? = s.vis[w]? ∨ (s.vis[w]? = some nxt.size ∧ s'.vis[w]? = some time ∧ (∃ y, s'.vis[fn nxt w]? = some y ∧ y ≤ time) ∧ ∃ q, s'.res[w]? = some q ∧ Good (fn nxt) w q)
  here : s'.vis[(fn nxt)^[d] r]? = some time
  res : ∀ (w : Nat), s.vis[w]? ≠ some nxt.size → s'.res[w]? = s.res[w]?
  lowC : ∀ j k, j < d → (fn nxt)^[k] ((fn nxt)^[d] r) = (fn nxt)^[j] r → d ≤ j + c
  hitC : 0 < c → c ≤ d ∧ ∃ k, (fn nxt)^[k] ((fn nxt)^[d] r) = (fn nxt)^[d - c] r

theorem ipDfs_tot {nxt : Array Nat} (hc : Closed nxt) {time : Nat} : ∀ (fuel : Nat) (s : IP) (r d b : Nat), Pre nxt time s r d b → nxt.size + 1 ≤ fuel + d →
    Tot (ipDfs nxt time fuel s ((fn nxt)^[d] r)) fun q => Post nxt time s r d q.1 q.2 := by
  intro fuel
  induction fuel with
  | zero =>
    intro s r d b h hf
    exfalso
    have : d ≤ nxt.size := by
      refine inj_le (p := fun j => (fn nxt)^[j] r) (fun j _ => iter_lt hc h.rlt j) (fun i j hij hj he => ?_)
      have h1 := (h.path i (by omega)).2
      have h2 := (h.path j hj).2
      rw [he, h2] at h1
      simp at h1; omega
    omega
  | succ fuel ih =>
    intro s r d b h hf
    obtain ⟨u, hu⟩ : ∃ u, u = (fn nxt)^[d] r := ⟨_, rfl⟩
    have hun : u < nxt.size := by rw [hu]; exact iter_lt hc h.rlt d
    have hvn : fn nxt u < nxt.size := hc u hun
    rw [← hu]
    unfold ipDfs
    rw [wr_eq (by rw [h.vs]; exact hun), ok_bind]
    dsimp only
    rw [show rd nxt u = .ok (fn nxt u) from rd_at 0 hun, ok_bind]
    have hvis' : ∀ w, (s.vis.setIfInBounds u time)[w]? = if u = w then some time else s.vis[w]? := fun w => get?_set _ _ _ _ (by rw [h.vs]; exact hun)
    have hhere := h.here
    rw [← hu] at hhere
    -- distinct path
    have hdist : ∀ i j, i < j → j ≤ d → (fn nxt)^[i] r ≠ (fn nxt)^[j] r := by
      intro i j hij hj he
      have h1 := (h.path i (by omega)).2
      have h2 : s.dep[(fn nxt)^[j] r]? = some (b + j) := by
        rcases Nat.lt_or_ge j d with h' | h'
        · exact (h.path j h').2
        · obtain rfl : j = d := by omega
          exact h.here.2
      rw [he, h2] at h1
      simp at h1; omega
    obtain ⟨vv, hvv⟩ : ∃ vv, s.vis[fn nxt u]? = some vv := ⟨_, Array.getElem?_eq_getElem (by rw [h.vs]; exact hvn)⟩
    have hcase : (∃ sx, sx ≤ d ∧ fn nxt u = (fn nxt)^[sx] r ∧ (s.vis.setIfInBounds u time)[fn nxt u]? = some time) ∨
        (fn nxt u ≠ u ∧ vv < time) ∨ (fn nxt u ≠ u ∧ vv = nxt.size) := by
      by_cases e : u = fn nxt u
      · refine Or.inl ⟨d, le_rfl, by rw [← hu]; exact e.symm, ?_⟩
        rw [hvis', if_pos e]
      · rcases h.cases _ _ hvv with h1 | h1 | h1
        · exact Or.inr (Or.inl ⟨Ne.symm e, h1⟩)
        · subst h1
          obtain ⟨j, hj, hj'⟩ := h.only _ hvv
          exact Or.inl ⟨j, by omega, hj', by rw [hvis', if_neg e, hvv]⟩
        · exact Or.inr (Or.inr ⟨Ne.symm e, h1⟩)
    have hu_ne : ∀ w, s.vis[w]? ≠ some nxt.size → w ≠ u := by
      rintro w hw rfl
      exact hw hhere.1
    rcases hcase with ⟨sx, hsx, hvx, hvt⟩ | ⟨hne, hlt⟩ | ⟨hne, hnew⟩
    · -- found a cycle
      rw [rd_some hvt, ok_bind, rd_some (x := time) (by rw [hvis', if_pos rfl]), ok_bind]
      unfold ipBranch
      rw [if_pos rfl]
      unfold ipCycle
      dsimp only
      have hdv : s.dep[fn nxt u]? = some (b + sx) := by
        rw [hvx]
        rcases Nat.lt_or_ge sx d with h' | h'
        · exact (h.path sx h').2
        · obtain rfl : sx = d := by omega
          exact h.here.2
      rw [rd_some hhere.2, ok_bind, rd_some hdv, ok_bind, wr_eq (by rw [h.rs]; exact hun), ok_bind]
      have hkk : b + d - (b + sx) = d - sx := by omega
      rw [hkk]
      have hrho : Rho (fn nxt) u 0 (d - sx + 1) := by
        have hit : ∀ i, 0 < i → (fn nxt)^[i] u = (fn nxt)^[sx + (i - 1)] r := by
          intro i hi
          obtain ⟨i, rfl⟩ : ∃ i', i = i' + 1 := ⟨i - 1, by omega⟩
          rw [Function.iterate_succ_apply, hvx, ← Function.iterate_add_apply]
          congr 1; omega
        refine ⟨by omega, ?_, fun i j hij hj => ?_⟩
        · rw [Nat.zero_add, hit _ (by omega)]
          rw [show sx + (d - sx + 1 - 1) = d by omega, ← hu]; rfl
        · rw [hit j (by omega)]
          cases i with
          | zero =>
            rw [Function.iterate_zero_apply, hu]
            exact (hdist _ _ (by omega) le_rfl).symm
          | succ i =>
            rw [hit _ (by omega)]
            exact hdist _ _ (by omega) (by omega)
      refine Tot.pure ⟨by simpa using h.rs, by simpa using h.vs, h.ds, fun w => ?_, ?_, fun w hw => ?_, ?_, ?_⟩
      · dsimp only
        rw [hvis']
        by_cases e : u = w
        · subst e
          refine Or.inr ⟨hhere.1, by rw [if_pos rfl], ⟨time, hvt, le_rfl⟩, ⟨u, 0, u, d - sx + 1⟩, ?_, rfl, hrho, rfl⟩
          rw [get?_set _ _ _ _ (by rw [h.rs]; exact hun), if_pos rfl]
        · rw [if_neg e]; exact Or.inl rfl
      · dsimp only
        rw [← hu, hvis', if_pos rfl]
      · dsimp only
        rw [get?_set _ _ _ _ (by rw [h.rs]; exact hun), if_neg (hu_ne w hw).symm]
      · intro j k hj he
        dsimp only
        -- the orbit of u stays in the cycle
        have horb : ∀ k, ∃ i, sx ≤ i ∧ i ≤ d ∧ (fn nxt)^[k] u = (fn nxt)^[i] r := by
          intro k
          induction k with
          | zero => exact ⟨d, hsx, le_rfl, hu⟩
          | succ k ihk =>
            obtain ⟨i, h1, h2, h3⟩ := ihk
            rw [Function.iterate_succ_apply', h3]
            rcases Nat.lt_or_ge i d with h' | h'
            · exact ⟨i + 1, by omega, by omega, by rw [Function.iterate_succ_apply']⟩
            · obtain rfl : i = d := by omega
              exact ⟨sx, le_rfl, hsx, by rw [← hu]; exact hvx⟩
        obtain ⟨i, h1, h2, h3⟩ := horb k
        rw [← hu, h3] at he
        have : i = j := by
          by_contra hne
          rcases Nat.lt_or_ge i j with h' | h'
          · exact hdist i j h' (by omega) he
          · exact hdist j i (by omega) h2 he.symm
        omega
      · intro _
        dsimp only
        refine ⟨by omega, 1, ?_⟩
        rw [← hu, show d - (d - sx) = sx by omega]; exact hvx
    · -- an old vertex
      rw [rd_some (x := vv) (by rw [hvis', if_neg hne.symm, hvv]), ok_bind, rd_some (x := time) (by rw [hvis', if_pos rfl]), ok_bind]
      unfold ipBranch
      rw [if_neg (by omega), if_pos hlt]
      unfold ipTail
      obtain ⟨-, rv, hrv, hg⟩ := h.old _ _ hvv hlt
      dsimp only
      rw [rd_some hrv, ok_bind, wr_eq (by rw [h.rs]; exact hun), ok_bind]
      have horb : ∀ k, ∃ y, s.vis[(fn nxt)^[k] (fn nxt u)]? = some y ∧ y < time := by
        intro k
        induction k with
        | zero => exact ⟨vv, hvv, hlt⟩
        | succ k ihk =>
          obtain ⟨y, h1, h2⟩ := ihk
          rw [Function.iterate_succ_apply']
          exact (h.old _ _ h1 h2).1
      have hnot : ∀ k, (fn nxt)^[k] (fn nxt u) ≠ u := by
        intro k he
        obtain ⟨y, h1, h2⟩ := horb k
        rw [he, hhere.1] at h1
        cases h1
        have := h.tlt; omega
      refine Tot.pure ⟨by simpa using h.rs, by simpa using h.vs, h.ds, fun w => ?_, ?_, fun w hw => ?_, ?_, fun hc0 => absurd hc0 (by simp)⟩
      · dsimp only
        rw [hvis']
        by_cases e : u = w
        · subst e
          refine Or.inr ⟨hhere.1, by rw [if_pos rfl], ⟨vv, by rw [hvis', if_neg hne.symm, hvv], by omega⟩, ⟨u, rv.headLen + 1, rv.loopV, rv.loopLen⟩, ?_, rfl, rho_tail hg.2.1 hnot, ?_⟩
          · rw [get?_set _ _ _ _ (by rw [h.rs]; exact hun), if_pos rfl]
          · dsimp only
            rw [hg.2.2, Function.iterate_succ_apply]
        · rw [if_neg e]; exact Or.inl rfl
      · dsimp only
        rw [← hu, hvis', if_pos rfl]
      · dsimp only
        rw [get?_set _ _ _ _ (by rw [h.rs]; exact hun), if_neg (hu_ne w hw).symm]
      · intro j k hj he
        exfalso
        rw [← hu] at he
        cases k with
        | zero =>
          rw [Function.iterate_zero_apply, hu] at he
          exact hdist j d hj le_rfl he.symm
        | succ k =>
          obtain ⟨y, h1, h2⟩ := horb k
          rw [Function.iterate_succ_apply] at he
          rw [he, (h.path j hj).1] at h1
          cases h1; omega
    · -- a new vertex
      subst hnew
      rw [rd_some (x := nxt.size) (by rw [hvis', if_neg hne.symm, hvv]), ok_bind, rd_some (x := time) (by rw [hvis', if_pos rfl]), ok_bind]
      have htl := h.tlt
      unfold ipBranch
      rw [if_neg (by omega), if_neg (by omega)]
      unfold ipDown
      dsimp only
      rw [rd_some hhere.2, ok_bind, wr_eq (by rw [h.ds]; exact hvn), ok_bind, pure_eq, ok_bind]
      have hfu : fn nxt u = (fn nxt)^[d + 1] r := by rw [Function.iterate_succ_apply', ← hu]
      have hdep' : ∀ w, (s.dep.setIfInBounds (fn nxt u) (b + d + 1))[w]? = if fn nxt u = w then some (b + d + 1) else s.dep[w]? :=
        fun w => get?_set _ _ _ _ (by rw [h.ds]; exact hvn)
      have hpre : Pre nxt time ⟨s.res, s.vis.setIfInBounds u time, s.dep.setIfInBounds (fn nxt u) (b + d + 1)⟩ r (d + 1) b := by
        refine ⟨⟨h.rs, by simpa using h.vs, by simpa using h.ds, ?_, ?_⟩, htl, h.rlt, ?_, ?_, ?_⟩
        · intro w x hw hx
          dsimp only at hw ⊢
          rw [hvis'] at hw
          have hwu : ¬ u = w := by
            intro e; rw [if_pos e] at hw; cases hw; omega
          rw [if_neg hwu] at hw
          obtain ⟨⟨y, hy1, hy2⟩, h2⟩ := h.old w x hw hx
          refine ⟨⟨y, ?_, hy2⟩, h2⟩
          rw [hvis', if_neg, hy1]
          intro e
          rw [← e, hhere.1] at hy1
          cases hy1; omega
        · intro w x hw
          dsimp only at hw
          rw [hvis'] at hw
          by_cases e : u = w
          · rw [if_pos e] at hw; cases hw; exact Or.inr (Or.inl rfl)
          · rw [if_neg e] at hw; exact h.cases w x hw
        · intro j hj
          dsimp only
          rw [hvis', hdep']
          rcases Nat.lt_or_ge j d with hj' | hj'
          · have h1 := h.path j hj'
            have e1 : ¬ u = (fn nxt)^[j] r := by rw [hu]; exact (hdist j d hj' le_rfl).symm
            have e2 : ¬ fn nxt u = (fn nxt)^[j] r := by
              intro e
              rw [e, h1.1] at hvv
              cases hvv; omega
            rw [if_neg e1, if_neg e2]; exact h1
          · obtain rfl : j = d := by omega
            rw [if_pos hu, ← hu, if_neg hne]
            exact ⟨rfl, hhere.2⟩
        · dsimp only
          rw [← hfu, hvis', if_neg hne.symm, hdep', if_pos rfl]
          exact ⟨hvv, rfl⟩
        · intro w hw
          dsimp only at hw
          rw [hvis'] at hw
          by_cases e : u = w
          · exact ⟨d, by omega, by rw [← e, hu]⟩
          · rw [if_neg e] at hw
            obtain ⟨j, h1, h2⟩ := h.only w hw
            exact ⟨j, by omega, h2⟩
      have hrec := ih _ r (d + 1) b hpre (by omega)
      rw [← hfu] at hrec
      refine Tot.bind hrec ?_
      rintro ⟨s1, c⟩ p
      dsimp only at p
      have p_here := p.here
      rw [← hfu] at p_here
      obtain ⟨q, hq, hqg⟩ : ∃ q, s1.res[fn nxt u]? = some q ∧ Good (fn nxt) (fn nxt u) q := by
        rcases p.vis (fn nxt u) with h1 | ⟨-, -, -, h1⟩
        · rw [p_here] at h1
          dsimp only at h1
          rw [hvis', if_neg hne.symm, hvv] at h1
          cases h1; omega
        · exact h1
      have hvis_u : s1.vis[u]? = some time := by
        rcases p.vis u with h1 | ⟨-, h1, -⟩
        · rw [h1]; dsimp only; rw [hvis', if_pos rfl]
        · exact h1
      -- the part that both branches share
      have common : ∀ (rr : Path) (c' : Nat), Good (fn nxt) u rr → (∀ j k, j < d → (fn nxt)^[k] u = (fn nxt)^[j] r → d ≤ j + c') →
          (0 < c' → c' ≤ d ∧ ∃ k, (fn nxt)^[k] u = (fn nxt)^[d - c'] r) → Post nxt time s r d { s1 with res := s1.res.setIfInBounds u rr } c' := by
        intro rr c' hrr hlow hhit
        have hr1 : u < s1.res.size := by rw [p.rs]; exact hun
        refine ⟨by simpa using p.rs, p.vs, p.ds, fun w => ?_, ?_, fun w hw => ?_, ?_, ?_⟩
        · dsimp only
          by_cases e : u = w
          · subst e
            refine Or.inr ⟨hhere.1, hvis_u, ⟨time, p_here, le_rfl⟩, rr, ?_, hrr⟩
            rw [get?_set _ _ _ _ hr1, if_pos rfl]
          · rw [get?_set _ _ _ _ hr1, if_neg e]
            rcases p.vis w with h1 | ⟨h1, h2, h3, h4⟩
            · dsimp only at h1
              rw [hvis', if_neg e] at h1
              exact Or.inl h1
            · dsimp only at h1
              rw [hvis', if_neg e] at h1
              exact Or.inr ⟨h1, h2, h3, h4⟩
        · rw [← hu]; exact hvis_u
        · dsimp only
          rw [get?_set _ _ _ _ hr1, if_neg (hu_ne w hw).symm]
          refine p.res w ?_
          dsimp only
          rw [hvis', if_neg (hu_ne w hw).symm]
          exact hw
        · rw [← hu]; exact hlow
        · rw [← hu]; exact hhit
      have plow := p.lowC
      have phit := p.hitC
      rw [← hfu] at plow phit
      unfold ipBack
      dsimp only
      by_cases hc0 : 0 < c
      · rw [if_pos hc0]
        unfold ipLoop
        rw [rd_some hq, ok_bind, wr_eq (by rw [p.rs]; exact hun), ok_bind]
        obtain ⟨c1, k0, hk0⟩ := phit hc0
        -- u lies on the cycle
        have hback : (fn nxt)^[(c - 1) + k0] (fn nxt u) = u := by
          rw [Function.iterate_add_apply, hk0, ← Function.iterate_add_apply, show c - 1 + (d + 1 - c) = d by omega, ← hu]
        refine Tot.pure (common _ _ ⟨rfl, rho_loop hqg.2.1 hback, rfl⟩ ?_ ?_)
        · intro j k hj he
          cases k with
          | zero =>
            rw [Function.iterate_zero_apply, hu] at he
            exact absurd he.symm (hdist j d hj le_rfl)
          | succ k =>
            rw [Function.iterate_succ_apply] at he
            have := plow j k (by omega) he
            omega
        · intro hc1
          refine ⟨by omega, k0 + 1, ?_⟩
          rw [Function.iterate_succ_apply, hk0, show d + 1 - c = d - (c - 1) by omega]
      · rw [if_neg hc0]
        unfold ipTail
        rw [rd_some hq, ok_bind, wr_eq (by rw [p.rs]; exact hun), ok_bind]
        have hnot : ∀ k, (fn nxt)^[k] (fn nxt u) ≠ u := by
          intro k he
          have := plow d k (by omega) (by rw [he, hu])
          omega
        refine Tot.pure (common _ _ ⟨rfl, rho_tail hqg.2.1 hnot, ?_⟩ ?_ (fun h => absurd h (by simp)))
        · dsimp only
          rw [hqg.2.2, Function.iterate_succ_apply]
        · intro j k hj he
          cases k with
          | zero =>
            rw [Function.iterate_zero_apply, hu] at he
            exact absurd he.symm (hdist j d hj le_rfl)
          | succ k =>
            rw [Function.iterate_succ_apply] at he
            have := plow j k (by omega) he
            omega

theorem infinitePaths_tot {nxt : Array Nat} (hc : Closed nxt) :
    Tot (infinitePaths nxt) fun res => res.size = nxt.size ∧ ∀ u, u < nxt.size → ∃ r, res[u]? = some r ∧ Good (fn nxt) u r := by
  unfold infinitePaths
  dsimp only
  refine Tot.bind (P := fun (s : IP) => Base nxt nxt.size s ∧ ∀ (w : Nat), w < nxt.size → s.vis[w]? ≠ some nxt.size) ?_ ?_
  · refine (Tot.forUp (P := fun i (s : IP) => (Base nxt i s ∧ ∀ (w : Nat), s.vis[w]? = some i → i = nxt.size) ∧ ∀ (w : Nat), w < i → s.vis[w]? ≠ some nxt.size)
      (Nat.zero_le _) ⟨⟨⟨by simp, by simp, by simp, ?_, ?_⟩, ?_⟩, fun w hw => absurd hw (Nat.not_lt_zero _)⟩ ?_).mono ?_
    · intro w x _ hx; exact absurd hx (Nat.not_lt_zero _)
    · intro w x hw
      dsimp only at hw
      rw [Array.getElem?_replicate] at hw
      split at hw
      · cases hw; exact Or.inr (Or.inr rfl)
      · cases hw
    · intro w hw
      dsimp only at hw
      rw [Array.getElem?_replicate] at hw
      split at hw
      · simp only [Option.some.injEq] at hw; omega
      · cases hw
    · rintro i s - hi ⟨⟨hb, hno⟩, hdone⟩
      unfold ipStart
      obtain ⟨x, hx⟩ : ∃ x, s.vis[i]? = some x := ⟨_, Array.getElem?_eq_getElem (by rw [hb.vs]; exact hi)⟩
      rw [rd_some hx, ok_bind]
      by_cases e : x = nxt.size
      · subst e
        rw [if_pos rfl]
        obtain ⟨b, hbb⟩ : ∃ b, s.dep[i]? = some b := ⟨_, Array.getElem?_eq_getElem (by rw [hb.ds]; exact hi)⟩
        have hpre : Pre nxt i s i 0 b := by
          refine ⟨hb, hi, hi, fun j hj => absurd hj (Nat.not_lt_zero _), ⟨hx, hbb⟩, fun w hw => ?_⟩
          have := hno w hw; omega
        refine Tot.bind (ipDfs_tot hc (nxt.size + 1) s i 0 b hpre (by omega)) ?_
        rintro ⟨s', c⟩ p
        dsimp only at p
        refine Tot.pure ⟨⟨⟨p.rs, p.vs, p.ds, ?_, ?_⟩, ?_⟩, ?_⟩
        · intro w y hw hy
          rcases p.vis w with h1 | ⟨h1, h2, ⟨z, hz1, hz2⟩, h4⟩
          · have hlt : y < i := by
              rw [h1] at hw
              rcases Nat.lt_or_ge y i with h | h
              · exact h
              · obtain rfl : y = i := by omega
                have := hno w hw; omega
            rw [h1] at hw
            obtain ⟨⟨z, hz1, hz2⟩, q, hq1, hq2⟩ := hb.old w y hw hlt
            refine ⟨⟨z, ?_, by omega⟩, q, ?_, hq2⟩
            · rcases p.vis (fn nxt w) with g | ⟨g, -⟩
              · rw [g, hz1]
              · rw [hz1] at g; cases g; omega
            · rw [p.res w (by rw [hw]; intro hcc; cases hcc; omega), hq1]
          · exact ⟨⟨z, hz1, by omega⟩, h4⟩
        · intro w y hw
          rcases p.vis w with h1 | ⟨h1, h2, -⟩
          · rw [h1] at hw
            rcases hb.cases w y hw with g | g | g
            · exact Or.inl (by omega)
            · exact Or.inl (by omega)
            · exact Or.inr (Or.inr g)
          · rw [h2] at hw; cases hw
            exact Or.inl (by omega)
        · intro w hw
          rcases p.vis w with h1 | ⟨h1, h2, -⟩
          · rw [h1] at hw
            rcases hb.cases w _ hw with g | g | g <;> omega
          · rw [h2] at hw; cases hw
        · intro w hw
          rcases p.vis w with h1 | ⟨h1, h2, -⟩
          · rw [h1]
            by_cases e : w = i
            · subst e
              have := p.here
              rw [Function.iterate_zero_apply] at this
              rw [← h1, this]
              intro hcc; simp only [Option.some.injEq] at hcc; omega
            · exact hdone w (by omega)
          · rw [h2]; intro hcc; simp only [Option.some.injEq] at hcc; omega
      · rw [if_neg e]
        refine Tot.pure ⟨⟨⟨hb.rs, hb.vs, hb.ds, ?_, ?_⟩, ?_⟩, ?_⟩
        · intro w y hw hy
          have hlt : y < i := by
            rcases Nat.lt_or_ge y i with h | h
            · exact h
            · obtain rfl : y = i := by omega
              have := hno w hw; omega
          obtain ⟨⟨z, hz1, hz2⟩, h2⟩ := hb.old w y hw hlt
          exact ⟨⟨z, hz1, by omega⟩, h2⟩
        · intro w y hw
          rcases hb.cases w y hw with g | g | g
          · exact Or.inl (by omega)
          · exact Or.inl (by omega)
          · exact Or.inr (Or.inr g)
        · intro w hw
          rcases hb.cases w _ hw with g | g | g <;> omega
        · intro w hw
          by_cases e' : w = i
          · subst e'
            rw [hx]; intro hcc; cases hcc; exact e rfl
          · exact hdone w (by omega)
    · rintro s ⟨⟨h1, -⟩, h2⟩
      exact ⟨h1, h2⟩
  · rintro s ⟨hb, hdone⟩
    refine Tot.pure ⟨hb.rs, fun u hu => ?_⟩
    obtain ⟨x, hx⟩ : ∃ x, s.vis[u]? = some x := ⟨_, Array.getElem?_eq_getElem (by rw [hb.vs]; exact hu)⟩
    have hlt : x < nxt.size := by
      rcases hb.cases u x hx with g | g | g
      · exact g
      · exact absurd (by rw [hx, g]) (hdone u hu)
      · exact absurd (by rw [hx, g]) (hdone u hu)
    exact (hb.old u x hx hlt).2

end FunctionalGraph
