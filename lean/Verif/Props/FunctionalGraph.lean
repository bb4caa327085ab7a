import Verif.Proof.FunctionalGraphKth

/-! # C88–C90: functional graphs -/

namespace FunctionalGraphProps
open Cxx FunctionalGraph

/-- The vector `nxt` describes a function on `{0, …, n-1}`. -/
def IsFunction (nxt : Array Nat) : Prop := ∀ u, (h : u < nxt.size) → nxt[u] < nxt.size

/-- That function. -/
def func (nxt : Array Nat) (u : Nat) : Nat := nxt.getD u 0

theorem func_eq (nxt : Array Nat) : func nxt = fn nxt := by
  funext u
  simp [func, fn, at']

theorem closed_of {nxt : Array Nat} (h : IsFunction nxt) : Closed nxt := by
  intro u hu
  have := h u hu
  simpa [fn, at', hu] using this

/-- **C88 (query).** For every step limit below `2^62`, `doubling(m)` succeeds and `query(u, d)` is `f^d(u)` for all `d ≤ m`.
Missing: step limits from `2^62` on, see `doubling_large_ub`. -/
theorem doubling_query_partial (nxt : Array Nat) (hf : IsFunction nxt) (m : Int) (hm : m < 2 ^ 62) :
    ∃ D, doubling nxt m = .ok D ∧ ∀ u d : Nat, u < nxt.size → (d : Int) ≤ m → query D u d = .ok ((func nxt)^[d] u) := by
  obtain ⟨D, e, hD⟩ := doubling_tot (closed_of hf) hm
  refine ⟨D, e, fun u d hu hd => ?_⟩
  rw [func_eq]
  exact query_tot (closed_of hf) hD hu hd

/-- **C88 (max_step).** For a predicate that holds at `u` and, once it fails along the walk, never holds again, `max_step(u, p)` returns a step count `s` and the vertex `f^s(u)` such that `p` holds up to step `s`, and fails at step `s + 1` if `s < m`. -/
theorem doubling_max_step_partial (nxt : Array Nat) (hf : IsFunction nxt) (m : Int) (hm : m < 2 ^ 62) :
    ∃ D, doubling nxt m = .ok D ∧ ∀ (u : Nat) (p : Nat → Bool), u < nxt.size → p u = true → (∀ k, p ((func nxt)^[k] u) = false → p ((func nxt)^[k + 1] u) = false) →
      ∃ v s, maxStep D u p = .ok (v, s) ∧ v = (func nxt)^[s] u ∧ (∀ k ≤ s, p ((func nxt)^[k] u) = true) ∧ ((s : Int) < m → ∀ k > s, p ((func nxt)^[k] u) = false) := by
  obtain ⟨D, e, hD⟩ := doubling_tot (closed_of hf) hm
  refine ⟨D, e, fun u p hu h0 hmono => ?_⟩
  rw [func_eq] at *
  have hmono' : ∀ k, p ((fn nxt)^[k + 1] u) = true → p ((fn nxt)^[k] u) = true := by
    intro k hk
    by_contra hc
    rw [hmono k (by simpa using hc)] at hk; cases hk
  obtain ⟨⟨v, s⟩, e1, h1, h2, h3, h4⟩ := maxStep_tot (closed_of hf) hD hu p h0 hmono'
  dsimp only at h1 h2 h3 h4
  refine ⟨v, s, e1, h1, fun k hk => anti (Q := fun k => p ((fn nxt)^[k] u) = true) hmono' hk (by rw [← h1]; exact h2), fun hs k hk => ?_⟩
  by_contra hc
  have h5 := anti (Q := fun k => p ((fn nxt)^[k] u) = true) hmono' (a := s + 1) (b := k) hk (by simpa using hc)
  have hs' : ((s + 1 : Nat) : Int) < 2 ^ (D.log + 1) := by have := hD.2.1; omega
  rw [h4 (s + 1) (by omega) (by exact_mod_cast hs')] at h5; cases h5

/-- **C88 (step_until).** For a predicate that keeps holding once it holds, `step_until(u, p)` returns the first step at which it holds, and nothing only if it fails at all steps up to `m`. -/
theorem doubling_step_until_partial (nxt : Array Nat) (hf : IsFunction nxt) (m : Int) (hm : m < 2 ^ 62) :
    ∃ D, doubling nxt m = .ok D ∧ ∀ (u : Nat) (p : Nat → Bool), u < nxt.size → (∀ k, p ((func nxt)^[k] u) = true → p ((func nxt)^[k + 1] u) = true) →
      ∃ r, stepUntil D u p = .ok r ∧ (∀ v s, r = some (v, s) → v = (func nxt)^[s] u ∧ p v = true ∧ ∀ k < s, p ((func nxt)^[k] u) = false) ∧
        (r = none → ∀ k : Nat, (k : Int) ≤ m → p ((func nxt)^[k] u) = false) := by
  obtain ⟨D, e, hD⟩ := doubling_tot (closed_of hf) hm
  refine ⟨D, e, fun u p hu hmono => ?_⟩
  rw [func_eq] at *
  obtain ⟨r, e1, h1, h2⟩ := stepUntil_tot (closed_of hf) hD hu p hmono
  refine ⟨r, e1, fun v s hr => ?_, fun hr k hk => h2 hr k ?_⟩
  · obtain ⟨a, b, -, c⟩ := h1 v s hr
    exact ⟨a, b, c⟩
  · have := hD.2.1
    have : (k : Int) < 2 ^ (D.log + 1) := by omega
    have : k < 2 ^ (D.log + 1) := by exact_mod_cast this
    omega

/-- **C88 (sums).** With values on the edges from a monoid, `query`, `max_step` and `step_until` of the summing table return the vertex reached and the product, in order, of the values passed; the predicates are on these products. -/
theorem doublingSum_partial {T : Type} (op : T → T → T) (e : T) (hassoc : ∀ a b c, op (op a b) c = op a (op b c)) (hl : ∀ a, op e a = a) (hr : ∀ a, op a e = a)
    (nxt : Array Nat) (hf : IsFunction nxt) (dat : Array T) (hd : dat.size = nxt.size) (m : Int) (hm : m < 2 ^ 62) :
    ∃ D, doublingSum op e nxt m dat = .ok D ∧ ∀ u : Nat, u < nxt.size →
      let S := orbitSum op e (func nxt) (fun i => dat.getD i e) u
      (∀ d : Nat, (d : Int) ≤ m → querySum op e D u d = .ok ((func nxt)^[d] u, S d)) ∧
      (∀ p : T → Bool, p e = true → (∀ k, p (S k) = false → p (S (k + 1)) = false) →
        ∃ s, maxStepSum op e D u p = .ok ((func nxt)^[s] u, S s, s) ∧ (∀ k ≤ s, p (S k) = true) ∧ ((s : Int) < m → ∀ k > s, p (S k) = false)) ∧
      (∀ p : T → Bool, (∀ k, p (S k) = true → p (S (k + 1)) = true) →
        (∃ s, stepUntilSum op e D u p = .ok (some ((func nxt)^[s] u, S s, s)) ∧ p (S s) = true ∧ ∀ k < s, p (S k) = false) ∨
        (stepUntilSum op e D u p = .ok none ∧ ∀ k : Nat, (k : Int) ≤ m → p (S k) = false)) := by
  obtain ⟨D, e0, hD⟩ := doublingSum_tot hassoc hl hr (closed_of hf) hd hm
  refine ⟨D, e0, fun u hu => ?_⟩
  intro S
  have hS : S = orbitSum op e (fn nxt) (at' e dat) u := by
    show orbitSum op e (func nxt) (fun i => dat.getD i e) u = _
    rw [func_eq]
    congr 1
    funext i
    simp [at', Array.getD_eq_getD_getElem?]
  rw [hS, func_eq]
  refine ⟨fun d hdm => querySum_tot hassoc hr (closed_of hf) hD hu hdm, fun p h0 hmono => ?_, fun p hmono => ?_⟩
  · have hmono' : ∀ k, p (orbitSum op e (fn nxt) (at' e dat) u (k + 1)) = true → p (orbitSum op e (fn nxt) (at' e dat) u k) = true := by
      intro k hk
      by_contra hc
      rw [hmono k (by simpa using hc)] at hk; cases hk
    obtain ⟨⟨v, x, s⟩, e1, h1, h2, h3, h4, h5⟩ := maxStepSum_tot hassoc hr (closed_of hf) hD hu p h0 hmono'
    dsimp only at h1 h2 h3 h4 h5
    refine ⟨s, by rw [e1, h1, h2], fun k hk => anti (Q := fun k => p (orbitSum op e (fn nxt) (at' e dat) u k) = true) hmono' hk (by rw [← h2]; exact h3), fun hs k hk => ?_⟩
    by_contra hc
    have h6 := anti (Q := fun k => p (orbitSum op e (fn nxt) (at' e dat) u k) = true) hmono' (a := s + 1) (b := k) hk (by simpa using hc)
    have hs' : ((s + 1 : Nat) : Int) < 2 ^ (D.log + 1) := by have := hD.1.2.1; omega
    rw [h5 (s + 1) (by omega) (by exact_mod_cast hs')] at h6; cases h6
  · obtain ⟨r, e1, h1, h2⟩ := stepUntilSum_tot hassoc hl hr (closed_of hf) hD hu p hmono
    cases r with
    | some t =>
      obtain ⟨v, x, s⟩ := t
      obtain ⟨a, b, c, -, d⟩ := h1 v x s rfl
      exact Or.inl ⟨s, by rw [e1, a, b], by rw [← b]; exact c, d⟩
    | none =>
      refine Or.inr ⟨e1, fun k hk => h2 rfl k ?_⟩
      have := hD.1.2.1
      have : (k : Int) < 2 ^ (D.log + 1) := by omega
      have : k < 2 ^ (D.log + 1) := by exact_mod_cast this
      omega

/-- **C88 fails for large limits.** For every graph and every step limit of `2^62` or more (still a valid `long long`), building the table evaluates `1LL << 64`: undefined behaviour. -/
theorem doubling_large_ub (nxt : Array Nat) (m : Int) (hm : 2 ^ 62 ≤ m) : doubling nxt m = .error .ub := by
  unfold doubling
  rw [floorLog2_ub hm]; rfl

/-- `step_until` may answer beyond the step limit, where the documentation announces `nullopt`: on the walk 0 → 1 → 2 → 2 with limit 1 the first vertex ≥ 2 is found after 2 steps. -/
theorem step_until_beyond_limit : (doubling #[1, 2, 2] 1 >>= fun D => stepUntil D 0 fun v => decide (2 ≤ v)) = .ok (some (2, 2)) := by decide +kernel

example : IsFunction #[1, 2, 0, 2] := by unfold IsFunction; decide
example : (doubling #[1, 2, 0, 2] 100 >>= fun D => query D 3 100) = .ok 2 := by decide +kernel

/-- **C89.** For every function on `{0, …, n-1}`, `infinite_paths` returns for every vertex `u` its own index, the least `k` and `t` with `f^(k+t)(u) = f^k(u)` (all earlier iterates are distinct), and the vertex `f^k(u)`. -/
theorem infinitePaths_correct (nxt : Array Nat) (hf : IsFunction nxt) :
    ∃ res, infinitePaths nxt = .ok res ∧ res.size = nxt.size ∧ ∀ u (h : u < res.size), res[u].headV = u ∧ Rho (func nxt) u res[u].headLen res[u].loopLen ∧
      res[u].loopV = (func nxt)^[res[u].headLen] u := by
  obtain ⟨res, e, h1, h2⟩ := infinitePaths_tot (closed_of hf)
  refine ⟨res, e, h1, fun u h => ?_⟩
  obtain ⟨r, hr, hg⟩ := h2 u (by omega)
  rw [func_eq]
  have : res[u] = r := by rw [Array.getElem?_eq_getElem h] at hr; cases hr; rfl
  rw [this]
  exact hg

/-- The pair described by `Rho` is unique and minimal. -/
theorem rho_minimal (f : Nat → Nat) (u h l : Nat) (hr : Rho f u h l) (k t : Nat) (ht : 0 < t) (hk : f^[k + t] u = f^[k] u) : h ≤ k ∧ l ≤ t := by
  obtain ⟨h1, h2, h3⟩ := hr
  constructor
  · by_contra hc
    obtain ⟨m', g1, g2, g3⟩ := rho_reduce ⟨h1, h2, h3⟩ (k + t)
    rw [hk] at g2
    rcases Nat.lt_trichotomy m' k with hlt | heq | hgt
    · exact h3 m' k hlt (by omega) g2
    · -- k < h, and k + t reduces to k
      by_cases hle : h ≤ k + t
      · have := g3 hle; omega
      · exact h3 k (k + t) (by omega) (by omega) hk.symm
    · exact h3 k m' hgt g1 g2.symm
  · -- on the cycle a shift by t returns
    by_contra hc
    obtain ⟨k', hk'⟩ : ∃ k', k' = k + h := ⟨_, rfl⟩
    have hsh : f^[k' + t] u = f^[k'] u := by
      rw [hk', show k + h + t = h + (k + t) by omega, Function.iterate_add_apply, hk, ← Function.iterate_add_apply, Nat.add_comm]
    obtain ⟨m', g1, g2, g3⟩ := rho_reduce ⟨h1, h2, h3⟩ k'
    have hm' := g3 (by omega)
    have hmt : f^[m' + t] u = f^[m'] u := by
      rw [Nat.add_comm m', Function.iterate_add_apply, g2, ← Function.iterate_add_apply, Nat.add_comm t, hsh]
    rcases Nat.lt_or_ge (m' + t) (h + l) with hlt | hge
    · exact h3 m' (m' + t) (by omega) hlt hmt.symm
    · have : f^[m' + t - l] u = f^[m'] u := by
        rw [← hmt]
        have e : m' + t = (m' + t - l - h) + (h + l) := by omega
        rw [e, Function.iterate_add_apply, h2, ← Function.iterate_add_apply]
        congr 1; omega
      exact h3 (m' + t - l) m' (by omega) g1 this

example : (infinitePaths #[1, 2, 0, 2, 3]).toOption = some #[⟨0, 0, 0, 3⟩, ⟨1, 0, 1, 3⟩, ⟨2, 0, 2, 3⟩, ⟨3, 1, 2, 3⟩, ⟨4, 2, 2, 3⟩] := by decide +kernel

/-- **C90.** `kth_iterate(k)` returns `f^k(u)` for every vertex, for every `k` with `k + n ≤ 2^63`.
Missing: the `n - 1` largest values of `long long`, see `kthIterate_overflow`. -/
theorem kthIterate_correct_partial (nxt : Array Nat) (hf : IsFunction nxt) (k : Nat) (hk : k + nxt.size ≤ 2 ^ 63) :
    ∃ res, kthIterate nxt k = .ok res ∧ res.size = nxt.size ∧ ∀ u (h : u < res.size), res[u] = (func nxt)^[k] u := by
  obtain ⟨res, e, h1, h2⟩ := kthIterate_tot (closed_of hf) hk
  refine ⟨res, e, h1, fun u h => ?_⟩
  have := h2 u (by omega)
  rw [func_eq]
  rw [Array.getElem?_eq_getElem h, Option.some.injEq] at this
  exact this

example : (kthIterate #[1, 2, 0, 2, 3] 7).toOption = some #[1, 2, 0, 2, 1] := by decide +kernel

/-- **C90 fails for the largest values.** On a cycle of length two, `kth_iterate(LLONG_MAX)` computes `1 + LLONG_MAX` in `long long` (line 215): undefined behaviour. -/
theorem kthIterate_overflow : kthIterate #[1, 0] (2 ^ 63 - 1) = .error .ub := by decide +kernel

end FunctionalGraphProps
