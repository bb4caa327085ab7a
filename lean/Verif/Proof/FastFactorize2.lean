import Verif.Proof.FastFactorize
import Verif.Proof.WheelSieve3

/-! # Factorisation: proofs -/

namespace FastFactorize
open Cxx

/-- `res` is a partial factorisation of `N` with the cofactor `n`. -/
structure PF (prm : Nat → M Bool) (N n : Nat) (res : List (Nat × Nat)) : Prop where
  nodup : (res.map Prod.fst).Nodup
  acc : ∀ x ∈ res, 1 < x.1 ∧ prm x.1 = .ok true ∧ 0 < x.2
  prod : n * (res.map fun x => x.1 ^ x.2).prod = N
  cop : ∀ x ∈ res, ¬ x.1 ∣ n

theorem PF.push {prm : Nat → M Bool} {N n p q n' : Nat} {res : List (Nat × Nat)} (h : PF prm N n res) (h1 : 1 < p) (h2 : prm p = .ok true) (hq : 0 < q)
    (e : n' * p ^ q = n) (hp : ¬ p ∣ n') : PF prm N n' (res ++ [(p, q)]) := by
  have hpn : p ∣ n := by rw [← e]; exact (dvd_pow_self p (by omega)).mul_left n'
  refine ⟨?_, ?_, ?_, ?_⟩
  · rw [List.map_append, List.nodup_append]
    refine ⟨h.nodup, by simp, ?_⟩
    intro a ha b hb hab
    obtain ⟨x, hx, rfl⟩ := List.mem_map.1 ha
    simp only [List.map_cons, List.map_nil, List.mem_singleton] at hb
    exact h.cop x hx (hab ▸ hb ▸ hpn)
  · intro x hx
    rcases List.mem_append.1 hx with hx | hx
    · exact h.acc x hx
    · obtain rfl := List.mem_singleton.1 hx
      exact ⟨h1, h2, hq⟩
  · rw [List.map_append, List.prod_append, List.map_cons, List.map_nil, List.prod_cons, List.prod_nil, Nat.mul_one, Nat.mul_comm _ (p ^ q),
      ← Nat.mul_assoc, e, h.prod]
  · intro x hx
    rcases List.mem_append.1 hx with hx | hx
    · intro hd
      refine h.cop x hx ?_
      rw [← e]; exact hd.mul_right _
    · obtain rfl := List.mem_singleton.1 hx
      exact hp

theorem divOut_tot {p n : Nat} (hp : 1 < p) (hn : 0 < n) (hb : n < 2 ^ 63) (hd : p ∣ n) :
    Tot (divOut p n) fun t => t.2 * p ^ t.1 = n ∧ ¬ p ∣ t.2 ∧ 0 < t.1 := by
  unfold divOut
  refine Tot.loopG (P := fun k t => t.2 * p ^ t.1 = n ∧ 0 < t.1 ∧ t.2 < 2 ^ k) (k := 64) ?_ ?_ (le_refl _)
  · rintro k ⟨q, m⟩ ⟨h1, h2, h3⟩
    dsimp only at h1 h2 h3
    unfold divStep
    dsimp only
    by_cases hm : m % p = 0
    · rw [if_pos hm]
      refine Tot.pure ?_
      have hm0 : 0 < m := by
        rcases Nat.eq_zero_or_pos m with rfl | h
        · simp at h1; omega
        · exact h
      cases k with
      | zero => simp at h3; omega
      | succ k =>
        refine ⟨k, by omega, ?_, by dsimp only; omega, ?_⟩
        · dsimp only
          rw [pow_succ, Nat.mul_comm _ p, ← Nat.mul_assoc, Nat.div_mul_cancel (Nat.dvd_of_mod_eq_zero hm), h1]
        · dsimp only
          refine Nat.div_lt_of_lt_mul ?_
          rw [pow_succ] at h3
          have : 2 * 2 ^ k ≤ p * 2 ^ k := Nat.mul_le_mul_right _ hp
          omega
    · rw [if_neg hm]
      exact Tot.pure ⟨h1, fun h => hm (Nat.mod_eq_zero_of_dvd h), h2⟩
  · refine ⟨?_, by dsimp only; omega, ?_⟩
    · dsimp only
      rw [pow_one, Nat.div_mul_cancel hd]
    · dsimp only
      have := Nat.div_le_self n p
      omega

theorem split_tot {prm : Nat → M Bool} (hprm : Accepts prm) (rnd : Nat → List Nat) {N n : Nat} {res : List (Nat × Nat)} (hn : 0 < n) (hb : n < 2 ^ 63)
    (h : PF prm N n res) : Tot (loop (splitStep prm rnd) 64 (some (n, res))) fun o => ∀ t, o = some t → t.1 = 1 ∧ PF prm N 1 t.2 := by
  refine Tot.loopG (P := fun k (o : Option (Nat × List (Nat × Nat))) => ∀ t, o = some t → 0 < t.1 ∧ t.1 < 2 ^ k ∧ t.1 < 2 ^ 63 ∧ PF prm N t.1 t.2) (k := 64) ?_ ?_ (le_refl _)
  · rintro k o ho
    cases o with
    | none => exact Tot.pure fun t h => by simp at h
    | some s =>
      obtain ⟨m, L⟩ := s
      obtain ⟨h0, hk, h63, hP⟩ := ho _ rfl
      dsimp only at h0 hk h63 hP
      unfold splitStep
      dsimp only
      by_cases h1 : 1 < m
      · rw [if_pos h1]
        have hk0 : 0 < k := by
          rcases Nat.eq_zero_or_pos k with rfl | h
          · simp at hk; omega
          · exact h
        obtain ⟨k, rfl⟩ : ∃ j, k = j + 1 := ⟨k - 1, by omega⟩
        obtain ⟨b, e, hb⟩ := hprm m h63
        rw [e, ok_bind]
        cases b with
        | true =>
          rw [if_pos rfl]
          refine Tot.pure ⟨k, by omega, ?_⟩
          intro t ht
          obtain rfl := Option.some.inj ht
          dsimp only
          exact ⟨by omega, Nat.two_pow_pos k |> fun h => by omega, by norm_num, hP.push h1 e (by omega) (by rw [pow_one, Nat.one_mul]) (fun h => by have := Nat.le_of_dvd (by omega) h; omega)⟩
        | false =>
          rw [if_neg (by simp)]
          refine Tot.bind (pollard_tot hprm (rnd m) h1 h63 fun h => by simpa using hb h) fun o ho => ?_
          cases o with
          | none => exact Tot.pure ⟨k, by omega, fun t h => by simp at h⟩
          | some p =>
            obtain ⟨hp1, hpd, hpa⟩ := ho p rfl
            refine Tot.bind (divOut_tot hp1 h0 h63 hpd) fun t ⟨ht1, ht2, ht3⟩ => ?_
            refine Tot.pure ⟨k, by omega, ?_⟩
            intro u hu
            obtain rfl := Option.some.inj hu
            dsimp only
            have hle : 2 * t.2 ≤ m := by
              rw [← ht1, Nat.mul_comm]
              refine Nat.mul_le_mul_left _ ?_
              calc 2 ≤ p := hp1
                _ = p ^ 1 := (pow_one p).symm
                _ ≤ p ^ t.1 := Nat.pow_le_pow_right (by omega) ht3
            have : 0 < t.2 := by
              rcases Nat.eq_zero_or_pos t.2 with h | h
              · exact absurd ⟨0, by rw [h]; rfl⟩ ht2
              · exact h
            exact ⟨this, by rw [pow_succ] at hk; omega, by omega, hP.push hp1 hpa ht3 ht1 ht2⟩
      · rw [if_neg h1]
        refine Tot.pure fun t ht => ?_
        obtain rfl := Option.some.inj ht
        have : m = 1 := by omega
        subst this
        exact ⟨rfl, hP⟩
  · intro t ht
    obtain rfl := Option.some.inj ht
    exact ⟨hn, by dsimp only; omega, hb, h⟩

/-- The invariant of the trial division. -/
def TInv (prm : Nat → M Bool) (N : Nat) (s : Trial) : Prop :=
  s.stuck = true ∨ (0 < s.rest ∧ s.rest < 2 ^ 63 ∧ PF prm N s.rest s.res ∧ 3 ≤ s.p ∧ s.p % 2 = 1 ∧ (s.fin = true → s.rest = 1) ∧
    ∀ r, r.Prime → r ∣ s.rest → s.p ≤ r)

theorem prime_of_least {p n : Nat} (hp : 1 < p) (hd : p ∣ n) (h : ∀ r, r.Prime → r ∣ n → p ≤ r) : p.Prime := by
  have h1 := Nat.minFac_prime (n := p) (by omega)
  have h2 := h _ h1 ((Nat.minFac_dvd p).trans hd)
  have h3 := Nat.le_of_dvd (by omega) (Nat.minFac_dvd p)
  rwa [show p.minFac = p by omega] at h1

theorem acc_of_prime {prm : Nat → M Bool} (hprm : Accepts prm) {p : Nat} (hp : p.Prime) (hb : p < 2 ^ 63) : prm p = .ok true := by
  obtain ⟨b, e, h⟩ := hprm p hb
  rw [e, h hp]

theorem trialDiv_tot {prm : Nat → M Bool} (hprm : Accepts prm) {N p n : Nat} {res : List (Nat × Nat)} (hp : 1 < p) (hn : 0 < n) (hb : n < 2 ^ 63) (h : PF prm N n res)
    (hr : ∀ r, r.Prime → r ∣ n → p ≤ r) : Tot (trialDiv p n res) fun t => 0 < t.1 ∧ t.1 ≤ n ∧ PF prm N t.1 t.2 ∧ ∀ r, r.Prime → r ∣ t.1 → p < r := by
  unfold trialDiv
  by_cases hd : n % p = 0
  · rw [if_pos hd]
    have hd' := Nat.dvd_of_mod_eq_zero hd
    have hle := Nat.le_of_dvd hn hd'
    have hpp := prime_of_least hp hd' hr
    refine Tot.bind (divOut_tot hp hn hb hd') fun t ⟨h1, h2, h3⟩ => Tot.pure ?_
    dsimp only
    have htn : t.2 ∣ n := ⟨_, h1.symm⟩
    refine ⟨Nat.pos_of_dvd_of_pos htn hn, Nat.le_of_dvd hn htn, h.push hp (acc_of_prime hprm hpp (by omega)) h3 h1 h2, ?_⟩
    intro r hr1 hr2
    have h4 := hr r hr1 (hr2.trans htn)
    have : r ≠ p := by rintro rfl; exact h2 hr2
    omega
  · rw [if_neg hd]
    refine Tot.pure ⟨hn, le_refl _, h, ?_⟩
    intro r hr1 hr2
    have h4 := hr r hr1 hr2
    have : r ≠ p := by rintro rfl; exact hd (Nat.mod_eq_zero_of_dvd hr2)
    omega

theorem trial_tot {prm : Nat → M Bool} (hprm : Accepts prm) (rnd : Nat → List Nat) {N n : Nat} {res : List (Nat × Nat)} (hn : 0 < n) (hb : n < 2 ^ 63)
    (h : PF prm N n res) (ho : n % 2 = 1) : Tot (loop (trialStep prm rnd) 1024 ⟨false, false, 3, n, res⟩) fun s =>
      s.stuck = true ∨ (0 < s.rest ∧ s.rest < 2 ^ 63 ∧ PF prm N s.rest s.res ∧ (1 < s.rest → s.rest.Prime)) := by
  refine Tot.loopG (P := fun k s => TInv prm N s ∧ (s.stuck = true → s.fin = true) ∧ (s.fin = false → k + s.p = 1027 ∧ s.p ≤ 1025)) (k := 1024) ?_ ?_ (le_refl _)
  · rintro k ⟨fin, stuck, p, m, L⟩ ⟨hI, hsf, hk⟩
    dsimp only at hsf hk
    unfold trialStep
    dsimp only
    cases fin with
    | true =>
      rw [if_pos rfl]
      refine Tot.pure ?_
      dsimp only
      rcases hI with hI | ⟨h0, h63, hP, -, -, hf, -⟩
      · exact .inl hI
      · refine .inr ⟨h0, h63, hP, fun h1 => ?_⟩
        have := hf rfl
        dsimp only at this
        omega
    | false =>
      rw [if_neg (by simp)]
      have hst : stuck = false := by
        cases stuck with
        | true => simpa using hsf rfl
        | false => rfl
      subst hst
      obtain ⟨hk1, hk2⟩ := hk rfl
      rcases hI with hI | ⟨h0, h63, hP, hp3, hodd, -, hr⟩
      · simp at hI
      dsimp only at h0 h63 hP hp3 hodd hr
      have hsq : p * p ≤ 1025 * 1025 := Nat.mul_le_mul hk2 hk2
      have hcast : ((p : Int) * p) = ((p * p : Nat) : Int) := by push_cast; rfl
      rw [hcast, i64_ok ⟨by omega, by omega⟩, ok_bind]
      by_cases hle : ((p * p : Nat) : Int) ≤ m
      · rw [if_pos hle]
        have hle' : p * p ≤ m := by exact_mod_cast hle
        by_cases hbig : 101 ≤ p ∧ 2 ^ 20 ≤ m
        · rw [if_pos hbig]
          refine Tot.bind (P := fun s => TInv prm N s ∧ s.fin = true) ?_ fun s hs => Tot.pure ?_
          · unfold finish
            dsimp only
            refine Tot.bind (split_tot hprm rnd h0 h63 hP) fun o ho => ?_
            cases o with
            | none => exact Tot.pure ⟨.inl rfl, rfl⟩
            | some t =>
              obtain ⟨m', L'⟩ := t
              obtain ⟨h1, h2⟩ := ho _ rfl
              dsimp only at h1 h2
              subst h1
              refine Tot.pure ⟨.inr ⟨by dsimp only; omega, by dsimp only; norm_num, h2, hp3, hodd, fun _ => rfl, ?_⟩, rfl⟩
              intro r hr1 hr2
              exact absurd (Nat.dvd_one.1 hr2) hr1.one_lt.ne'
          · exact ⟨k - 1, by omega, hs.1, fun _ => hs.2, fun h => by rw [hs.2] at h; simp at h⟩
        · rw [if_neg hbig]
          have hp1024 : p ≤ 1023 := by
            by_contra hgt
            have h1 : 1024 ≤ p := by omega
            have := Nat.mul_le_mul h1 h1
            exact hbig ⟨by omega, by omega⟩
          refine Tot.bind (trialDiv_tot hprm (by omega) h0 h63 hP hr) fun t ⟨h1, h2, h3, h4⟩ => Tot.pure ?_
          dsimp only
          refine ⟨k - 2, by omega, .inr ⟨h1, by dsimp only; omega, h3, by dsimp only; omega, by dsimp only; omega, fun h => by simp at h, ?_⟩, fun h => by simp at h, fun _ => by omega⟩
          intro r hr1 hr2
          dsimp only
          have h5 := h4 r hr1 hr2
          have : r ≠ p + 1 := by
            rintro rfl
            have := hr1.eq_two_or_odd
            omega
          omega
      · rw [if_neg hle]
        refine Tot.pure (.inr ⟨h0, h63, hP, fun h1 => ?_⟩)
        have hlt : m < p * p := by
          by_contra hge
          exact hle (by exact_mod_cast (show p * p ≤ m by omega))
        by_contra hnp
        have hmf := small_factor h1 hnp
        have h2 := hr _ (Nat.minFac_prime (by omega)) (Nat.minFac_dvd m)
        have := Nat.mul_le_mul h2 h2
        omega
  · refine ⟨.inr ⟨hn, hb, h, by dsimp only; omega, by dsimp only, fun h => by simp at h, ?_⟩, fun h => by simp at h, fun _ => by dsimp only; omega⟩
    intro r hr1 hr2
    dsimp only at hr2 ⊢
    have := hr1.two_le
    have : r ≠ 2 := by
      rintro rfl
      omega
    omega

/-- The outcome of `factorize`. -/
structure Fac (prm : Nat → M Bool) (n : Nat) (l : List (Nat × Nat)) : Prop where
  nodup : (l.map Prod.fst).Nodup
  acc : ∀ x ∈ l, 1 < x.1 ∧ prm x.1 = .ok true ∧ 0 < x.2
  prod : (l.map fun x => x.1 ^ x.2).prod = n

theorem large_tot {prm : Nat → M Bool} (hprm : Accepts prm) (rnd : Nat → List Nat) {n : Nat} (hn : 0 < n) (hb : n < 2 ^ 63) :
    Tot (large prm rnd n) fun o => ∀ l, o = some l → Fac prm n l := by
  unfold large
  have hnil : PF prm n n [] := ⟨by simp, by simp, by simp, by simp⟩
  refine Tot.bind (P := fun t => 0 < t.1 ∧ t.1 < 2 ^ 63 ∧ PF prm n t.1 t.2 ∧ t.1 % 2 = 1) ?_ ?_
  · unfold even
    by_cases h2 : n % 2 = 0
    · rw [if_pos h2]
      have hd := Nat.dvd_of_mod_eq_zero h2
      refine Tot.bind (divOut_tot (by omega) hn hb hd) fun t ⟨h3, h4, h5⟩ => Tot.pure ?_
      dsimp only
      have htn : t.2 ∣ n := ⟨_, h3.symm⟩
      have := Nat.le_of_dvd hn htn
      exact ⟨Nat.pos_of_dvd_of_pos htn hn, by omega, hnil.push (by omega) (acc_of_prime hprm Nat.prime_two (by norm_num)) h5 h3 h4, by omega⟩
    · rw [if_neg h2]
      exact Tot.pure ⟨hn, hb, hnil, by dsimp only; omega⟩
  · rintro ⟨m, L⟩ ⟨h1, h2, h3, h4⟩
    refine Tot.bind (trial_tot hprm rnd h1 h2 h3 h4) fun s hs => ?_
    by_cases hst : s.stuck = true
    · rw [if_pos hst]
      exact Tot.pure fun l h => by simp at h
    · rw [if_neg hst]
      obtain ⟨h5, h6, h7, h8⟩ := hs.resolve_left hst
      by_cases h9 : 1 < s.rest
      · rw [if_pos h9]
        refine Tot.pure fun l h => ?_
        obtain rfl := Option.some.inj h
        have hP := h7.push h9 (acc_of_prime hprm (h8 h9) h6) (q := 1) (n' := 1) (by omega) (by rw [pow_one, Nat.one_mul])
          (fun h => by have := Nat.le_of_dvd (by omega) h; omega)
        exact ⟨hP.nodup, hP.acc, by rw [← hP.prod, Nat.one_mul]⟩
      · rw [if_neg h9]
        refine Tot.pure fun l h => ?_
        obtain rfl := Option.some.inj h
        exact ⟨h7.nodup, h7.acc, by rw [← h7.prod, show s.rest = 1 by omega, Nat.one_mul]⟩

theorem small_tot {prm : Nat → M Bool} (hprm : Accepts prm) (rnd : Nat → List Nat) {pf : Array Nat} (hpf : WheelSieve.PExact 1000000 pf) {n : Nat} (hn : 0 < n)
    (hb : n ≤ 1000000) : Tot (factorize prm rnd pf n) fun o => ∃ l, o = some l ∧ Fac prm n l := by
  unfold factorize
  rw [if_pos (by omega), show Int.toNat ((n : Int) % (2 : Int) ^ 32) = n by omega]
  refine Tot.bind (WheelSieve.factorize_tot (by norm_num) hpf hn hb) fun l h => Tot.pure ⟨l, rfl, h.nodup, ?_, h.prod⟩
  intro x hx
  obtain ⟨h1, h2⟩ := h.prime x hx
  refine ⟨h1.one_lt, acc_of_prime hprm h1 ?_, h2⟩
  have hpr := h.prod
  have : x.1 ∣ n := by
    rw [← hpr]
    exact (dvd_pow_self _ (by omega)).trans (List.dvd_prod (List.mem_map.2 ⟨x, hx, rfl⟩))
  have := Nat.le_of_dvd hn this
  omega

end FastFactorize
