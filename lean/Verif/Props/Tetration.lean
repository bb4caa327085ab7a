import Verif.Proof.Tetration
import Verif.Props.FastFactorize

/-! # Power towers modulo m: property C114 -/

namespace Tetration
open Cxx

theorem prepare_tot {prm : Nat → M Bool} (hprm : ∀ m < 2 ^ 63, prm m = .ok (decide m.Prime)) (rnd : Nat → List Nat) {pf : Array Nat} {c : Nat}
    (hpf : WheelSieve.after 1000000 (c + 1) = .ok pf) {a m : Nat} (ha : 2 ≤ a) (hm : 0 < m) (hb : m < 2 ^ 31) :
    Tot (prepare prm rnd pf a m) fun o => (m ≤ 1000000 → o ≠ none) ∧ ∀ q, o = some q → ∃ m0, Split a m m0 q.1 ∧ q.2 = Nat.totient m0 := by
  unfold prepare
  refine Tot.bind (gcd_tot ha hm hb) fun s hs => ?_
  have hle : s.1 ≤ m := (Nat.le_mul_of_pos_right _ (Nat.two_pow_pos _)).trans hs.small
  obtain ⟨o, e, h1, h2⟩ := FastFactorize.factorize_correct prm hprm rnd pf c hpf s.1 hs.pos (by omega)
  rw [e, ok_bind]
  cases o with
  | none => exact Tot.pure ⟨fun h => absurd rfl (h1 (by omega)), fun q h => by simp at h⟩
  | some l =>
    obtain ⟨h3, h4, h5⟩ := h2 l rfl
    refine Tot.bind (phi_tot hs.pos (by omega) h3 h4 h5) fun phi hphi => Tot.pure ⟨fun _ => by simp, fun q hq => ?_⟩
    obtain rfl := Option.some.inj hq
    exact ⟨s.1, hs, hphi⟩

theorem tower_zero : ∀ b, tower 0 b = 1 - b % 2
  | 0 => rfl
  | b + 1 => by
    rw [tower, tower_zero b]
    rcases Nat.mod_two_eq_zero_or_one b with h | h
    · rw [h, show (b + 1) % 2 = 1 by omega]; rfl
    · rw [h, show (b + 1) % 2 = 0 by omega]; rfl

theorem tower_one : ∀ b, tower 1 b = 1
  | 0 => rfl
  | b + 1 => by rw [tower, one_pow]

theorem exp_bound {a m m0 i0 : Nat} (h : Split a m m0 i0) (hb : m < 2 ^ 31) : i0 < 31 ∧ (0 < i0 → m0 < 2 ^ 30) := by
  have h1 := h.small
  have h0 := h.pos
  constructor
  · by_contra hi
    have : 2 ^ 31 ≤ 2 ^ i0 := Nat.pow_le_pow_right (by omega) (by omega)
    have h2 : 2 ^ i0 ≤ m0 * 2 ^ i0 := Nat.le_mul_of_pos_left _ h0
    omega
  · intro hi
    have : 2 ^ 1 ≤ 2 ^ i0 := Nat.pow_le_pow_right (by omega) hi
    have h2 := Nat.mul_le_mul_left m0 this
    omega

/-- **C114** (the primality test by contract). For all `int` arguments `a >= 0`, `b >= 0`, `m >= 1`, `tetration_mod(a, b, m)` has no overflow,
division by zero or failed assertion, and its result is `a ↑↑ b mod m`, unless the factorisation draws random constants for ever (`none`), which
cannot happen for `m <= 10^6`. -/
theorem tetMod_correct (prm : Nat → M Bool) (hprm : ∀ m < 2 ^ 63, prm m = .ok (decide m.Prime)) (rnd : Nat → List Nat) (pf : Array Nat) (c : Nat)
    (hpf : WheelSieve.after 1000000 (c + 1) = .ok pf) (a b m : Nat) (ha : a < 2 ^ 31) (hm : 0 < m) (hb : m < 2 ^ 31) :
    ∃ o, tetMod prm rnd pf a b m = .ok o ∧ (m ≤ 1000000 → o ≠ none) ∧ ∀ r, o = some r → r = tower a b % m := by
  have hMd : maxValue = 2 ^ 31 - 1 := rfl
  suffices h : ∀ b m, 0 < m → m < 2 ^ 31 → Tot (tetMod prm rnd pf a b m) fun o => (m ≤ 1000000 → o ≠ none) ∧ ∀ r, o = some r → r = tower a b % m from h b m hm hb
  clear hm hb m b
  intro b
  induction b with
  | zero =>
    intro m hm hb
    unfold tetMod
    refine Tot.pure ⟨fun _ => by simp, fun r hr => ?_⟩
    obtain rfl := Option.some.inj hr
    by_cases h1 : m = 1
    · rw [if_pos h1, h1, Nat.mod_one]
    · rw [if_neg h1, tower, Nat.mod_eq_of_lt (by omega)]
  | succ b ih =>
    intro m hm hb
    unfold tetMod
    by_cases h1 : m = 1
    · rw [if_pos h1]
      refine Tot.pure ⟨fun _ => by simp, fun r hr => ?_⟩
      obtain rfl := Option.some.inj hr
      rw [h1, Nat.mod_one]
    rw [if_neg h1]
    by_cases ha0 : a = 0
    · rw [if_pos ha0]
      refine Tot.pure ⟨fun _ => by simp, fun r hr => ?_⟩
      obtain rfl := Option.some.inj hr
      rw [ha0, tower_zero]
      exact (Nat.mod_eq_of_lt (by omega)).symm
    rw [if_neg ha0]
    by_cases ha1 : a = 1
    · rw [if_pos ha1]
      refine Tot.pure ⟨fun _ => by simp, fun r hr => ?_⟩
      obtain rfl := Option.some.inj hr
      rw [ha1, tower_one, Nat.mod_eq_of_lt (by omega)]
    rw [if_neg ha1]
    have ha2 : 2 ≤ a := by omega
    refine Tot.bind (prepare_tot hprm rnd hpf ha2 hm hb) fun o ⟨ho1, ho2⟩ => ?_
    cases o with
    | none => exact Tot.pure ⟨fun h => absurd rfl (ho1 h), fun r hr => by simp at hr⟩
    | some q =>
      obtain ⟨i0, phi⟩ := q
      obtain ⟨m0, hS, hphi⟩ := ho2 _ rfl
      dsimp only at hS hphi ⊢
      have hphi0 : 0 < phi := by rw [hphi]; exact Nat.totient_pos.2 hS.pos
      have hphile : phi ≤ m0 := by rw [hphi]; exact Nat.totient_le m0
      have hm0 : m0 ≤ m := (Nat.le_mul_of_pos_right _ (Nat.two_pow_pos _)).trans hS.small
      obtain ⟨hi0, hi1⟩ := exp_bound hS hb
      refine Tot.bind (satTet_tot ha2 ha b) fun e he => ?_
      by_cases hsat : e = maxValue
      · rw [if_pos hsat]
        refine Tot.bind (ih phi hphi0 (by omega)) fun o ⟨hn, hr⟩ => ?_
        cases o with
        | none => exact Tot.pure ⟨fun h => absurd rfl (hn (by omega)), fun r hr => by simp at hr⟩
        | some e' =>
          have he' := hr e' rfl
          have hlt : e' < phi := by rw [he']; exact Nat.mod_lt _ hphi0
          refine Tot.bind (raise_tot (by omega) hphi0 (by omega) (fun h => by have := hi1 h; omega) hlt) fun x ⟨hx1, hx2, hx3⟩ => ?_
          refine Tot.bind (powMod_tot ha (by omega) (by omega) hb) fun r hr => Tot.pure ⟨fun _ => by simp, fun r' hr' => ?_⟩
          obtain rfl := Option.some.inj hr'
          rw [hr, tower]
          refine pow_congr hS hx1 (by omega) ?_
          rw [← hphi]
          refine hx2.trans ?_
          rw [he']
          exact Nat.mod_modEq _ _
      · rw [if_neg hsat]
        have hex : e = tower a b := by omega
        refine Tot.bind (P := fun x => x < 2 ^ 32 ∧ a ^ x % m = a ^ e % m) ?_ fun x ⟨hx1, hx2⟩ => ?_
        · by_cases hie : i0 ≤ e
          · refine (reduce_tot hphi0 hie).mono fun x ⟨hx1, hx2, hx3⟩ => ⟨by omega, pow_congr hS hx1 hie (by rw [← hphi]; exact hx2)⟩
          · unfold reduce
            rw [if_neg hie]
            exact Tot.pure ⟨by omega, rfl⟩
        · refine Tot.bind (powMod_tot ha hx1 (by omega) hb) fun r hr => Tot.pure ⟨fun _ => by simp, fun r' hr' => ?_⟩
          obtain rfl := Option.some.inj hr'
          rw [hr, hx2, hex, tower]

theorem factorize_prm (prm prm' : Nat → M Bool) (rnd : Nat → List Nat) (pf : Array Nat) {n : Nat} (h : n ≤ 1000000) :
    FastFactorize.factorize prm rnd pf n = FastFactorize.factorize prm' rnd pf n := by
  unfold FastFactorize.factorize
  rw [if_pos (by omega), if_pos (by omega)]

theorem prepare_prm (prm prm' : Nat → M Bool) (rnd : Nat → List Nat) (pf : Array Nat) {a m : Nat} (ha : 2 ≤ a) (hm : 0 < m) (h : m ≤ 1000000) :
    prepare prm rnd pf a m = prepare prm' rnd pf a m := by
  unfold prepare
  obtain ⟨s, e, hs⟩ := gcd_tot ha hm (show m < 2 ^ 31 by omega)
  have hle : s.1 ≤ m := (Nat.le_mul_of_pos_right _ (Nat.two_pow_pos _)).trans hs.small
  rw [e, ok_bind, ok_bind, factorize_prm prm prm' rnd pf (by omega)]

theorem tetMod_prm (prm : Nat → M Bool) (rnd : Nat → List Nat) {pf : Array Nat} {c : Nat} (hpf : WheelSieve.after 1000000 (c + 1) = .ok pf) (a : Nat) :
    ∀ b m, 0 < m → m ≤ 1000000 → tetMod prm rnd pf a b m = tetMod (fun n => .ok (decide n.Prime)) rnd pf a b m
  | 0, _, _, _ => rfl
  | b + 1, m, hm, h => by
    unfold tetMod
    by_cases h1 : m = 1
    · rw [if_pos h1, if_pos h1]
    by_cases ha0 : a = 0
    · rw [if_neg h1, if_neg h1, if_pos ha0, if_pos ha0]
    by_cases ha1 : a = 1
    · rw [if_neg h1, if_neg h1, if_neg ha0, if_neg ha0, if_pos ha1, if_pos ha1]
    rw [if_neg h1, if_neg h1, if_neg ha0, if_neg ha0, if_neg ha1, if_neg ha1, prepare_prm prm (fun n => .ok (decide n.Prime)) rnd pf (by omega) hm h]
    obtain ⟨o, e, -, ho⟩ := prepare_tot (prm := fun n => .ok (decide n.Prime)) (fun _ _ => rfl) rnd hpf (a := a) (by omega) hm (show m < 2 ^ 31 by omega)
    rw [e, ok_bind, ok_bind]
    cases o with
    | none => rfl
    | some q =>
      obtain ⟨m0, hS, hphi⟩ := ho q rfl
      have hm0 : m0 ≤ m := (Nat.le_mul_of_pos_right _ (Nat.two_pow_pos _)).trans hS.small
      have hle := Nat.totient_le m0
      dsimp only
      rw [tetMod_prm prm rnd hpf a b q.2 (by rw [hphi]; exact Nat.totient_pos.2 hS.pos) (by omega)]

/-- **C114** for `m <= 10^6`, with the library's own primality test (or any other one): the result is `a ↑↑ b mod m`, without further conditions. -/
theorem tetMod_small (prm : Nat → M Bool) (rnd : Nat → List Nat) (pf : Array Nat) (c : Nat) (hpf : WheelSieve.after 1000000 (c + 1) = .ok pf) (a b m : Nat)
    (ha : a < 2 ^ 31) (hm : 0 < m) (hb : m ≤ 1000000) : tetMod prm rnd pf a b m = .ok (some (tower a b % m)) := by
  rw [tetMod_prm prm rnd hpf a b m hm hb]
  obtain ⟨o, e, h1, h2⟩ := tetMod_correct (fun n => .ok (decide n.Prime)) (fun _ _ => rfl) rnd pf c hpf a b m ha hm (by omega)
  cases o with
  | none => exact absurd rfl (h1 hb)
  | some r => rw [e, h2 r rfl]

/-- The hypotheses are met: `2 ↑↑ 5 mod 1000 = 736`. -/
example : ∃ pf, WheelSieve.after 1000000 1 = .ok pf ∧ tetMod MillerRabin.isPrime (fun _ => []) pf 2 5 1000 = .ok (some 736) := by
  obtain ⟨pf, e, -⟩ := WheelSieve.sieve_correct 1000000 0 (by norm_num)
  refine ⟨pf, e, ?_⟩
  rw [tetMod_small MillerRabin.isPrime (fun _ => []) pf 0 e 2 5 1000 (by norm_num) (by norm_num) (by norm_num),
    show tower 2 5 = 2 ^ (2 ^ 16) by simp [tower], ← MillerRabin.powMod_eq 1000 (by norm_num) 17 _ _ (by norm_num)]
  congr 2

end Tetration
