import Verif.Proof.SternBrocot
import Verif.Spec.SternBrocotNode
import Mathlib.Data.List.Chain

/-! # Proofs for `sbt_node` -/

namespace SBT
open Cxx SternBrocot

/-- Bounds and depth are representable. -/
structure Fits (B : Int) (ds : List Bool) : Prop where
  l1 : ((bounds ds).1.1 : Int) < B
  l2 : ((bounds ds).1.2 : Int) < B
  r1 : ((bounds ds).2.1 : Int) < B
  r2 : ((bounds ds).2.2 : Int) < B
  len : (ds.length : Int) < B

theorem canonical_iff (p : List (Bool × Nat)) : Canonical p ↔ (∀ r ∈ p, 0 < r.2) ∧ p.IsChain fun a b => a.1 ≠ b.1 := by
  induction p with
  | nil => simp [Canonical]
  | cons r p ih =>
    cases p with
    | nil => simp [Canonical]
    | cons s t =>
      rw [Canonical, ih, List.isChain_cons_cons]
      constructor
      · rintro ⟨h1, h2, h3, h4⟩
        exact ⟨fun x hx => by
          rcases List.mem_cons.1 hx with rfl | hx
          · exact h1
          · exact h3 x hx, h2, h4⟩
      · rintro ⟨h1, h2, h3⟩
        exact ⟨h1 r List.mem_cons_self, h2, fun x hx => h1 x (List.mem_cons_of_mem _ hx), h3⟩

theorem expand_append (p q : List (Bool × Nat)) : expand (p ++ q) = expand p ++ expand q := by simp [expand]

theorem expand_cons (r : Bool × Nat) (q : List (Bool × Nat)) : expand (r :: q) = List.replicate r.2 r.1 ++ expand q := by simp [expand]

theorem expand_singleton (d : Bool) (c : Nat) : expand [(d, c)] = List.replicate c d := by simp [expand]

theorem castPath_append (p q : List (Bool × Nat)) : castPath (p ++ q) = castPath p ++ castPath q := by simp [castPath]

theorem Fits.prefix {B : Int} {ds es : List Bool} (h : Fits B (ds ++ es)) : Fits B ds := by
  obtain ⟨h1, h2, h3, h4⟩ := bounds_mono ds es
  have := h.len
  rw [List.length_append] at this
  exact ⟨by have := h.l1; omega, by have := h.l2; omega, by have := h.r1; omega, by have := h.r2; omega, by omega⟩

theorem fit_ok {B x : Int} (h : -B ≤ x ∧ x < B) : fit B x = .ok x := if_pos h

theorem rep_root : Rep root [] := ⟨rfl, rfl, rfl, [], rfl, rfl, trivial⟩

theorem addMul_eq {B : Int} {x y : Nat × Nat} {k : Nat} (h1 : ((x.1 + y.1 * k : Nat) : Int) < B) (h2 : ((x.2 + y.2 * k : Nat) : Int) < B) :
    addMul B (cast x) (cast y) k = .ok (cast (x.1 + y.1 * k, x.2 + y.2 * k)) := by
  have e1 : ((y.1 : Int) * k) = ((y.1 * k : Nat) : Int) := by push_cast; rfl
  have e2 : ((y.2 : Int) * k) = ((y.2 * k : Nat) : Int) := by push_cast; rfl
  rw [addMul, cast, cast]
  dsimp only
  rw [e1, e2, fit_ok ⟨by omega, by omega⟩, ok_bind, fit_ok ⟨by omega, by omega⟩, ok_bind, fit_ok ⟨by omega, by omega⟩, ok_bind, fit_ok ⟨by omega, by omega⟩, ok_bind]
  rfl

theorem subMul_eq {B : Int} {x y : Nat × Nat} {k : Nat} (h1 : ((x.1 + y.1 * k : Nat) : Int) < B) (h2 : ((x.2 + y.2 * k : Nat) : Int) < B) :
    subMul B (cast (x.1 + y.1 * k, x.2 + y.2 * k)) (cast y) k = .ok (cast x) := by
  have e1 : ((y.1 : Int) * k) = ((y.1 * k : Nat) : Int) := by push_cast; rfl
  have e2 : ((y.2 : Int) * k) = ((y.2 * k : Nat) : Int) := by push_cast; rfl
  rw [subMul, cast, cast]
  dsimp only
  rw [e1, e2, fit_ok ⟨by omega, by omega⟩, ok_bind, fit_ok ⟨by omega, by omega⟩, ok_bind, fit_ok ⟨by omega, by omega⟩, ok_bind, fit_ok ⟨by omega, by omega⟩, ok_bind]
  refine congrArg Except.ok (Prod.ext ?_ ?_)
  · show ((x.1 + y.1 * k : Nat) : Int) - ((y.1 * k : Nat) : Int) = x.1
    omega
  · show ((x.2 + y.2 * k : Nat) : Int) - ((y.2 * k : Nat) : Int) = x.2
    omega

theorem extend_tot {B : Int} {p : List (Bool × Nat)} {dir : Bool} {k : Nat} (hk : 0 < k) (hp : Canonical p) (hB : ((expand p ++ List.replicate k dir).length : Int) < B) :
    Tot (extend B (castPath p) dir k) fun q' => ∃ q, q' = castPath q ∧ expand q = expand p ++ List.replicate k dir ∧ Canonical q := by
  rw [canonical_iff] at hp
  rw [extend]
  rcases List.eq_nil_or_concat p with rfl | ⟨p', ⟨d, c⟩, rfl⟩
  · refine Tot.pure ⟨[(dir, k)], rfl, by simp [expand], ?_⟩
    exact hk
  · rw [List.concat_eq_append] at *
    have hlast : (castPath (p' ++ [(d, c)])).getLast? = some (d, (c : Int)) := by simp [castPath]
    have hdrop : (castPath (p' ++ [(d, c)])).dropLast = castPath p' := by simp [castPath]
    rw [hlast]
    dsimp only
    rw [List.isChain_append] at hp
    by_cases hd : d = dir
    · subst hd
      rw [if_pos rfl, hdrop]
      have hlen : ((c + k : Nat) : Int) < B := by
        rw [expand_append, expand_singleton] at hB
        simp only [List.length_append, List.length_replicate] at hB
        omega
      rw [fit_ok ⟨by omega, by omega⟩, ok_bind]
      refine Tot.pure ⟨p' ++ [(d, c + k)], ?_, ?_, ?_⟩
      · rw [castPath_append]
        simp [castPath]
      · rw [expand_append, expand_append, expand_singleton, expand_singleton, List.append_assoc, List.replicate_append_replicate]
      · rw [canonical_iff, List.isChain_append]
        refine ⟨fun r hr => ?_, hp.2.1, List.isChain_singleton _, fun x hx y hy => ?_⟩
        · rcases List.mem_append.1 hr with hr | hr
          · exact hp.1 r (List.mem_append_left _ hr)
          · simp at hr
            rw [hr]
            show 0 < c + k
            omega
        · simp at hy
          rw [← hy]
          exact hp.2.2.2 x hx (d, c) (by simp)
    · rw [if_neg hd]
      refine Tot.pure ⟨p' ++ [(d, c)] ++ [(dir, k)], ?_, ?_, ?_⟩
      · rw [castPath_append _ [(dir, k)]]
        rfl
      · rw [expand_append _ [(dir, k)], expand_singleton]
      · rw [canonical_iff, List.isChain_append]
        refine ⟨fun r hr => ?_, List.isChain_append.2 hp.2, List.isChain_singleton _, fun x hx y hy => ?_⟩
        · rcases List.mem_append.1 hr with hr | hr
          · exact hp.1 r hr
          · simp at hr
            rw [hr]
            exact hk
        · simp at hx hy
          rw [← hx, ← hy]
          exact hd

theorem moveDown_tot {B : Int} {s : Node} {ds : List Bool} (h : Rep s ds) {dir : Bool} {k : Nat} (hf : Fits B (ds ++ List.replicate k dir)) :
    Tot (moveDown B s dir k) fun s' => Rep s' (ds ++ List.replicate k dir) := by
  obtain ⟨p, hp1, hp2, hp3⟩ := h.path
  rw [moveDown, show decide ((0 : Int) ≤ k) = true by simp, check_true, ok_bind]
  by_cases hk : (k : Int) = 0
  · rw [if_pos hk]
    have : k = 0 := by omega
    subst this
    exact Tot.pure (by simpa using h)
  · rw [if_neg hk, hp1]
    refine Tot.bind (extend_tot (by omega) hp3 (by rw [hp2]; exact hf.len)) ?_
    rintro q' ⟨q, rfl, q2, q3⟩
    have hlen := hf.len
    rw [List.length_append, List.length_replicate] at hlen
    rw [h.dep, fit_ok ⟨by omega, by omega⟩, ok_bind, descend, h.l, h.r]
    cases dir
    · have hb := bounds_replicate_left ds k
      rw [if_pos rfl, addMul_eq (by have := hf.r1; rw [hb] at this; exact this) (by have := hf.r2; rw [hb] at this; exact this), ok_bind, pure_eq, ok_bind]
      exact Tot.pure ⟨by rw [hb], by rw [hb], by dsimp only; rw [List.length_append, List.length_replicate]; omega, q, rfl, by rw [q2, hp2], q3⟩
    · have hb := bounds_replicate_right ds k
      rw [if_neg (by decide), addMul_eq (by have := hf.l1; rw [hb] at this; exact this) (by have := hf.l2; rw [hb] at this; exact this), ok_bind, pure_eq, ok_bind]
      exact Tot.pure ⟨by rw [hb], by rw [hb], by dsimp only; rw [List.length_append, List.length_replicate]; omega, q, rfl, by rw [q2, hp2], q3⟩

theorem ofPath_tot {B : Int} (p : List (Bool × Nat)) (hf : Fits B (expand p)) : Tot (ofPath B (castPath p)) fun s => Rep s (expand p) := by
  have key : ∀ (q : List (Bool × Nat)) (s : Node) (ds : List Bool), Rep s ds → Fits B (ds ++ expand q) →
      Tot (forEach (castPath q) s fun s r => moveDown B s r.1 r.2) fun s => Rep s (ds ++ expand q) := by
    intro q
    induction q with
    | nil =>
      intro s ds h _
      exact Tot.pure (by simpa [expand] using h)
    | cons r q ih =>
      intro s ds h hf
      rw [expand_cons, ← List.append_assoc] at hf ⊢
      show Tot (moveDown B s r.1 (r.2 : Int) >>= fun s => forEach (castPath q) s fun s r => moveDown B s r.1 r.2) _
      refine Tot.bind (moveDown_tot h hf.prefix) ?_
      intro s' hs'
      exact ih s' _ hs' hf
  have := key p root [] rep_root (by simpa using hf)
  rw [ofPath]
  simpa using this

theorem get_tot {B : Int} {s : Node} {ds : List Bool} (h : Rep s ds) (h1 : ((value ds).1 : Int) < B) (h2 : ((value ds).2 : Int) < B) : get B s = .ok (cast (value ds)) := by
  have e1 : s.l.1 + s.r.1 = ((value ds).1 : Int) := by rw [h.l, h.r]; simp [cast, value]
  have e2 : s.l.2 + s.r.2 = ((value ds).2 : Int) := by rw [h.l, h.r]; simp [cast, value]
  rw [get, e1, e2, fit_ok ⟨by omega, by omega⟩, ok_bind, fit_ok ⟨by omega, by omega⟩, ok_bind]
  rfl

/-! ## The constructor -/

/-- State of the constructor for `m / n`. -/
def CfInv (B : Int) (m n : Nat) (c : Cf) : Prop :=
  ∃ ds a b, Rep c.s ds ∧ Fits B ds ∧ c.a = (a : Nat) ∧ c.b = (b : Nat) ∧ Nat.gcd a b = Nat.gcd m n ∧ 0 < a ∧
    (b = 0 → m = a * (value ds).1 ∧ n = a * (value ds).2) ∧
    (b ≠ 0 → b ≤ a ∧ ds.length + a ≤ max m n ∧
      if c.dir then m = a * (bounds ds).2.1 + b * (bounds ds).1.1 ∧ n = a * (bounds ds).2.2 + b * (bounds ds).1.2
      else m = a * (bounds ds).1.1 + b * (bounds ds).2.1 ∧ n = a * (bounds ds).1.2 + b * (bounds ds).2.2)

theorem le_mul_of_pos {x a : Nat} (h : 0 < a) : x ≤ a * x := Nat.le_mul_of_pos_left x h

theorem cfStep_tot {B : Int} {m n : Nat} (hm : (m : Int) < B) (hn : (n : Int) < B) {c : Cf} (h : CfInv B m n c) :
    Tot (cfStep B c) fun
      | none => CfInv B m n c ∧ c.b = 0
      | some c' => CfInv B m n c' ∧ c'.b.toNat < c.b.toNat := by
  have h0 := h
  obtain ⟨ds, a, b, hs, hf, ha, hb, hg, hpos, -, hinv⟩ := h
  rw [cfStep]
  by_cases hb0 : c.b ≠ 0
  · rw [if_pos hb0]
    have hbn : b ≠ 0 := fun e => hb0 (by rw [hb, e]; rfl)
    obtain ⟨hba, hlen, heq⟩ := hinv hbn
    dsimp only
    have eq1 : c.a / c.b = ((a / b : Nat) : Int) := by rw [ha, hb]; norm_cast
    have eq2 : c.a % c.b = ((a % b : Nat) : Int) := by rw [ha, hb]; norm_cast
    rw [eq1, eq2]
    have hdm := Nat.div_add_mod a b
    have hq : 1 ≤ a / b := (Nat.one_le_div_iff (by omega)).2 hba
    have hr := Nat.mod_lt a (by omega : 0 < b)
    generalize a / b = q at *
    generalize a % b = r at hdm hr ⊢
    obtain ⟨k, hk⟩ : ∃ k : Nat, k = q - if r = 0 then 1 else 0 := ⟨_, rfl⟩
    have ek : (q : Int) - (if (r : Int) = 0 then 1 else 0) = (k : Int) := by
      rw [hk]
      by_cases h : r = 0
      · rw [if_pos (by omega), if_pos h]; omega
      · rw [if_neg (by omega), if_neg h]; omega
    rw [ek]
    have hgcd : Nat.gcd b r = Nat.gcd m n := by
      rw [← hg, ← hdm, Nat.gcd_comm (b * q + r) b, Nat.add_comm, Nat.gcd_add_mul_left_right]
    have hlen' : ds.length + k + (if r = 0 then 0 else b) ≤ max m n := by
      have hbq : q + b ≤ b * q + 1 := by nlinarith
      by_cases h : r = 0
      · rw [if_pos h] at hk ⊢
        omega
      · rw [if_neg h] at hk ⊢
        omega
    have hval : (r = 0 → m = b * (value (ds ++ List.replicate k c.dir)).1 ∧ n = b * (value (ds ++ List.replicate k c.dir)).2) ∧
        (r ≠ 0 → if !c.dir then m = b * (bounds (ds ++ List.replicate k c.dir)).2.1 + r * (bounds (ds ++ List.replicate k c.dir)).1.1 ∧ n = b * (bounds (ds ++ List.replicate k c.dir)).2.2 + r * (bounds (ds ++ List.replicate k c.dir)).1.2
          else m = b * (bounds (ds ++ List.replicate k c.dir)).1.1 + r * (bounds (ds ++ List.replicate k c.dir)).2.1 ∧ n = b * (bounds (ds ++ List.replicate k c.dir)).1.2 + r * (bounds (ds ++ List.replicate k c.dir)).2.2) := by
      subst hdm
      cases hd : c.dir
      · rw [hd] at heq
        simp only [Bool.false_eq_true, if_false] at heq
        rw [value, bounds_replicate_left]
        refine ⟨fun h => ?_, fun h => ?_⟩
        · subst h
          have hk' : q = k + 1 := by rw [if_pos rfl] at hk; omega
          subst hk'
          simp only
          constructor
          · rw [heq.1]; ring
          · rw [heq.2]; ring
        · rw [if_neg h, Nat.sub_zero] at hk
          subst hk
          simp only [Bool.not_false, if_true]
          constructor
          · rw [heq.1]; ring
          · rw [heq.2]; ring
      · rw [hd] at heq
        simp only [if_true] at heq
        rw [value, bounds_replicate_right]
        refine ⟨fun h => ?_, fun h => ?_⟩
        · subst h
          have hk' : q = k + 1 := by rw [if_pos rfl] at hk; omega
          subst hk'
          simp only
          constructor
          · rw [heq.1]; ring
          · rw [heq.2]; ring
        · rw [if_neg h, Nat.sub_zero] at hk
          subst hk
          simp only [Bool.not_true, Bool.false_eq_true, if_false]
          constructor
          · rw [heq.1]; ring
          · rw [heq.2]; ring
    have hfit : Fits B (ds ++ List.replicate k c.dir) := by
      have hl : ((ds ++ List.replicate k c.dir).length : Int) < B := by
        rw [List.length_append, List.length_replicate]
        have : ds.length + k ≤ max m n := by split at hlen' <;> omega
        rcases Nat.le_total m n with h | h
        · rw [Nat.max_eq_right h] at this; omega
        · rw [Nat.max_eq_left h] at this; omega
      generalize ds ++ List.replicate k c.dir = es at hval hl
      by_cases h : r = 0
      · obtain ⟨h1, h2⟩ := hval.1 h
        have k1 := le_mul_of_pos (x := (value es).1) (by omega : 0 < b)
        have k2 := le_mul_of_pos (x := (value es).2) (by omega : 0 < b)
        simp only [value] at h1 h2 k1 k2
        exact ⟨by omega, by omega, by omega, by omega, hl⟩
      · have h' := hval.2 h
        have b1 : ∀ x, x ≤ b * x := fun x => le_mul_of_pos (by omega)
        have r1 : ∀ x, x ≤ r * x := fun x => le_mul_of_pos (by omega)
        have c1 := b1 (bounds es).1.1
        have c2 := b1 (bounds es).1.2
        have c3 := b1 (bounds es).2.1
        have c4 := b1 (bounds es).2.2
        have c5 := r1 (bounds es).1.1
        have c6 := r1 (bounds es).1.2
        have c7 := r1 (bounds es).2.1
        have c8 := r1 (bounds es).2.2
        split at h'
        · exact ⟨by omega, by omega, by omega, by omega, hl⟩
        · exact ⟨by omega, by omega, by omega, by omega, hl⟩
    refine Tot.bind (moveDown_tot hs hfit) ?_
    intro s' hs'
    refine Tot.pure ⟨⟨_, b, r, hs', hfit, hb, rfl, hgcd, by omega, hval.1, fun h => ⟨by omega, ?_, hval.2 h⟩⟩, ?_⟩
    · rw [List.length_append, List.length_replicate]
      rw [if_neg h] at hlen'
      exact hlen'
    · show (r : Int).toNat < c.b.toNat
      rw [hb]
      simpa using hr
  · rw [if_neg hb0]
    exact Tot.pure ⟨h0, by omega⟩

theorem make_tot {B : Int} {m n : Nat} (hm0 : 0 < m) (hn0 : 0 < n) (hm : (m : Int) < B) (hn : (n : Int) < B) :
    Tot (make B m n) fun s => ∃ ds, Rep s ds ∧ Fits B ds ∧ value ds = (m / Nat.gcd m n, n / Nat.gcd m n) := by
  rw [make, show (decide ((m : Int) > 0) && decide ((n : Int) > 0)) = true by simp [hm0, hn0], check_true, ok_bind]
  have hroot : Fits B [] := ⟨by simp [bounds]; omega, by simp [bounds]; omega, by simp [bounds]; omega, by simp [bounds]; omega, by simp; omega⟩
  refine Tot.bind (P := fun c => CfInv B m n c ∧ c.b = 0) ?_ ?_
  · refine Tot.loop (P := CfInv B m n) (fun c => c.b.toNat) (fun c h => ?_) ?_ ?_
    · refine (cfStep_tot hm hn h).mono ?_
      intro r hr
      cases r with
      | none => exact hr
      | some c' => exact hr
    · by_cases h : (m : Int) < n
      · rw [if_pos h]
        refine ⟨[], n, m, rep_root, hroot, rfl, rfl, Nat.gcd_comm _ _, hn0, fun e => by omega, fun _ => ⟨by omega, by simp, ?_⟩⟩
        simp [bounds]
      · rw [if_neg h]
        refine ⟨[], m, n, rep_root, hroot, rfl, rfl, rfl, hm0, fun e => by omega, fun _ => ⟨by omega, by simp, ?_⟩⟩
        simp [bounds]
    · split <;> dsimp only <;> omega
  · rintro c ⟨⟨ds, a, b, hs, hf, ha, hb, hg, hpos, h0, -⟩, hb0⟩
    have hbz : b = 0 := by omega
    subst hbz
    rw [Nat.gcd_zero_right] at hg
    obtain ⟨h1, h2⟩ := h0 rfl
    refine Tot.pure ⟨ds, hs, hf, ?_⟩
    rw [← hg]
    refine Prod.ext ?_ ?_
    · exact (Nat.div_eq_of_eq_mul_right hpos h1).symm
    · exact (Nat.div_eq_of_eq_mul_right hpos h2).symm

/-! ## `lca` -/

theorem lcp_append (p s t : List Bool) : lcp (p ++ s) (p ++ t) = p ++ lcp s t := by
  induction p with
  | nil => rfl
  | cons x p ih => rw [List.cons_append, List.cons_append, lcp, if_pos rfl, ih, List.cons_append]

theorem lcp_prefix (a b : List Bool) : lcp a b <+: a ∧ lcp a b <+: b := by
  obtain ⟨p, s, t, rfl, rfl, h, -⟩ := split a b
  rw [h]
  exact ⟨List.prefix_append _ _, List.prefix_append _ _⟩

theorem head_expand {d : Bool} {c : Nat} {p : List (Bool × Nat)} (h : Canonical ((d, c) :: p)) (b : List Bool) (k : Nat) : lcp (expand p) (List.replicate (k + 1) d ++ b) = [] ∧ lcp (List.replicate (k + 1) d ++ b) (expand p) = [] := by
  rw [canonical_iff] at h
  cases p with
  | nil => exact ⟨rfl, by cases k <;> rfl⟩
  | cons r p =>
    obtain ⟨d', c'⟩ := r
    have h1 : 0 < c' := h.1 (d', c') (by simp)
    have h2 : d ≠ d' := (List.isChain_cons_cons.1 h.2).1
    obtain ⟨c'', rfl⟩ : ∃ c'', c' = c'' + 1 := ⟨c' - 1, by omega⟩
    rw [expand_cons, List.replicate_succ, List.replicate_succ]
    exact ⟨by simp only [List.cons_append, lcp]; rw [if_neg (Ne.symm h2)], by simp only [List.cons_append, lcp]; rw [if_neg h2]⟩

theorem canonical_tail {r : Bool × Nat} {p : List (Bool × Nat)} (h : Canonical (r :: p)) : Canonical p := by
  cases p with
  | nil => trivial
  | cons s t => exact h.2.2

theorem lcaLoop_tot {B : Int} (pa pb : List (Bool × Nat)) (ha : Canonical pa) (hb : Canonical pb) (c : Node) (ds : List Bool) (h : Rep c ds) (hf : Fits B (ds ++ expand pa)) :
    Tot (lcaLoop B (castPath pa) (castPath pb) c) fun s => Rep s (ds ++ lcp (expand pa) (expand pb)) := by
  induction pa generalizing pb c ds with
  | nil =>
    have : lcp (expand []) (expand pb) = [] := by
      show lcp [] _ = []
      cases expand pb <;> rfl
    rw [this, List.append_nil]
    cases pb <;> exact Tot.pure h
  | cons x pa ih =>
    cases pb with
    | nil =>
      have : lcp (expand (x :: pa)) (expand []) = [] := by
        show lcp _ [] = []
        cases expand (x :: pa) <;> rfl
      rw [this, List.append_nil]
      exact Tot.pure h
    | cons y pb =>
      obtain ⟨d, c1⟩ := x
      obtain ⟨d', c2⟩ := y
      have hc1 : 0 < c1 := ((canonical_iff _).1 ha).1 (d, c1) (by simp)
      have hc2 : 0 < c2 := ((canonical_iff _).1 hb).1 (d', c2) (by simp)
      show Tot (if (d, (c1 : Int)) = (d', (c2 : Int)) then (moveDown B c d c1 >>= fun c => lcaLoop B (castPath pa) (castPath pb) c)
        else if d = d' then moveDown B c d (min (c1 : Int) c2) else pure c) _
      rw [expand_cons] at hf
      rw [expand_cons, expand_cons]
      dsimp only at hf ⊢
      by_cases hdd : d = d'
      · subst hdd
        by_cases hcc : c1 = c2
        · subst hcc
          rw [if_pos rfl]
          rw [← List.append_assoc] at hf
          refine Tot.bind (moveDown_tot h hf.prefix) ?_
          intro s hs
          rw [lcp_append, ← List.append_assoc]
          exact ih pb (canonical_tail ha) (canonical_tail hb) s _ hs hf
        · rw [if_neg (by simp only [Prod.mk.injEq, true_and]; omega), if_pos rfl]
          have hmin : min (c1 : Int) c2 = ((min c1 c2 : Nat) : Int) := by push_cast; rfl
          rw [hmin]
          have hl : lcp (List.replicate c1 d ++ expand pa) (List.replicate c2 d ++ expand pb) = List.replicate (min c1 c2) d := by
            rcases Nat.lt_or_gt_of_ne hcc with hlt | hlt
            · obtain ⟨k, rfl⟩ : ∃ k, c2 = c1 + (k + 1) := ⟨c2 - c1 - 1, by omega⟩
              rw [← List.replicate_append_replicate, List.append_assoc, lcp_append, (head_expand ha _ _).1, Nat.min_eq_left (by omega), List.append_nil]
            · obtain ⟨k, rfl⟩ : ∃ k, c1 = c2 + (k + 1) := ⟨c1 - c2 - 1, by omega⟩
              rw [← List.replicate_append_replicate, List.append_assoc, lcp_append, (head_expand hb _ _).2, Nat.min_eq_right (by omega), List.append_nil]
          rw [hl]
          refine moveDown_tot h ?_
          have : List.replicate c1 d = List.replicate (min c1 c2) d ++ List.replicate (c1 - min c1 c2) d := by
            rw [List.replicate_append_replicate]
            congr 1
            omega
          rw [this, List.append_assoc, ← List.append_assoc] at hf
          exact hf.prefix
      · rw [if_neg (by simp only [Prod.mk.injEq]; exact fun h => hdd h.1), if_neg hdd]
        have hl : lcp (List.replicate c1 d ++ expand pa) (List.replicate c2 d' ++ expand pb) = [] := by
          obtain ⟨k1, rfl⟩ : ∃ k, c1 = k + 1 := ⟨c1 - 1, by omega⟩
          obtain ⟨k2, rfl⟩ : ∃ k, c2 = k + 1 := ⟨c2 - 1, by omega⟩
          rw [List.replicate_succ, List.replicate_succ]
          simp only [List.cons_append, lcp]
          rw [if_neg hdd]
        rw [hl, List.append_nil]
        exact Tot.pure h

theorem lca_tot {B : Int} {a b : Node} {da db : List Bool} (ha : Rep a da) (hb : Rep b db) (hf : Fits B da) : Tot (lca B a b) fun s => Rep s (lcp da db) := by
  obtain ⟨pa, a1, rfl, a3⟩ := ha.path
  obtain ⟨pb, b1, rfl, b3⟩ := hb.path
  rw [lca, a1, b1]
  have := lcaLoop_tot (B := B) pa pb a3 b3 root [] rep_root (by simpa using hf)
  simpa using this

/-! ## `less` and the ancestor test -/

theorem less_iff {B W : Int} (hW : B * B ≤ W) {a b : Nat × Nat} (ha1 : (a.1 : Int) < B) (ha2 : (a.2 : Int) < B) (hb1 : (b.1 : Int) < B) (hb2 : (b.2 : Int) < B) :
    less W (cast a) (cast b) = true ↔ Lt a b := by
  have hlt : ∀ x y : Nat, (x : Int) < B → (y : Int) < B → (x * y : Int) < W := by
    intro x y hx hy
    have h1 : (x * y : Int) ≤ (B - 1) * (B - 1) := mul_le_mul (by omega) (by omega) (by omega) (by omega)
    have h2 : (B - 1) * (B - 1) < B * B := by nlinarith
    omega
  rw [less, decide_eq_true_eq, cast, cast]
  dsimp only
  rw [Int.emod_eq_of_lt (by positivity) (hlt _ _ ha1 hb2), Int.emod_eq_of_lt (by positivity) (hlt _ _ hb1 ha2), Lt]
  norm_cast

theorem isAncestorOf_tot {B W : Int} (hW : B * B ≤ W) {s a : Node} {ds da : List Bool} (hs : Rep s ds) (ha : Rep a da) (hf : Fits B ds) (hv : ValFits B da) :
    ∃ b, isAncestorOf B W s a = .ok b ∧ (b = true ↔ ds <+: da) := by
  refine ⟨less W s.l (cast (value da)) && less W (cast (value da)) s.r, ?_, ?_⟩
  · rw [isAncestorOf, get_tot ha hv.1 hv.2]
    rfl
  · rw [Bool.and_eq_true, hs.l, hs.r, less_iff hW hf.l1 hf.l2 hv.1 hv.2, less_iff hW hv.1 hv.2 hf.r1 hf.r2, between_iff]

/-! ## `move_up` -/

theorem take_append_replicate (e : List Bool) (c u : Nat) (d : Bool) (h : u ≤ c) (k : Nat) (hk : u ≤ k) :
    (e ++ List.replicate c d).take ((e ++ List.replicate c d).length - k) = (e ++ List.replicate (c - u) d).take ((e ++ List.replicate (c - u) d).length - (k - u)) := by
  have e1 : e ++ List.replicate c d = (e ++ List.replicate (c - u) d) ++ List.replicate u d := by
    rw [List.append_assoc, List.replicate_append_replicate]
    congr 2
    omega
  rw [e1]
  generalize e ++ List.replicate (c - u) d = f
  rw [List.length_append, List.length_replicate, show f.length + u - k = f.length - (k - u) by omega, List.take_append_of_le_length (by omega)]

theorem upRun_tot {B : Int} {k : Nat} {s : Node} {d : Bool} {c : Nat} {p : List (Bool × Nat)} (hs : Rep s (expand (p ++ [(d, c)]))) (hp : s.path = castPath (p ++ [(d, c)])) (hc : Canonical (p ++ [(d, c)]))
    (hf : Fits B (expand (p ++ [(d, c)]))) (hk : (k : Int) < B) :
    Tot (upRun B k s d c) fun r => r.1 = ((k - min k c : Nat) : Int) ∧ Rep r.2 (expand p ++ List.replicate (c - min k c) d) ∧
      r.2.path = castPath (if c - min k c = 0 then p else p ++ [(d, c - min k c)]) := by
  rw [expand_append, expand_singleton] at hs hf
  have hmin : min (k : Int) c = ((min k c : Nat) : Int) := by push_cast; rfl
  have hu1 := Nat.min_le_left k c
  have hu2 := Nat.min_le_right k c
  rw [upRun, hmin]
  generalize min k c = u at *
  have e1 : expand p ++ List.replicate c d = (expand p ++ List.replicate (c - u) d) ++ List.replicate u d := by
    rw [List.append_assoc, List.replicate_append_replicate]
    congr 2
    omega
  have hlen := hf.len
  have hll : (expand p ++ List.replicate c d).length = (expand p).length + c := by rw [List.length_append, List.length_replicate]
  rw [hll] at hlen
  rw [fit_ok ⟨by omega, by omega⟩, ok_bind, hs.dep, hll, fit_ok ⟨by omega, by omega⟩, ok_bind, ascend, hs.l, hs.r]
  rw [e1] at hf ⊢
  have hdrop : s.path.dropLast = castPath p := by rw [hp, castPath_append]; simp [castPath]
  have hcan : Canonical (if c - u = 0 then p else p ++ [(d, c - u)]) := by
    rw [canonical_iff] at hc
    rw [List.isChain_append] at hc
    split
    · rw [canonical_iff]
      exact ⟨fun r hr => hc.1 r (List.mem_append_left _ hr), hc.2.1⟩
    · rw [canonical_iff, List.isChain_append]
      refine ⟨fun r hr => ?_, hc.2.1, List.isChain_singleton _, fun x hx y hy => ?_⟩
      · rcases List.mem_append.1 hr with hr | hr
        · exact hc.1 r (List.mem_append_left _ hr)
        · simp at hr
          rw [hr]
          show 0 < c - u
          omega
      · simp at hy
        rw [← hy]
        exact hc.2.2.2 x hx (d, c) (by simp)
  have hexp : expand (if c - u = 0 then p else p ++ [(d, c - u)]) = expand p ++ List.replicate (c - u) d := by
    split
    · rename_i h
      rw [h, List.replicate_zero, List.append_nil]
    · rw [expand_append, expand_singleton]
  have hpath : (if (c : Int) - u = 0 then castPath p else castPath p ++ [(d, (c : Int) - u)]) = castPath (if c - u = 0 then p else p ++ [(d, c - u)]) := by
    by_cases h : c - u = 0
    · rw [if_pos h, if_pos (by omega)]
    · rw [if_neg h, if_neg (by omega), castPath_append]
      simp only [castPath, List.map_cons, List.map_nil]
      congr 3
      omega
  have hl2 : ((expand p).length + c : Nat) - u = (expand p ++ List.replicate (c - u) d).length := by
    rw [List.length_append, List.length_replicate]
    omega
  generalize expand p ++ List.replicate (c - u) d = es at *
  cases d
  · have hb := bounds_replicate_left es u
    have h1 := hf.r1
    have h2 := hf.r2
    rw [hb] at h1 h2 ⊢
    rw [if_pos rfl]
    dsimp only
    rw [subMul_eq h1 h2, ok_bind, pure_eq, ok_bind, fit_ok ⟨by omega, by omega⟩, ok_bind]
    refine Tot.pure ⟨by dsimp only; omega, ⟨rfl, rfl, by dsimp only; omega, _, ?_, hexp, hcan⟩, ?_⟩
    · dsimp only; rw [hdrop, hpath]
    · dsimp only; rw [hdrop, hpath]
  · have hb := bounds_replicate_right es u
    have h1 := hf.l1
    have h2 := hf.l2
    rw [hb] at h1 h2 ⊢
    rw [if_neg (by decide)]
    dsimp only
    rw [subMul_eq h1 h2, ok_bind, pure_eq, ok_bind, fit_ok ⟨by omega, by omega⟩, ok_bind]
    refine Tot.pure ⟨by dsimp only; omega, ⟨rfl, rfl, by dsimp only; omega, _, ?_, hexp, hcan⟩, ?_⟩
    · dsimp only; rw [hdrop, hpath]
    · dsimp only; rw [hdrop, hpath]

theorem moveUp_tot {B : Int} {s : Node} {ds : List Bool} (hs : Rep s ds) (hf : Fits B ds) {k : Nat} (hk : k ≤ ds.length) :
    Tot (moveUp B s k) fun r => r.1 = true ∧ Rep r.2 (ds.take (ds.length - k)) := by
  have hdep := hs.dep
  rw [moveUp, if_neg (by omega)]
  refine Tot.bind (P := fun c => Rep c.2 (ds.take (ds.length - k))) ?_ (fun c hc => Tot.pure ⟨rfl, hc⟩)
  refine Tot.loop (P := fun (c : Int × Node) => ∃ (j : Nat) (es : List Bool), c.1 = j ∧ Rep c.2 es ∧ Fits B es ∧ j ≤ es.length ∧ es.take (es.length - j) = ds.take (ds.length - k))
    (fun c => if c.1 = 0 then 0 else c.2.path.length) ?_ ?_ ?_
  · rintro ⟨k', s'⟩ ⟨j, es, h1, h2, h3, h4, h5⟩
    dsimp only at h1 h2
    rw [upStep]
    dsimp only
    by_cases hk0 : k' ≠ 0
    · rw [if_pos hk0]
      obtain ⟨p, p1, p2, p3⟩ := h2.path
      rcases List.eq_nil_or_concat p with rfl | ⟨p', ⟨d, c⟩, rfl⟩
      · rw [← p2] at h4
        simp [expand] at h4
        omega
      · rw [List.concat_eq_append] at *
        have hlast : s'.path.getLast? = some (d, (c : Int)) := by rw [p1]; simp [castPath]
        rw [hlast]
        dsimp only
        have hjB : (j : Int) < B := by have := h3.len; omega
        rw [h1]
        subst p2
        refine Tot.bind (upRun_tot h2 p1 p3 h3 hjB) ?_
        rintro ⟨k2, s2⟩ ⟨q1, q2, q3⟩
        dsimp only at q1 q2 q3
        refine Tot.pure ⟨⟨j - min j c, _, q1, q2, ?_, ?_, ?_⟩, ?_⟩
        · have : expand (p' ++ [(d, c)]) = (expand p' ++ List.replicate (c - min j c) d) ++ List.replicate (min j c) d := by
            rw [expand_append, expand_singleton, List.append_assoc, List.replicate_append_replicate]
            congr 2
            omega
          rw [this] at h3
          exact h3.prefix
        · rw [expand_append, expand_singleton, List.length_append, List.length_replicate] at h4
          rw [List.length_append, List.length_replicate]
          omega
        · rw [← h5, expand_append, expand_singleton]
          exact (take_append_replicate _ c (min j c) d (Nat.min_le_right _ _) j (Nat.min_le_left _ _)).symm
        · dsimp only
          rw [if_neg (show ¬ (j : Int) = 0 by omega), q1, q3, p1]
          by_cases hz : c - min j c = 0
          · rw [if_pos hz]
            simp only [castPath, List.length_map, List.length_append, List.length_singleton]
            split <;> omega
          · rw [if_pos (by omega)]
            simp [castPath]
    · rw [if_neg hk0]
      have : j = 0 := by omega
      subst this
      refine Tot.pure ?_
      dsimp only
      rw [← h5, Nat.sub_zero, List.take_length]
      exact h2
  · exact ⟨k, ds, rfl, hs, hf, hk, rfl⟩
  · dsimp only
    split <;> omega

/-! ## Distance, `move_to` -/

theorem lcp_take_nil {s t : List Bool} (h : lcp s t = []) (j : Nat) : lcp (s.take j) t = [] ∧ lcp s (t.take j) = [] := by
  cases j with
  | zero => exact ⟨by cases t <;> rfl, by cases s <;> rfl⟩
  | succ j =>
    cases s with
    | nil => exact ⟨by cases t <;> rfl, by cases t <;> rfl⟩
    | cons x s =>
      cases t with
      | nil => exact ⟨rfl, rfl⟩
      | cons y t =>
        rw [lcp] at h
        split at h
        · simp at h
        · rename_i hne
          rw [List.take_succ_cons, List.take_succ_cons, lcp, lcp, if_neg hne]
          exact ⟨rfl, if_neg hne⟩

theorem dist_append {p s t : List Bool} (h : lcp s t = []) : SternBrocot.dist (p ++ s) (p ++ t) = s.length + t.length := by
  rw [SternBrocot.dist, lcp_append, h, List.append_nil, List.length_append, List.length_append]
  omega

theorem lcp_self (a : List Bool) : lcp a a = a := by
  induction a with
  | nil => rfl
  | cons x a ih => rw [lcp, if_pos rfl, ih]

theorem dist_take (a : List Bool) (k : Nat) (h : k ≤ a.length) : SternBrocot.dist a (a.take (a.length - k)) = k ∧ SternBrocot.dist (a.take (a.length - k)) a = k := by
  have e : a = a.take (a.length - k) ++ a.drop (a.length - k) := (List.take_append_drop _ _).symm
  have l1 : lcp (a.drop (a.length - k)) [] = [] := by cases a.drop (a.length - k) <;> rfl
  have l2 : lcp [] (a.drop (a.length - k)) = [] := by cases a.drop (a.length - k) <;> rfl
  have d1 := dist_append (p := a.take (a.length - k)) l1
  have d2 := dist_append (p := a.take (a.length - k)) l2
  rw [← e, List.append_nil, List.length_drop] at d1 d2
  simp at d1 d2
  omega

theorem dist_tot {B : Int} {a b : Node} {da db : List Bool} (ha : Rep a da) (hb : Rep b db) (hfa : Fits B da) (hfb : Fits B db) (hd : (SternBrocot.dist da db : Int) < B) :
    dist B a b = .ok (SternBrocot.dist da db : Int) := by
  obtain ⟨c, hc, hrep⟩ := lca_tot ha hb hfa
  obtain ⟨l1, l2⟩ := lcp_prefix da db
  have l1 := l1.length_le
  have l2 := l2.length_le
  have h1 := hfa.len
  have h2 := hfb.len
  rw [SternBrocot.dist] at hd ⊢
  rw [dist, hc, ok_bind, ha.dep, hb.dep, hrep.dep, fit_ok ⟨by omega, by omega⟩, ok_bind, fit_ok ⟨by omega, by omega⟩, ok_bind, fit_ok ⟨by omega, by omega⟩]
  congr 1
  omega

theorem moveUp_false {B : Int} {s : Node} {ds : List Bool} (hs : Rep s ds) {k : Int} (hk : k < 0 ∨ (ds.length : Int) < k) : moveUp B s k = .ok (false, s) := by
  have := hs.dep
  rw [moveUp, if_pos (by omega)]
  rfl

theorem moveTo_tot {B : Int} {a b : Node} {da db : List Bool} (ha : Rep a da) (hb : Rep b db) (hfa : Fits B da) (hfb : Fits B db) {k : Nat} (hk : k ≤ SternBrocot.dist da db) (hkB : (k : Int) < B) :
    Tot (moveTo B a b k) fun r => r.1 = true ∧ ∃ w, Rep r.2 w ∧ SternBrocot.dist da w = k ∧ SternBrocot.dist w db = SternBrocot.dist da db - k := by
  have hl := lca_tot ha hb hfa
  obtain ⟨p, s, t, rfl, rfl, h3, h4⟩ := split da db
  rw [h3] at hl
  obtain ⟨c, hc, hrep⟩ := hl
  have h1 := hfa.len
  have h2 := hfb.len
  rw [dist_append h4] at hk ⊢
  have e1 : (p ++ s).length = p.length + s.length := List.length_append
  have e2 : (p ++ t).length = p.length + t.length := List.length_append
  have f1 : a.dep - c.dep = (s.length : Int) := by rw [ha.dep, hrep.dep]; omega
  have f2 : b.dep - c.dep = (t.length : Int) := by rw [hb.dep, hrep.dep]; omega
  rw [moveTo, hc, ok_bind, f1, f2, fit_ok ⟨by omega, by omega⟩, ok_bind, fit_ok ⟨by omega, by omega⟩, ok_bind]
  by_cases hks : k ≤ s.length
  · rw [if_pos (by omega)]
    refine (moveUp_tot ha hfa (k := k) (by omega)).mono ?_
    rintro r ⟨r1, r2⟩
    refine ⟨r1, _, r2, (dist_take _ _ (by omega)).1, ?_⟩
    rw [show (p ++ s).length - k = p.length + (s.length - k) by omega, List.take_length_add_append, dist_append (lcp_take_nil h4 _).1, List.length_take]
    omega
  · rw [if_neg (by omega), fit_ok ⟨by omega, by omega⟩, ok_bind, if_neg (by omega), fit_ok ⟨by omega, by omega⟩, ok_bind]
    rw [show (t.length : Int) - ((k : Int) - s.length) = ((t.length - (k - s.length) : Nat) : Int) by omega]
    refine (moveUp_tot hb hfb (k := t.length - (k - s.length)) (by omega)).mono ?_
    rintro r ⟨r1, r2⟩
    refine ⟨r1, _, r2, ?_, ?_⟩
    · rw [show (p ++ t).length - (t.length - (k - s.length)) = p.length + (k - s.length) by omega, List.take_length_add_append, dist_append (lcp_take_nil h4 _).2, List.length_take]
      omega
    · rw [(dist_take _ _ (by omega)).2]
      omega

theorem moveTo_false {B : Int} {a b : Node} {da db : List Bool} (ha : Rep a da) (hb : Rep b db) (hfa : Fits B da) (hfb : Fits B db) {k : Int} (hk : k < 0 ∨ (SternBrocot.dist da db : Int) < k) (hkB : k < B) :
    moveTo B a b k = .ok (false, a) := by
  have hl := lca_tot ha hb hfa
  obtain ⟨p, s, t, rfl, rfl, h3, h4⟩ := split da db
  rw [h3] at hl
  obtain ⟨c, hc, hrep⟩ := hl
  have h1 := hfa.len
  have h2 := hfb.len
  rw [dist_append h4] at hk
  have e1 : (p ++ s).length = p.length + s.length := List.length_append
  have e2 : (p ++ t).length = p.length + t.length := List.length_append
  have f1 : a.dep - c.dep = (s.length : Int) := by rw [ha.dep, hrep.dep]; omega
  have f2 : b.dep - c.dep = (t.length : Int) := by rw [hb.dep, hrep.dep]; omega
  rw [moveTo, hc, ok_bind, f1, f2, fit_ok ⟨by omega, by omega⟩, ok_bind, fit_ok ⟨by omega, by omega⟩, ok_bind]
  by_cases hk0 : k < 0
  · rw [if_pos (by omega), moveUp_false ha (Or.inl hk0)]
  · rw [if_neg (by omega), fit_ok ⟨by omega, by omega⟩, ok_bind, if_pos (by omega)]
    rfl

/-! ## Equality and the three orders -/

theorem cast_inj {u v : Nat × Nat} (h : cast u = cast v) : u = v := by
  simp only [cast, Prod.mk.injEq] at h
  exact Prod.ext (by omega) (by omega)

theorem eq_iff {a b : Node} {da db : List Bool} (ha : Rep a da) (hb : Rep b db) : eq a b = true ↔ da = db := by
  rw [eq, Bool.and_eq_true, beq_iff_eq, beq_iff_eq, ha.l, ha.r, hb.l, hb.r]
  constructor
  · rintro ⟨h1, h2⟩
    exact bounds_inj (Prod.ext (cast_inj h1) (cast_inj h2))
  · rintro rfl
    exact ⟨rfl, rfl⟩

theorem lt_tot {B W : Int} (hW : B * B ≤ W) {a b : Node} {da db : List Bool} (ha : Rep a da) (hb : Rep b db) (va : ValFits B da) (vb : ValFits B db) :
    ∃ c, lt B W a b = .ok c ∧ (c = true ↔ Lt (value da) (value db)) := by
  refine ⟨less W (cast (value da)) (cast (value db)), ?_, less_iff hW va.1 va.2 vb.1 vb.2⟩
  rw [lt, get_tot ha va.1 va.2, ok_bind, get_tot hb vb.1 vb.2]
  rfl

theorem bySize_tot {B W : Int} (hW : B * B ≤ W) {a b : Node} {da db : List Bool} (ha : Rep a da) (hb : Rep b db) (va : ValFits B da) (vb : ValFits B db) (hne : da ≠ db) :
    bySize B W a b = .ok (sign (inOrder da db)) := by
  obtain ⟨c, hc, hi⟩ := lt_tot hW ha hb va vb
  rw [value_lt_iff] at hi
  rw [bySize, hc, ok_bind, pure_eq]
  congr 1
  have h0 := fun h => hne ((inOrder_eq_iff da db).1 h)
  cases c with
  | true => rw [hi.1 rfl]; rfl
  | false =>
    cases h : inOrder da db with
    | lt => exact absurd (hi.2 h) (by decide)
    | eq => exact absurd h h0
    | gt => rfl

theorem compareInOrder_tot {B W : Int} (hW : B * B ≤ W) {a b : Node} {da db : List Bool} (ha : Rep a da) (hb : Rep b db) (va : ValFits B da) (vb : ValFits B db) :
    compareInOrder B W a b = .ok (sign (inOrder da db)) := by
  rw [compareInOrder]
  by_cases h : da = db
  · rw [if_pos ((eq_iff ha hb).2 h), (inOrder_eq_iff da db).2 h]
    rfl
  · rw [if_neg (fun e => h ((eq_iff ha hb).1 e)), bySize_tot hW ha hb va vb h]

theorem compareWith_tot {B W : Int} (hW : B * B ≤ W) {a b : Node} {da db : List Bool} (ha : Rep a da) (hb : Rep b db) (fa : Fits B da) (fb : Fits B db) (va : ValFits B da) (vb : ValFits B db) (res : Int) :
    compareWith B W a b res = .ok (if da = db then 0 else if da <+: db then -res else if db <+: da then res else sign (inOrder da db)) := by
  rw [compareWith]
  by_cases h : da = db
  · rw [if_pos ((eq_iff ha hb).2 h), if_pos h]
    rfl
  · obtain ⟨x, hx, ix⟩ := isAncestorOf_tot hW ha hb fa vb
    obtain ⟨y, hy, iy⟩ := isAncestorOf_tot hW hb ha fb va
    rw [if_neg (fun e => h ((eq_iff ha hb).1 e)), if_neg h, hx, ok_bind]
    by_cases h1 : da <+: db
    · rw [if_pos h1, if_pos (ix.2 h1)]
      rfl
    · rw [if_neg h1, if_neg (fun e => h1 (ix.1 e)), compareSecond, hy, ok_bind]
      by_cases h2 : db <+: da
      · rw [if_pos h2, if_pos (iy.2 h2)]
        rfl
      · rw [if_neg h2, if_neg (fun e => h2 (iy.1 e)), bySize_tot hW ha hb va vb h]

theorem comparePreOrder_tot {B W : Int} (hW : B * B ≤ W) {a b : Node} {da db : List Bool} (ha : Rep a da) (hb : Rep b db) (fa : Fits B da) (fb : Fits B db) (va : ValFits B da) (vb : ValFits B db) :
    comparePreOrder B W a b = .ok (sign (preOrder da db)) := by
  rw [comparePreOrder, compareWith_tot hW ha hb fa fb va vb, preOrder_eq]
  congr 1
  split
  · rfl
  · split
    · rfl
    · split <;> rfl

theorem comparePostOrder_tot {B W : Int} (hW : B * B ≤ W) {a b : Node} {da db : List Bool} (ha : Rep a da) (hb : Rep b db) (fa : Fits B da) (fb : Fits B db) (va : ValFits B da) (vb : ValFits B db) :
    comparePostOrder B W a b = .ok (sign (postOrder da db)) := by
  rw [comparePostOrder, compareWith_tot hW ha hb fa fb va vb, postOrder_eq]
  congr 1
  split
  · rfl
  · split
    · rfl
    · split <;> rfl

theorem value_inj {a b : List Bool} (h : value a = value b) : a = b := by
  rw [← inOrder_eq_iff]
  have h1 : ¬ inOrder a b = .lt := by rw [← value_lt_iff, h]; exact Nat.lt_irrefl _
  have h2 : ¬ inOrder b a = .lt := by rw [← value_lt_iff, h]; exact Nat.lt_irrefl _
  have h3 : ∀ a b : List Bool, inOrder a b = .gt → inOrder b a = .lt := by
    intro a
    induction a with
    | nil => intro b; cases b with
      | nil => simp [inOrder]
      | cons y b => cases y <;> simp [inOrder]
    | cons x a ih => intro b; cases b with
      | nil => cases x <;> simp [inOrder]
      | cons y b =>
        by_cases hxy : x = y
        · subst hxy
          simp only [inOrder, if_true]
          exact ih b
        · cases x <;> cases y <;> simp_all [inOrder]
  cases h : inOrder a b with
  | lt => exact absurd h h1
  | eq => rfl
  | gt => exact absurd (h3 a b h) h2

theorem value_coprime (ds : List Bool) : Nat.gcd (value ds).1 (value ds).2 = 1 := by
  have h := det ds
  obtain ⟨g, hg⟩ : ∃ g, g = Nat.gcd (value ds).1 (value ds).2 := ⟨_, rfl⟩
  have h1 : g ∣ (value ds).1 := hg ▸ Nat.gcd_dvd_left _ _
  have h2 : g ∣ (value ds).2 := hg ▸ Nat.gcd_dvd_right _ _
  rw [← hg]
  have k1 : g ∣ (bounds ds).2.1 * (value ds).2 := Dvd.dvd.mul_left h2 _
  have k2 : g ∣ (value ds).1 * (bounds ds).2.2 := Dvd.dvd.mul_right h1 _
  have e : (bounds ds).2.1 * (value ds).2 = (value ds).1 * (bounds ds).2.2 + 1 := by
    simp only [value]
    nlinarith
  rw [e] at k1
  exact Nat.dvd_one.1 ((Nat.dvd_add_right k2).1 k1)

theorem ValFits.fits {B : Int} {ds : List Bool} (h : ValFits B ds) : Fits B ds := by
  obtain ⟨p1, p2⟩ := value_pos ds
  obtain ⟨s, -, ds', -, h2, h3⟩ := make_tot p1 p2 h.1 h.2
  rw [value_coprime, Nat.div_one, Nat.div_one] at h3
  rwa [value_inj h3] at h2

theorem ValFits.prefix {B : Int} {ds es : List Bool} (h : ValFits B (ds ++ es)) : ValFits B ds := by
  obtain ⟨h1, h2, h3, h4⟩ := bounds_mono ds es
  obtain ⟨k1, k2⟩ := h
  simp only [ValFits, value] at *
  exact ⟨by omega, by omega⟩

theorem expand_inj {p q : List (Bool × Nat)} (hp : Canonical p) (hq : Canonical q) (h : expand p = expand q) : p = q := by
  have hpos : ∀ {r : Bool × Nat} {p : List (Bool × Nat)}, Canonical (r :: p) → ∃ k, r.2 = k + 1 := by
    intro r p h
    have := ((canonical_iff _).1 h).1 r List.mem_cons_self
    exact ⟨r.2 - 1, by omega⟩
  induction p generalizing q with
  | nil =>
    cases q with
    | nil => rfl
    | cons r q =>
      obtain ⟨k, hk⟩ := hpos hq
      rw [expand_cons, hk, List.replicate_succ] at h
      simp [expand] at h
  | cons r p ih =>
    obtain ⟨d, c⟩ := r
    obtain ⟨k, hk⟩ := hpos hp
    dsimp only at hk
    cases q with
    | nil =>
      rw [expand_cons] at h
      dsimp only at h
      rw [hk, List.replicate_succ] at h
      simp [expand] at h
    | cons r q =>
      obtain ⟨d', c'⟩ := r
      obtain ⟨k', hk'⟩ := hpos hq
      dsimp only at hk'
      rw [expand_cons, expand_cons] at h
      dsimp only at h
      have hd : d = d' := by
        rw [hk, hk', List.replicate_succ, List.replicate_succ] at h
        exact (List.cons.inj h).1
      subst hd
      rcases Nat.lt_trichotomy c c' with hlt | heq | hlt
      · obtain ⟨j, rfl⟩ : ∃ j, c' = c + (j + 1) := ⟨c' - c - 1, by omega⟩
        rw [← List.replicate_append_replicate, List.append_assoc] at h
        have h := List.append_cancel_left h
        have hh := (head_expand hp (expand q) j).1
        rw [h, lcp_self, List.replicate_succ] at hh
        simp at hh
      · subst heq
        rw [ih (canonical_tail hp) (canonical_tail hq) (List.append_cancel_left h)]
      · obtain ⟨j, rfl⟩ : ∃ j, c = c' + (j + 1) := ⟨c - c' - 1, by omega⟩
        rw [← List.replicate_append_replicate, List.append_assoc] at h
        have h := List.append_cancel_left h
        have hh := (head_expand hq (expand p) j).1
        rw [← h, lcp_self, List.replicate_succ] at hh
        simp at hh

theorem Rep.unique {s s' : Node} {ds : List Bool} (h : Rep s ds) (h' : Rep s' ds) : s = s' := by
  obtain ⟨p, p1, p2, p3⟩ := h.path
  obtain ⟨q, q1, q2, q3⟩ := h'.path
  have : p = q := expand_inj p3 q3 (p2.trans q2.symm)
  cases s; cases s'
  simp only [Node.mk.injEq]
  exact ⟨h.l.trans h'.l.symm, h.r.trans h'.r.symm, h.dep.trans h'.dep.symm, p1.trans (this ▸ q1.symm)⟩

end SBT
