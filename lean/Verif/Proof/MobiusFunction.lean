import Verif.Model.MobiusFunction
import Verif.Proof.SumOfMultiplicative
import Verif.Proof.Tables

namespace MobiusFunction
open Cxx SumOfMult SumOfMobius

theorem tot_and {α : Type} {m : M α} {P Q : α → Prop} (h1 : Tot m P) (h2 : Tot m Q) : Tot m (fun a => P a ∧ Q a) := by
  obtain ⟨a, e, p⟩ := h1
  obtain ⟨b, e', q⟩ := h2
  rw [e] at e'
  cases e'
  exact ⟨a, e, p, q⟩

/-- The entries that are set are right. -/
def MP (sz : Nat) (s : Array Nat × Array Int) : Prop := ∀ q, 1 ≤ q → q < sz → at' 0 s.1 q ≠ 0 → at' 0 s.1 q = q.minFac

theorem minFac_of_PF {p q : Nat} (hp : p.Prime) (hd : p ∣ q) (hq : 1 ≤ q) (h : PF p q = ∅) : q.minFac = p := by
  have hq1 : q ≠ 1 := by
    rintro rfl
    exact hp.one_lt.ne' (Nat.dvd_one.mp hd)
  have h1 := Nat.minFac_le_of_dvd hp.two_le hd
  by_contra hc
  have : q.minFac ∈ PF p q := mem_PF.mpr ⟨Nat.minFac_prime hq1, Nat.minFac_dvd q, by omega, by omega⟩
  rw [h] at this
  simp at this

theorem markStep_mp {sz p k : Nat} {s : Array Nat × Array Int} (hp : p.Prime) (hk : 1 ≤ k) (hks : k * p < sz) (h : MInv sz p k s) (hm : MP sz s) :
    Tot (markStep p k s) (MP sz) := by
  obtain ⟨h1, h2, h3⟩ := h
  have hpos : 1 ≤ k * p := Nat.mul_pos hk hp.pos
  have hent := (h3 (k * p) hpos hks).1
  rw [if_neg (fun c => absurd c.2 (Nat.lt_irrefl _))] at hent
  unfold markStep
  dsimp only
  rw [rd_at 0 (by omega), ok_bind, wr_eq (by omega), ok_bind, rd_at 1 (by omega), ok_bind, wr_eq (by omega), ok_bind]
  refine tot_ok.mpr ?_
  intro q hq1 hq2 hne
  dsimp only at hne ⊢
  rw [at_set 0 (by omega)] at hne ⊢
  by_cases c : k * p = q
  · rw [if_pos c] at hne ⊢
    by_cases c0 : at' 0 s.1 (k * p) = 0
    · rw [if_pos c0, ← c]
      exact (minFac_of_PF hp (Nat.dvd_mul_left p k) hpos (hent.mp c0)).symm
    · rw [if_neg c0, ← c]
      exact hm _ hpos hks c0
  · rw [if_neg c] at hne ⊢
    exact hm q hq1 hq2 hne

theorem mark_mp {sz p : Nat} {s : Array Nat × Array Int} (hp : p.Prime) (hps : p < sz) (h : SInv sz p s) (hm : MP sz s) : Tot (mark sz p s) (MP sz) := by
  have hp1 := hp.one_lt
  have hst := mark_start hp hps h
  obtain ⟨h1, h2, h3⟩ := h
  unfold mark
  rw [wr_eq (by omega), ok_bind, wr_eq (by omega), ok_bind]
  have hK : 2 ≤ (sz + p - 1) / p := (ceil_bound (by omega)).mpr (by omega : 1 * p < sz)
  refine (Tot.forUp (lo := 2) (hi := (sz + p - 1) / p) (P := fun k s => MInv sz p k s ∧ MP sz s) hK ⟨hst, ?_⟩ ?_).mono fun s hs => hs.2
  · intro q hq1 hq2 hne
    dsimp only at hne ⊢
    rw [at_set 0 (by omega)] at hne ⊢
    by_cases c : p = q
    · rw [if_pos c, ← c]
      exact hp.minFac_eq.symm
    · rw [if_neg c] at hne ⊢
      exact hm q hq1 hq2 hne
  · intro k s' hk1 hk2 hs
    have hks := (ceil_bound (by omega)).mp hk2
    exact tot_and (markStep_tot hp (by omega) hks hs.1) (markStep_mp hp (by omega) hks hs.1 hs.2)

/-- What the constructor establishes. -/
structure Ok (n : Nat) (s : State) : Prop where
  n_eq : s.n = n
  size : s.mpf.size = n + 1
  dsize : s.dat.size = n + 1
  mpf : ∀ k, 2 ≤ k → k ≤ n → at' 0 s.mpf k = k.minFac
  dat : ∀ k, 1 ≤ k → k ≤ n → at' 1 s.dat k = ArithmeticFunction.moebius k

theorem make_tot (n : Nat) : Tot (make n) (Ok n) := by
  unfold make
  have h0 : SInv (n + 1) 2 (Array.replicate (n + 1) 0, Array.replicate (n + 1) 1) := by
    refine ⟨by simp, by simp, fun q h1 h2 => ?_⟩
    unfold Ent muP
    rw [PF_two]
    simp [at', h2]
  have hm0 : MP (n + 1) (Array.replicate (n + 1) 0, Array.replicate (n + 1) 1) := by
    intro q h1 h2 h3
    simp [at', h2] at h3
  have hfin : ∀ b s, n + 1 ≤ b → SInv (n + 1) b s → MP (n + 1) s → Ok n ⟨n, s.1, s.2⟩ := by
    rintro b s hb ⟨h1, h2, h3⟩ hm
    refine ⟨rfl, h1, h2, fun k hk1 hk2 => ?_, fun k hk1 hk2 => ?_⟩
    · refine hm k (by omega) (by omega) fun hc => ?_
      have e := (h3 k (by omega) (by omega)).1.mp hc
      have : k.minFac ∈ PF b k := mem_PF.mpr ⟨Nat.minFac_prime (by omega), Nat.minFac_dvd k, by omega, by have := Nat.minFac_le (show 0 < k by omega); omega⟩
      rw [e] at this
      simp at this
    · show at' 1 s.2 k = _
      rw [(h3 k hk1 (by omega)).2, muP_all (by omega) hk1]
  by_cases hsz : 2 ≤ n + 1
  · refine Tot.bind (Tot.forUp (lo := 2) (hi := n + 1) (P := fun p s => SInv (n + 1) p s ∧ MP (n + 1) s) hsz ⟨h0, hm0⟩ ?_) fun s hs => Tot.pure (hfin (n + 1) s (le_refl _) hs.1 hs.2)
    rintro p s hp1 hp2 ⟨hs, hm⟩
    unfold sieveStep
    rw [rd_at 0 (by rw [hs.1]; exact hp2), ok_bind]
    have hpz := (hs.2.2 p (by omega) hp2).1
    split_ifs with hc
    · refine Tot.pure ⟨⟨hs.1, hs.2.1, fun q hq1 hq2 => ?_⟩, hm⟩
      have hnp : ¬p.Prime := fun h => hc (hpz.mpr ((prime_iff_PF hp1).mp h))
      have := hs.2.2 q hq1 hq2
      unfold Ent muP at *
      rw [PF_succ_not (fun h => hnp h.1)]
      exact this
    · have hp := (prime_iff_PF hp1).mpr (hpz.mp (by simpa using hc))
      exact tot_and (mark_tot hp hp2 hs) (mark_mp hp hp2 hs hm)
  · have : forUp 2 (n + 1) (Array.replicate (n + 1) 0, Array.replicate (n + 1) (1 : Int)) (sieveStep (n + 1)) = .ok (Array.replicate (n + 1) 0, Array.replicate (n + 1) 1) := by
      unfold forUp
      rw [show n + 1 - 2 = 0 by omega]
      rfl
    rw [this, ok_bind]
    exact Tot.pure (hfin 2 _ (by omega) h0 hm0)

theorem factorize_tot {n k : Nat} {s : State} (hs : Ok n s) (hk : 0 < k) (hkn : k ≤ n) : Tot (factorize s k) (NumberUtil.Fact k) :=
  LinearSieve.factorize_tot (s := ⟨s.n, s.mpf, (LinearSieve.primesBelow (n + 1)).toArray⟩) ⟨hs.n_eq, hs.size, hs.mpf, by simp⟩ hk hkn

end MobiusFunction
