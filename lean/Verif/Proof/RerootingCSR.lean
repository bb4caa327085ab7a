import Verif.Spec.Rerooting
import Verif.Model.Rerooting
import Verif.Proof.GraphBasic

/-! # The adjacency structure `GraphCSR` -/

namespace Rerooting
open Cxx Graph

variable {W X : Type}

/-- Number of entries with key below `u`. -/
def P (hs : List (Nat × X)) (u : Nat) : Nat := (hs.filter fun q => decide (q.1 < u)).length

/-- The values with key `u`. -/
def vals (hs : List (Nat × X)) (u : Nat) : List X := (hs.filter fun q => decide (q.1 = u)).map Prod.snd

theorem P_succ (hs : List (Nat × X)) (u : Nat) : P hs (u + 1) = P hs u + (vals hs u).length := by
  unfold P vals
  induction hs with
  | nil => simp
  | cons a l ih =>
    rw [List.length_map] at ih ⊢
    rw [List.filter_cons, List.filter_cons, List.filter_cons]
    split <;> split <;> split <;> simp_all <;> omega

theorem P_zero (hs : List (Nat × X)) : P hs 0 = 0 := by simp [P]

theorem P_mono (hs : List (Nat × X)) {u v : Nat} (h : u ≤ v) : P hs u ≤ P hs v := by
  induction v with
  | zero => rw [Nat.le_zero.1 h]
  | succ v ih =>
    rcases Nat.lt_or_ge u (v + 1) with h1 | h1
    · rw [P_succ]; have := ih (by omega); omega
    · rw [show u = v + 1 by omega]

theorem P_le (hs : List (Nat × X)) (u : Nat) : P hs u ≤ hs.length := List.length_filter_le _ _

theorem vals_append (a b : List (Nat × X)) (u : Nat) : vals (a ++ b) u = vals a u ++ vals b u := by simp [vals]

theorem vals_one (k : Nat) (x : X) (u : Nat) : vals [(k, x)] u = if k = u then [x] else [] := by
  unfold vals
  by_cases h : k = u <;> simp [h]

/-- The half edges in the order in which the loops visit them. -/
def halves (e : List (Nat × Nat × W)) : List (Nat × (Nat × W)) := e.flatMap fun q => [(q.1, (q.2.1, q.2.2)), (q.2.1, (q.1, q.2.2))]

theorem halves_append (a b : List (Nat × Nat × W)) : halves (a ++ b) = halves a ++ halves b := by simp [halves]

theorem halves_one (q : Nat × Nat × W) : halves [q] = [(q.1, (q.2.1, q.2.2)), (q.2.1, (q.1, q.2.2))] := by simp [halves]

theorem halves_length (e : List (Nat × Nat × W)) : (halves e).length = 2 * e.length := by
  induction e with
  | nil => rfl
  | cons a l ih => rw [show a :: l = [a] ++ l from rfl, halves_append, List.length_append, ih, halves_one]; simp; omega

theorem vals_halves (e : List (Nat × Nat × W)) (u : Nat) : vals (halves e) u = nbrs e u := by
  induction e with
  | nil => rfl
  | cons a l ih =>
    rw [show a :: l = [a] ++ l from rfl, halves_append, vals_append, ih, halves_one, show [(a.1, (a.2.1, a.2.2)), (a.2.1, (a.1, a.2.2))] = [(a.1, (a.2.1, a.2.2))] ++ [(a.2.1, (a.1, a.2.2))] from rfl,
      vals_append, vals_one, vals_one]
    simp [nbrs]

theorem incr_tot {a : Array Nat} {u : Nat} (h : u < a.size) : Tot (incr a u) fun b => b.size = a.size ∧ ∀ j, at' 0 b j = at' 0 a j + if j = u then 1 else 0 := by
  unfold incr
  rw [rd_at 0 h]
  simp only [ok_bind]
  rw [wr_eq h, tot_ok]
  refine ⟨by simp, fun j => ?_⟩
  rw [at_set' 0 h]
  split
  · rename_i h; subst h; rfl
  · omega

/-- What the fill phase has done for the prefix `pre` of the half edges `hs`. -/
structure Fill (hs pre : List (Nat × (Nat × W))) (m n : Nat) (c : CSR W) : Prop where
  esz : c.edges.size = m
  ssz : c.start.size = n + 1
  st : ∀ u ≤ n, at' 0 c.start u + (vals pre u).length = P hs (u + 1)
  ed : ∀ u ≤ n, ∀ i, i < (vals pre u).length → c.edges[P hs (u + 1) - 1 - i]? = (vals pre u)[i]?

theorem put_tot {hs pre post : List (Nat × (Nat × W))} {u : Nat} {x : Nat × W} {n : Nat} {c : CSR W} (hh : hs = pre ++ (u, x) :: post) (hu : u < n) (h : Fill hs pre hs.length n c) :
    Tot (put c u x) (Fill hs (pre ++ [(u, x)]) hs.length n) := by
  have hv : ∀ v, vals (pre ++ [(u, x)]) v = if v = u then vals pre v ++ [x] else vals pre v := by
    intro v
    rw [vals_append, vals_one]
    by_cases hvu : v = u
    · rw [if_pos hvu, if_pos hvu.symm]
    · rw [if_neg hvu, if_neg (Ne.symm hvu), List.append_nil]
  have hle : ∀ v, (vals (pre ++ [(u, x)]) v).length ≤ (vals hs v).length := by
    intro v
    rw [hh, show pre ++ (u, x) :: post = (pre ++ [(u, x)]) ++ post by simp, vals_append (pre ++ [(u, x)]), List.length_append]
    omega
  have hlu := hle u
  rw [hv, if_pos rfl, List.length_append] at hlu
  simp only [List.length_cons, List.length_nil] at hlu
  have hst := h.st u hu.le
  have hP := P_succ hs u
  have hPl := P_le hs (u + 1)
  unfold put
  rw [rd_at 0 (by rw [h.ssz]; omega)]
  simp only [ok_bind]
  rw [if_neg (by omega), wr_eq (by rw [h.ssz]; omega)]
  simp only [ok_bind]
  rw [wr_eq (by rw [h.esz]; omega)]
  simp only [ok_bind, pure_eq]
  rw [tot_ok]
  refine ⟨by simp [h.esz], by simp [h.ssz], fun v hvn => ?_, fun v hvn i hi => ?_⟩
  · dsimp only
    rw [at_set' 0 (by rw [h.ssz]; omega), hv]
    by_cases hvu : v = u
    · subst hvu
      rw [if_pos rfl, if_pos rfl, List.length_append]
      simp only [List.length_cons, List.length_nil]
      omega
    · rw [if_neg hvu, if_neg hvu]
      exact h.st v hvn
  · dsimp only
    rw [get?_set _ _ _ _ (by rw [h.esz]; omega)]
    have hlv := hle v
    have hPv := P_succ hs v
    rw [hv] at hi hlv ⊢
    by_cases hvu : v = u
    · subst hvu
      rw [if_pos rfl] at hi hlv ⊢
      rw [List.length_append] at hi hlv
      simp only [List.length_cons, List.length_nil] at hi hlv
      by_cases hil : i = (vals pre v).length
      · subst hil
        rw [if_pos (by omega)]
        simp
      · rw [if_neg (by omega), h.ed v hvn i (by omega), List.getElem?_append_left (by omega)]
    · rw [if_neg hvu] at hi hlv ⊢
      rw [if_neg ?_, h.ed v hvn i hi]
      rcases Nat.lt_or_gt_of_ne hvu with h1 | h1
      · have := P_mono hs (show v + 1 ≤ u by omega); omega
      · have := P_mono hs (show u + 1 ≤ v by omega); omega

/-- What the constructor promises. -/
structure IsCSR (n : Nat) (e : List (Nat × Nat × W)) (c : CSR W) : Prop where
  view : ∀ u < n, view c u = .ok (nbrs e u).reverse

theorem csr_tot [Inhabited W] {n : Nat} {e : List (Nat × Nat × W)} (he : ∀ q ∈ e, q.1 < n ∧ q.2.1 < n) : Tot (csr n e) (IsCSR n e) := by
  unfold csr
  refine Tot.bind (P := fun a : Array Nat => a.size = n + 1 ∧ ∀ u, at' 0 a u = (vals (halves e) u).length) ?_ ?_
  · refine Tot.mono (Tot.forEach (P := fun pre (a : Array Nat) => a.size = n + 1 ∧ ∀ u, at' 0 a u = (vals (halves pre) u).length) ?_ ?_) fun a h => h
    · refine ⟨by simp, fun u => ?_⟩
      simp only [halves, vals, List.flatMap_nil, List.filter_nil, List.map_nil, List.length_nil, at']
      rw [Array.getElem?_replicate]; split <;> rfl
    · intro pre q post a hp h
      have hq := he q (by rw [hp]; simp)
      unfold countStep
      refine Tot.bind (incr_tot (by rw [h.1]; omega)) ?_
      intro b hb
      refine Tot.mono (incr_tot (by rw [hb.1, h.1]; omega)) ?_
      intro b' hb'
      refine ⟨by rw [hb'.1, hb.1, h.1], fun u => ?_⟩
      rw [hb'.2, hb.2, h.2, halves_append, halves_one, vals_append, show [(q.1, (q.2.1, q.2.2)), (q.2.1, (q.1, q.2.2))] = [(q.1, (q.2.1, q.2.2))] ++ [(q.2.1, (q.1, q.2.2))] from rfl,
        vals_append, vals_one, vals_one]
      simp only [List.length_append]
      simp only [eq_comm (a := q.1), eq_comm (a := q.2.1)]
      split <;> split <;> simp
  intro a ha
  obtain ⟨hs, hhs⟩ : ∃ hs, hs = halves e := ⟨_, rfl⟩
  rw [← hhs] at ha
  have hkey : ∀ q ∈ hs, q.1 < n := by
    intro q hq
    rw [hhs, halves, List.mem_flatMap] at hq
    obtain ⟨p, hp, hq⟩ := hq
    have := he p hp
    simp at hq
    rcases hq with rfl | rfl
    · exact this.1
    · exact this.2
  refine Tot.bind (P := fun a : Array Nat => a.size = n + 1 ∧ ∀ u ≤ n, at' 0 a u = P hs (u + 1)) ?_ ?_
  · refine Tot.mono (Tot.forUp (P := fun i (a : Array Nat) => a.size = n + 1 ∧ ∀ u ≤ n, at' 0 a u = if u < i then P hs (u + 1) else (vals hs u).length) (by omega) ?_ ?_) ?_
    · refine ⟨ha.1, fun u hu => ?_⟩
      rw [ha.2]
      split
      · rw [show u = 0 by omega, P_succ, P_zero]; simp
      · rfl
    · intro i hi1 hi2 a ha
      unfold sumStep
      rw [rd_at 0 (by rw [ha.1]; omega)]
      simp only [ok_bind]
      rw [rd_at 0 (by rw [ha.1]; omega)]
      simp only [ok_bind]
      rw [wr_eq (by rw [ha.1]; omega), tot_ok]
      refine ⟨by simp [ha.1], fun u hu => ?_⟩
      rw [at_set' 0 (by rw [ha.1]; omega)]
      by_cases hui : u = i
      · subst hui
        rw [if_pos rfl, ha.2 u hu, ha.2 (u - 1) (by omega), if_neg (by omega), if_pos (by omega), if_pos (by omega), P_succ hs u, show u - 1 + 1 = u by omega]
        omega
      · rw [if_neg hui, ha.2 u hu]
        by_cases h1 : u < i
        · rw [if_pos h1, if_pos (by omega)]
        · rw [if_neg h1, if_neg (by omega)]
    · intro a ha
      exact ⟨ha.1, fun u hu => by rw [ha.2 u hu, if_pos (by omega)]⟩
  intro a ha
  have hfill : Tot (forEach e ⟨Array.replicate (2 * e.length) default, a⟩ fillStep) (Fill hs hs hs.length n) := by
    refine Tot.mono (Tot.forEach (P := fun pre c => Fill hs (halves pre) hs.length n c) ?_ ?_) fun c hc => by rw [← hhs] at hc; exact hc
    · refine ⟨by simp [hhs, halves_length], ha.1, fun u hu => ?_, fun u hu i hi => ?_⟩
      · dsimp only
        rw [ha.2 u hu]; simp [halves, vals]
      · simp [halves, vals] at hi
    · intro pre q post c hp h
      have hq := he q (by rw [hp]; simp)
      have hsplit : hs = halves pre ++ (q.1, (q.2.1, q.2.2)) :: (q.2.1, (q.1, q.2.2)) :: halves post := by
        rw [hhs, hp, halves_append, show q :: post = [q] ++ post from rfl, halves_append, halves_one]; simp
      unfold fillStep
      refine Tot.bind (put_tot hsplit hq.1 h) ?_
      intro c hc
      refine Tot.mono (put_tot (post := halves post) (by rw [hsplit]; simp) hq.2 hc) ?_
      intro c hc
      rw [halves_append, halves_one]
      simpa using hc
  refine Tot.mono hfill fun c hc => ⟨fun u hu => ?_⟩
  have h1 := hc.st u (by omega)
  have h2 := hc.st (u + 1) (by omega)
  have hP1 := P_succ hs u
  have hP2 := P_succ hs (u + 1)
  have hPl := P_le hs (u + 1)
  unfold view
  rw [rd_at 0 (by rw [hc.ssz]; omega)]
  simp only [ok_bind]
  rw [rd_at 0 (by rw [hc.ssz]; omega)]
  simp only [ok_bind]
  rw [if_neg (by rw [hc.esz]; omega), pure_eq]
  congr 1
  rw [← vals_halves, ← hhs]
  refine List.ext_getElem? fun i => ?_
  rw [List.getElem?_take]
  split
  · rename_i hi
    rw [List.getElem?_drop, Array.getElem?_toList]
    have h3 := hc.ed u hu.le ((vals hs u).length - 1 - i) (by omega)
    rw [show at' 0 c.start u + i = P hs (u + 1) - 1 - ((vals hs u).length - 1 - i) by omega, h3, List.getElem?_reverse (by omega)]
  · rename_i hi
    rw [eq_comm, List.getElem?_eq_none_iff, List.length_reverse]
    omega

end Rerooting
