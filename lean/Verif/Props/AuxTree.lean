import Verif.Proof.AuxTree3
import Verif.Props.HLD
import Mathlib.Data.List.Sort

/-!
# Properties of `tree/auxiliary_tree.hpp`

`Closure` and `Closest`: `Verif/Spec/AuxTree.lean`; `HLD.Made g r t`: the decomposition `t` was built from the tree `g` with root `r`.
-/

namespace AuxTree
open Cxx Graph Tree HLD

variable {g : Array (List Nat)} {r : Nat} {t : St}

/-- What `std::sort` guarantees for the comparison by visit times. -/
def SortsBy (t : St) (srt : List Nat → List Nat) : Prop := ∀ l, (srt l).Perm l ∧ (srt l).Pairwise fun x y => ¬ t.visit[y]! < t.visit[x]!

/-- A valid argument of `build`: distinct vertices, at least one. -/
def Ok (n : Nat) (vs : List Nat) : Prop := vs ≠ [] ∧ vs.Nodup ∧ ∀ v ∈ vs, v < n

theorem SortsBy.at {srt : List Nat → List Nat} (h : SortsBy t srt) (l : List Nat) : (srt l).Perm l ∧ (srt l).Pairwise fun x y => ¬ at' 0 t.visit y < at' 0 t.visit x := by
  have e : ∀ x, t.visit[x]! = at' 0 t.visit x := fun x => by rw [getElem!_def, at']; cases t.visit[x]? <;> rfl
  obtain ⟨h1, h2⟩ := h l
  refine ⟨h1, h2.imp fun {x y} h => ?_⟩
  rwa [e, e] at h

theorem history {F : Forest} (b : Built g r F t) {srt : List Nat → List Nat} (hs : SortsBy t srt) {past : List (List Nat)} (hp : ∀ l ∈ past, Ok g.size l) : Tot (forEach past (AuxTree.make t) (build srt)) (OInv g.size t) :=
  Tot.forEach (P := fun _ o => OInv g.size t o) (make_inv b) fun pre x post o e ho => by
    obtain ⟨h1, h2, h3⟩ := hp x (by rw [e]; simp)
    exact (build_tot b ho (hs.at x) h3 h2 h1).mono fun o' h => h.1

/-- **C106**. After any number of earlier calls with valid arguments, `build(vs)` with distinct vertices (at least one) succeeds, and `operator[](u)` lists, each once, exactly the neighbours of `u` in the auxiliary tree of `vs`; nothing is left of earlier calls. -/
theorem build_correct (h : Made g r t) (hg : IsTree g) (hsz : g.size ≤ 2 ^ 29) (hr : r < g.size) {srt : List Nat → List Nat} (hs : SortsBy t srt) {past : List (List Nat)} (hp : ∀ l ∈ past, Ok g.size l) {vs : List Nat} (hvs : Ok g.size vs) :
    ∃ o o', forEach past (AuxTree.make t) (build srt) = .ok o ∧ build srt o vs = .ok o' ∧ o'.aux.size = g.size ∧
      ∀ u < g.size, ∃ a, rd o'.aux u = .ok a ∧ a.Nodup ∧ ∀ v, v ∈ a ↔ Closest g r (Closure g r vs) u v ∨ Closest g r (Closure g r vs) v u := by
  obtain ⟨F, b⟩ := h.built hg hsz hr
  obtain ⟨o, h1, ho⟩ := history b hs hp
  obtain ⟨o', h2, h3, h4⟩ := build_tot b ho (hs.at vs) hvs.2.2 hvs.2.1 hvs.1
  have hClo : ∀ s, Clo r F g.size vs s ↔ Closure g r vs s := by
    intro s
    constructor
    · rintro ⟨x, hx, y, hy, c1, c2⟩
      exact ⟨x, hx, y, hy, (b.isLCA hg (hvs.2.2 x hx) (hvs.2.2 y hy) c1).2 c2⟩
    · rintro ⟨x, hx, y, hy, hc⟩
      have hsl : s < g.size := lt_of b ((b.anc hg (hvs.2.2 x hx)).1 hc.left)
      exact ⟨x, hx, y, hy, hsl, (b.isLCA hg (hvs.2.2 x hx) (hvs.2.2 y hy) hsl).1 hc⟩
  have hlt : ∀ s, Closure g r vs s → s < g.size := fun s hs => by
    obtain ⟨x, hx, y, hy, c1, c2⟩ := (hClo s).2 hs
    exact c1
  have hnear : ∀ p c, Near r F (Clo r F g.size vs) p c ↔ Closest g r (Closure g r vs) p c := by
    intro p c
    constructor
    · rintro ⟨n1, n2, n3, n4, n5⟩
      rw [hClo] at n1 n2
      refine ⟨n1, n2, n3, (b.anc hg (hlt c n2)).2 n4, fun q hq h5 h6 => (b.anc hg (hlt p n1)).2 (n5 q ((hClo q).2 hq) ((b.anc hg (hlt c n2)).1 h5) h6)⟩
    · rintro ⟨n1, n2, n3, n4, n5⟩
      refine ⟨(hClo p).2 n1, (hClo c).2 n2, n3, (b.anc hg (hlt c n2)).1 n4, fun q hq h5 h6 => (b.anc hg (hlt p n1)).1 (n5 q ((hClo q).1 hq) ((b.anc hg (hlt c n2)).2 h5) h6)⟩
  refine ⟨o, o', h1, h2, h4.1, fun u hu => ⟨_, rd_at [] (by rw [h4.1]; exact hu), (h4.2 u hu).1, fun v => ?_⟩⟩
  rw [(h4.2 u hu).2 v, hnear, hnear]

/-- **C106** (empty argument). `build({})` reads the first element of an empty vector, whatever was built before. -/
theorem build_empty (h : Made g r t) (hg : IsTree g) (hsz : g.size ≤ 2 ^ 29) (hr : r < g.size) {srt : List Nat → List Nat} (hs : SortsBy t srt) {past : List (List Nat)} (hp : ∀ l ∈ past, Ok g.size l) :
    ∃ o, forEach past (AuxTree.make t) (build srt) = .ok o ∧ build srt o [] = .error .ub := by
  obtain ⟨F, b⟩ := h.built hg hsz hr
  obtain ⟨o, h1, ho⟩ := history b hs hp
  obtain ⟨a, h2, -⟩ := clear_tot ho.size ho.cover ho.range
  refine ⟨o, h1, ?_⟩
  have h3 : srt [] = [] := (hs []).1.eq_nil
  rw [build, h2, ok_bind, h3]
  rfl

/-! ### The hypotheses are satisfiable; duplicates are not handled -/

def bySort (t : St) : List Nat → List Nat := List.insertionSort fun x y => t.visit[x]! ≤ t.visit[y]!

theorem bySort_sorts (t : St) : SortsBy t (bySort t) := fun l => by
  refine ⟨List.perm_insertionSort _ l, ?_⟩
  haveI : Std.Total fun x y : Nat => t.visit[x]! ≤ t.visit[y]! := ⟨fun x y => Nat.le_total _ _⟩
  haveI : IsTrans Nat fun x y : Nat => t.visit[x]! ≤ t.visit[y]! := ⟨fun x y z => Nat.le_trans⟩
  exact (List.pairwise_insertionSort (fun x y : Nat => t.visit[x]! ≤ t.visit[y]!) l).imp fun {x y} h => by omega

/-- Two builds in a row on a sample tree. -/
def demo (a b : List Nat) : M (Array (List Nat)) := do
  let t ← HLD.make sample
  let o ← build (bySort t) (AuxTree.make t) a
  let o ← build (bySort t) o b
  return o.aux

example : demo [1, 4] [5, 1, 3] = .ok #[[2, 1], [0], [5, 3, 0], [2], [], [2]] := by decide +kernel

/-- With a repeated vertex the result has self loops. -/
theorem build_duplicate : demo [1, 4] [3, 3] = .ok #[[], [], [], [3, 3], [], []] := by decide +kernel

example : Ok sample.size [5, 1, 3] ∧ ∀ l ∈ [[1, 4]], Ok sample.size l := by
  simp [Ok, sample]

end AuxTree
