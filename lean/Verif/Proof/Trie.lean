import Verif.Model.StringAlgo
import Mathlib.Data.List.Basic
import Mathlib.Data.List.Nodup
import Mathlib.Data.List.Infix
import Mathlib.Data.List.Perm.Subperm
import Mathlib.Algebra.Order.Group.Nat
import Mathlib.Algebra.Order.Group.Int

/-! # Abstract tries: nodes labelled by words -/

namespace Trie
open Cxx
variable {κ : Type}

/-- The nodes `0, 1, …` stand for the distinct words `lab`; the set of words is closed under prefixes and `ch` is the child relation. -/
structure Rep (ch : Nat → κ → Option Nat) (lab : List (List κ)) : Prop where
  root : lab[0]? = some []
  nodup : lab.Nodup
  child : ∀ u c v, ch u c = some v ↔ ∃ x, lab[u]? = some x ∧ lab[v]? = some (x ++ [c])
  closed : ∀ x c, x ++ [c] ∈ lab → x ∈ lab

theorem idx_inj {lab : List (List κ)} (h : lab.Nodup) {u v : Nat} {x : List κ} (hu : lab[u]? = some x) (hv : lab[v]? = some x) : u = v := by
  obtain ⟨h1, h2⟩ := List.getElem?_eq_some_iff.1 hu
  obtain ⟨h3, h4⟩ := List.getElem?_eq_some_iff.1 hv
  exact (h.getElem_inj_iff).1 (h2.trans h4.symm)

theorem Rep.grow [DecidableEq κ] {ch : Nat → κ → Option Nat} {lab : List (List κ)} (h : Rep ch lab) {u : Nat} {x : List κ} {c : κ}
    (hu : lab[u]? = some x) (hc : ch u c = none) :
    Rep (fun a b => if a = u ∧ b = c then some lab.length else ch a b) (lab ++ [x ++ [c]]) := by
  have hnot : x ++ [c] ∉ lab := by
    intro hm
    obtain ⟨v, hv⟩ := List.getElem?_of_mem hm
    have := (h.child u c v).2 ⟨x, hu, hv⟩
    rw [hc] at this
    cases this
  have hul : u < lab.length := (List.getElem?_eq_some_iff.1 hu).1
  have hnd : (lab ++ [x ++ [c]]).Nodup := by
    rw [List.nodup_append]
    refine ⟨h.nodup, by simp, ?_⟩
    intro a ha b hb
    rw [List.mem_singleton] at hb
    rintro rfl
    exact hnot (hb ▸ ha)
  have hold : ∀ a, a < lab.length → (lab ++ [x ++ [c]])[a]? = lab[a]? := fun a ha => List.getElem?_append_left ha
  have hnew : (lab ++ [x ++ [c]])[lab.length]? = some (x ++ [c]) := by simp
  have hbig : ∀ a, lab.length < a → (lab ++ [x ++ [c]])[a]? = none := fun a ha => by simp; omega
  refine ⟨?_, hnd, ?_, ?_⟩
  · rw [hold 0 (by omega)]
    exact h.root
  · intro a b v
    split
    · rename_i hab
      obtain ⟨rfl, rfl⟩ := hab
      constructor
      · intro e
        have : lab.length = v := Option.some.inj e
        subst this
        exact ⟨x, by rw [hold a hul, hu], hnew⟩
      · rintro ⟨y, hy1, hy2⟩
        rw [hold a hul, hu] at hy1
        cases hy1
        rw [idx_inj hnd hnew hy2]
    · rename_i hab
      rw [h.child]
      constructor
      · rintro ⟨y, hy1, hy2⟩
        exact ⟨y, by rw [hold a (List.getElem?_eq_some_iff.1 hy1).1, hy1], by rw [hold v (List.getElem?_eq_some_iff.1 hy2).1, hy2]⟩
      · rintro ⟨y, hy1, hy2⟩
        rcases Nat.lt_trichotomy a lab.length with ha | ha | ha
        · rw [hold a ha] at hy1
          rcases Nat.lt_trichotomy v lab.length with hv | hv | hv
          · rw [hold v hv] at hy2
            exact ⟨y, hy1, hy2⟩
          · exfalso
            subst hv
            rw [hnew] at hy2
            have e := List.append_inj' (Option.some.inj hy2) rfl
            obtain ⟨rfl, e2⟩ := e
            exact hab ⟨idx_inj h.nodup hy1 hu, by simpa using e2.symm⟩
          · rw [hbig v hv] at hy2
            cases hy2
        · exfalso
          subst ha
          rw [hnew] at hy1
          cases hy1
          rcases Nat.lt_trichotomy v lab.length with hv | hv | hv
          · rw [hold v hv] at hy2
            exact hnot (h.closed _ b (List.mem_of_getElem? hy2))
          · subst hv
            rw [hnew] at hy2
            have := congrArg List.length (Option.some.inj hy2)
            simp at this
          · rw [hbig v hv] at hy2
            cases hy2
        · rw [hbig a ha] at hy1
          cases hy1
  · intro y b hm
    rw [List.mem_append, List.mem_singleton] at hm ⊢
    rcases hm with hm | hm
    · exact Or.inl (h.closed y b hm)
    · obtain ⟨rfl, -⟩ := List.append_inj' hm rfl
      exact Or.inl (List.mem_of_getElem? hu)

theorem closed_prefix {lab : List (List κ)} (h : ∀ x c, x ++ [c] ∈ lab → x ∈ lab) {x y : List κ} (hy : y ∈ lab) (hp : x <+: y) : x ∈ lab := by
  obtain ⟨t, rfl⟩ := hp
  induction t using List.reverseRecOn with
  | nil => simpa using hy
  | append_singleton t c ih =>
    rw [← List.append_assoc] at hy
    exact ih (h _ c hy)

/-- One letter of `add`: follow the child or append a new node. -/
def AStep [DecidableEq κ] (ch : Nat → κ → Option Nat) (n u : Nat) (c : κ) (ch' : Nat → κ → Option Nat) (n' v : Nat) : Prop :=
  (ch u c = some v ∧ n' = n ∧ ∀ a b, ch' a b = ch a b) ∨
  (ch u c = none ∧ v = n ∧ n' = n + 1 ∧ ∀ a b, ch' a b = if a = u ∧ b = c then some n else ch a b)

theorem AStep.rep [DecidableEq κ] {ch ch' : Nat → κ → Option Nat} {u v n' : Nat} {c : κ} {lab : List (List κ)} {x : List κ} (h : Rep ch lab)
    (hu : lab[u]? = some x) (hs : AStep ch lab.length u c ch' n' v) :
    ∃ ext, Rep ch' (lab ++ ext) ∧ (lab ++ ext).length = n' ∧ (lab ++ ext)[v]? = some (x ++ [c]) ∧ ∀ y ∈ ext, y = x ++ [c] := by
  rcases hs with ⟨h1, h2, h3⟩ | ⟨h1, h2, h3, h4⟩
  · have e : ch' = ch := funext fun a => funext fun b => h3 a b
    rw [e]
    obtain ⟨y, hy1, hy2⟩ := (h.child u c v).1 h1
    rw [hu] at hy1
    cases hy1
    exact ⟨[], by simpa using h, by simp [h2], by simpa using hy2, by simp⟩
  · have e : ch' = fun a b => if a = u ∧ b = c then some lab.length else ch a b := funext fun a => funext fun b => h4 a b
    rw [e]
    exact ⟨[x ++ [c]], h.grow hu h1, by simp [h3], by simp [h2], by simp⟩

/-- What `add` does to the words: `x` is the word of the start node. -/
def AddOk (lab : List (List κ)) (x w : List κ) (lab' : List (List κ)) (v : Nat) : Prop :=
  lab <+: lab' ∧ lab'[v]? = some (x ++ w) ∧ ∀ y, y ∈ lab' ↔ y ∈ lab ∨ ∃ p, p <+: w ∧ y = x ++ p

/-- The loop of `add`, for any implementation `step` whose states are seen through `ch`, `size` and an invariant `Inv`. -/
theorem add_tot [DecidableEq κ] {σ : Type} (ch : σ → Nat → κ → Option Nat) (size : σ → Nat) (Inv : σ → Prop) (ok : κ → Prop) (R : σ → σ → Prop)
    (hR0 : ∀ s, R s s) (hR : ∀ s t u, R s t → R t u → R s u)
    (step : σ × Nat → κ → M (σ × Nat))
    (hstep : ∀ s u c, Inv s → u < size s → ok c → (∀ v, ch s u c = some v → v < size s) →
      Tot (step (s, u) c) fun r => Inv r.1 ∧ R s r.1 ∧ AStep (ch s) (size s) u c (ch r.1) (size r.1) r.2)
    (s : σ) (lab : List (List κ)) (hinv : Inv s) (hrep : Rep (ch s) lab) (hsz : size s = lab.length) (u : Nat) (x w : List κ)
    (hu : lab[u]? = some x) (hw : ∀ c ∈ w, ok c) :
    Tot (forEach w (s, u) step) fun r => Inv r.1 ∧ R s r.1 ∧ ∃ lab', Rep (ch r.1) lab' ∧ size r.1 = lab'.length ∧ AddOk lab x w lab' r.2 := by
  refine Tot.forEach (P := fun pre (r : σ × Nat) => Inv r.1 ∧ R s r.1 ∧ ∃ lab', Rep (ch r.1) lab' ∧ size r.1 = lab'.length ∧ AddOk lab x pre lab' r.2) ?_ ?_
  · refine ⟨hinv, hR0 s, lab, hrep, hsz, List.prefix_rfl, by simpa using hu, fun y => ?_⟩
    constructor
    · exact Or.inl
    · rintro (h | ⟨p, hp, rfl⟩)
      · exact h
      · rw [List.prefix_nil.1 hp, List.append_nil]
        exact List.mem_of_getElem? hu
  · rintro pre c post ⟨t, v⟩ he ⟨h1, hRt, lab', h2, h3, h4, h5, h6⟩
    dsimp only at h1 h2 h3 h5 hRt
    have hv : v < size t := by
      rw [h3]
      exact (List.getElem?_eq_some_iff.1 h5).1
    refine (hstep t v c h1 hv (hw c (by simp [he])) fun v' hv' => ?_).mono ?_
    · obtain ⟨y, -, hy⟩ := (h2.child v c v').1 hv'
      rw [h3]
      exact (List.getElem?_eq_some_iff.1 hy).1
    · rintro ⟨t', v'⟩ ⟨g1, gR, g2⟩
      dsimp only at g1 gR g2
      rw [h3] at g2
      obtain ⟨ext, e1, e2, e3, e4⟩ := g2.rep h2 h5
      refine ⟨g1, hR _ _ _ hRt gR, lab' ++ ext, e1, e2.symm, h4.trans (List.prefix_append _ _), ?_, fun y => ?_⟩
      · rw [← List.append_assoc]; exact e3
      · have hm : x ++ pre ++ [c] ∈ lab' ++ ext := List.mem_of_getElem? e3
        constructor
        · intro hy
          rcases List.mem_append.1 hy with hy | hy
          · rcases (h6 y).1 hy with hy | ⟨p, hp, rfl⟩
            · exact Or.inl hy
            · exact Or.inr ⟨p, hp.trans (List.prefix_append _ _), rfl⟩
          · exact Or.inr ⟨pre ++ [c], List.prefix_rfl, by rw [e4 y hy, List.append_assoc]⟩
        · rintro (hy | ⟨p, hp, rfl⟩)
          · exact List.mem_append_left _ ((h6 y).2 (Or.inl hy))
          · refine closed_prefix e1.closed hm ?_
            rw [List.append_assoc]
            exact (List.prefix_append_right_inj x).2 hp

/-- Every word is shorter than the number of nodes. -/
theorem length_lt {lab : List (List κ)} (h : ∀ x c, x ++ [c] ∈ lab → x ∈ lab) {x : List κ} (hx : x ∈ lab) : x.length < lab.length := by
  classical
  have hsub : ((List.range (x.length + 1)).map fun i => x.take i) ⊆ lab := by
    intro y hy
    obtain ⟨i, -, rfl⟩ := List.mem_map.1 hy
    exact closed_prefix h hx (List.take_prefix i x)
  have hnd : ((List.range (x.length + 1)).map fun i => x.take i).Nodup := by
    rw [List.nodup_map_iff_inj_on List.nodup_range]
    intro i hi j hj e
    have := congrArg List.length e
    simp only [List.length_take, List.mem_range] at *
    omega
  have := (List.subperm_of_subset hnd hsub).length_le
  simp at this
  omega

/-! ### Longest suffixes -/

/-- `x` is the longest word of `lab` that is a suffix of `w`. -/
def IsLS (lab : List (List κ)) (w x : List κ) : Prop := x ∈ lab ∧ x <:+ w ∧ ∀ y ∈ lab, y <:+ w → y <:+ x

/-- `f` is the longest proper suffix of `x` in `lab`. -/
def IsFail (lab : List (List κ)) (x f : List κ) : Prop := f ∈ lab ∧ f <:+ x ∧ f ≠ x ∧ ∀ y ∈ lab, y <:+ x → y ≠ x → y <:+ f

theorem IsLS.unique {lab : List (List κ)} {w x y : List κ} (hx : IsLS lab w x) (hy : IsLS lab w y) : x = y := by
  have h1 := hx.2.2 y hy.1 hy.2.1
  have h2 := hy.2.2 x hx.1 hx.2.1
  exact h2.eq_of_length_le h1.length_le

theorem IsFail.length_lt {lab : List (List κ)} {x f : List κ} (h : IsFail lab x f) : f.length < x.length := by
  rcases Nat.lt_or_ge f.length x.length with h' | h'
  · exact h'
  · exact absurd (h.2.1.eq_of_length_le h') h.2.2.1

theorem suffix_snoc {y w : List κ} {c : κ} (h : y <:+ w ++ [c]) : y = [] ∨ ∃ y', y = y' ++ [c] ∧ y' <:+ w := by
  rcases y.eq_nil_or_concat' with rfl | ⟨y', d, rfl⟩
  · exact Or.inl rfl
  · right
    obtain ⟨t, ht⟩ := h
    rw [← List.append_assoc] at ht
    obtain ⟨h1, h2⟩ := List.append_inj' ht rfl
    exact ⟨y', by rw [h2], t, h1⟩

theorem snoc_suffix {y w : List κ} (h : y <:+ w) (c : κ) : y ++ [c] <:+ w ++ [c] := by
  obtain ⟨t, rfl⟩ := h
  exact ⟨t, by simp⟩

/-- A letter is appended: it is enough to look at the longest suffix. -/
theorem IsLS.snoc {lab : List (List κ)} (hroot : [] ∈ lab) (hcl : ∀ x c, x ++ [c] ∈ lab → x ∈ lab) {w x z : List κ} {c : κ} (hx : IsLS lab w x)
    (hz : IsLS lab (x ++ [c]) z) : IsLS lab (w ++ [c]) z := by
  refine ⟨hz.1, hz.2.1.trans (snoc_suffix hx.2.1 c), fun y hy hyw => ?_⟩
  rcases suffix_snoc hyw with rfl | ⟨y', rfl, hy'⟩
  · exact List.nil_suffix
  · exact hz.2.2 _ hy (snoc_suffix (hx.2.2 y' (hcl y' c hy) hy') c)

theorem IsLS.of_mem {lab : List (List κ)} {x : List κ} (h : x ∈ lab) : IsLS lab x x := ⟨h, List.suffix_rfl, fun _ _ h => h⟩

theorem isLS_root {lab : List (List κ)} {c : κ} (hroot : [] ∈ lab) (h : [c] ∉ lab) : IsLS lab [c] [] := by
  refine ⟨hroot, List.nil_suffix, fun y hy hs => ?_⟩
  rcases suffix_snoc (w := []) hs with rfl | ⟨y', rfl, hy'⟩
  · exact List.nil_suffix
  · rw [List.suffix_nil.1 hy'] at hy
    exact absurd hy h

/-- No child: continue at the failure link. -/
theorem IsLS.fail {lab : List (List κ)} (hcl : ∀ x c, x ++ [c] ∈ lab → x ∈ lab) {x f z : List κ} {c : κ} (hf : IsFail lab x f) (h : x ++ [c] ∉ lab)
    (hz : IsLS lab (f ++ [c]) z) : IsLS lab (x ++ [c]) z := by
  refine ⟨hz.1, hz.2.1.trans (snoc_suffix hf.2.1 c), fun y hy hs => ?_⟩
  rcases suffix_snoc hs with rfl | ⟨y', rfl, hy'⟩
  · exact List.nil_suffix
  · refine hz.2.2 _ hy (snoc_suffix (hf.2.2.2 y' (hcl y' c hy) hy' ?_) c)
    rintro rfl
    exact h hy

/-- The failure link of a child. -/
theorem isFail_child {lab : List (List κ)} (hcl : ∀ x c, x ++ [c] ∈ lab → x ∈ lab) {x f z : List κ} {c : κ} (hf : IsFail lab x f)
    (hz : IsLS lab (f ++ [c]) z) : IsFail lab (x ++ [c]) z := by
  refine ⟨hz.1, hz.2.1.trans (snoc_suffix hf.2.1 c), ?_, fun y hy hs hne => ?_⟩
  · rintro rfl
    have := hz.2.1.length_le
    have := hf.length_lt
    simp at *
    omega
  · rcases suffix_snoc hs with rfl | ⟨y', rfl, hy'⟩
    · exact List.nil_suffix
    · refine hz.2.2 _ hy (snoc_suffix (hf.2.2.2 y' (hcl y' c hy) hy' ?_) c)
      rintro rfl
      exact hne rfl

theorem isFail_single {lab : List (List κ)} (hroot : [] ∈ lab) {c : κ} : IsFail lab [c] [] := by
  refine ⟨hroot, List.nil_suffix, by simp, fun y hy hs hne => ?_⟩
  rcases suffix_snoc (w := []) hs with rfl | ⟨y', rfl, hy'⟩
  · exact List.nil_suffix
  · rw [List.suffix_nil.1 hy'] at hne
    exact absurd rfl hne

/-! ### Breadth-first order -/

/-- Depth of a node. -/
def dep (lab : List (List κ)) (u : Nat) : Nat := (lab[u]?.getD []).length

/-- `u` is the parent of `v`. -/
def Par (lab : List (List κ)) (u v : Nat) : Prop := ∃ x c, lab[u]? = some x ∧ lab[v]? = some (x ++ [c])

theorem Par.dep {lab : List (List κ)} {u v : Nat} (h : Par lab u v) : dep lab v = dep lab u + 1 := by
  obtain ⟨x, c, h1, h2⟩ := h
  simp [Trie.dep, h1, h2]

/-- `done` are the finished nodes, `dq` the queue. -/
structure Bfs (lab : List (List κ)) (done dq : List Nat) : Prop where
  nodup : (done ++ dq).Nodup
  lt : ∀ v ∈ done ++ dq, v < lab.length
  zero : 0 ∈ done ++ dq
  sorted : (done ++ dq).Pairwise fun u v => dep lab u ≤ dep lab v
  closed : ∀ u ∈ done, ∀ v, Par lab u v → v ∈ done ++ dq
  parent : ∀ v ∈ done ++ dq, v ≠ 0 → ∃ u ∈ done, Par lab u v

theorem Bfs.init {lab : List (List κ)} (h : 0 < lab.length) : Bfs lab [] [0] :=
  ⟨by simp, by simp [h], by simp, by simp, by simp, by simp⟩

theorem exists_parent {ch : Nat → κ → Option Nat} {lab : List (List κ)} (h : Rep ch lab) {v : Nat} (hv : v < lab.length) (h0 : v ≠ 0) :
    ∃ u, u < lab.length ∧ Par lab u v := by
  obtain ⟨y, hy⟩ : ∃ y, lab[v]? = some y := ⟨lab[v], List.getElem?_eq_getElem hv⟩
  rcases y.eq_nil_or_concat' with rfl | ⟨x, c, rfl⟩
  · exact absurd (idx_inj h.nodup hy h.root) h0
  · obtain ⟨u, hu⟩ := List.getElem?_of_mem (h.closed x c (List.mem_of_getElem? hy))
    exact ⟨u, (List.getElem?_eq_some_iff.1 hu).1, x, c, hu, hy⟩

theorem Bfs.front {lab : List (List κ)} {done dq : List Nat} {cur : Nat} (h : Bfs lab done (cur :: dq)) :
    (∀ u ∈ done, dep lab u ≤ dep lab cur) ∧ ∀ u ∈ dq, dep lab cur ≤ dep lab u := by
  have hs := h.sorted
  rw [List.pairwise_append] at hs
  exact ⟨fun u hu => hs.2.2 u hu cur (by simp), fun u hu => (List.pairwise_cons.1 hs.2.1).1 u hu⟩

theorem Bfs.low {ch : Nat → κ → Option Nat} {lab : List (List κ)} (hrep : Rep ch lab) {done dq : List Nat} {cur : Nat} (h : Bfs lab done (cur :: dq)) :
    (∀ w < lab.length, dep lab w ≤ dep lab cur → w ∈ done ++ cur :: dq) ∧ ∀ w < lab.length, dep lab w < dep lab cur → w ∈ done := by
  have hd : ∀ w ∈ done ++ cur :: dq, dep lab w < dep lab cur → w ∈ done := by
    intro w hw hlt
    rcases List.mem_append.1 hw with hw | hw
    · exact hw
    · rcases List.mem_cons.1 hw with rfl | hw
      · omega
      · have := h.front.2 w hw
        omega
  have key : ∀ k, ∀ w < lab.length, dep lab w = k → dep lab w ≤ dep lab cur → w ∈ done ++ cur :: dq := by
    intro k
    induction k with
    | zero =>
      intro w hw hk _
      by_cases h0 : w = 0
      · rw [h0]; exact h.zero
      · obtain ⟨u, -, hp⟩ := exists_parent hrep hw h0
        have := hp.dep
        omega
    | succ k ih =>
      intro w hw hk hle
      by_cases h0 : w = 0
      · rw [h0]; exact h.zero
      · obtain ⟨u, hu, hp⟩ := exists_parent hrep hw h0
        have := hp.dep
        exact h.closed u (hd u (ih u hu (by omega) (by omega)) (by omega)) w hp
  exact ⟨fun w hw hle => key _ w hw rfl hle, fun w hw hlt => hd w (key _ w hw rfl (by omega)) hlt⟩

theorem Bfs.fresh {lab : List (List κ)} (hnd : lab.Nodup) {done dq : List Nat} {cur : Nat} (h : Bfs lab done (cur :: dq)) {v : Nat}
    (hp : Par lab cur v) (hroot : lab[0]? = some []) : v ∉ done ++ cur :: dq := by
  intro hv
  obtain ⟨x, c, h1, h2⟩ := hp
  have h0 : v ≠ 0 := by
    rintro rfl
    rw [hroot] at h2
    simp at h2
  obtain ⟨u, hu, y, d, h3, h4⟩ := h.parent v hv h0
  rw [h2] at h4
  obtain ⟨rfl, -⟩ := List.append_inj' (Option.some.inj h4) rfl
  have : u = cur := idx_inj hnd h3 h1
  subst this
  have hnn := h.nodup
  rw [List.nodup_append] at hnn
  exact hnn.2.2 u hu u (by simp) rfl

theorem Bfs.step {lab : List (List κ)} (hnd : lab.Nodup) (hroot : lab[0]? = some []) {done dq kids : List Nat} {cur : Nat}
    (h : Bfs lab done (cur :: dq)) (hk : kids.Nodup) (hkids : ∀ v, v ∈ kids ↔ Par lab cur v) : Bfs lab (done ++ [cur]) (dq ++ kids) := by
  have e : (done ++ [cur]) ++ (dq ++ kids) = (done ++ cur :: dq) ++ kids := by simp
  have hmem : ∀ v, v ∈ (done ++ [cur]) ++ (dq ++ kids) ↔ v ∈ done ++ cur :: dq ∨ v ∈ kids := by
    intro v; rw [e, List.mem_append]
  have hfresh : ∀ v ∈ kids, v ∉ done ++ cur :: dq := fun v hv => h.fresh hnd ((hkids v).1 hv) hroot
  refine ⟨?_, ?_, ?_, ?_, ?_, ?_⟩
  · rw [e, List.nodup_append]
    refine ⟨h.nodup, hk, fun a ha b hb => ?_⟩
    rintro rfl
    exact hfresh a hb ha
  · intro v hv
    rcases (hmem v).1 hv with hv | hv
    · exact h.lt v hv
    · obtain ⟨x, c, -, h2⟩ := (hkids v).1 hv
      exact (List.getElem?_eq_some_iff.1 h2).1
  · rw [hmem]; exact Or.inl h.zero
  · rw [e, List.pairwise_append]
    refine ⟨h.sorted, ?_, ?_⟩
    · refine List.pairwise_iff_forall_sublist.2 fun {a b} hab => ?_
      have ha := ((hkids a).1 (hab.subset (by simp))).dep
      have hb := ((hkids b).1 (hab.subset (by simp))).dep
      omega
    · intro a ha b hb
      have hb' := ((hkids b).1 hb).dep
      by_cases h0 : a = 0
      · have : dep lab a = 0 := by rw [h0]; simp [dep, hroot]
        omega
      · obtain ⟨u, hu, hp⟩ := h.parent a ha h0
        have := hp.dep
        have := h.front.1 u hu
        omega
  · intro u hu v hp
    rw [hmem]
    rcases List.mem_append.1 hu with hu | hu
    · exact Or.inl (h.closed u hu v hp)
    · rw [List.mem_singleton] at hu
      subst hu
      exact Or.inr ((hkids v).2 hp)
  · intro v hv h0
    rcases (hmem v).1 hv with hv | hv
    · obtain ⟨u, hu, hp⟩ := h.parent v hv h0
      exact ⟨u, by simp [hu], hp⟩
    · exact ⟨cur, by simp, (hkids v).1 hv⟩

theorem Bfs.finish {ch : Nat → κ → Option Nat} {lab : List (List κ)} (hrep : Rep ch lab) {done : List Nat} (h : Bfs lab done []) :
    ∀ v < lab.length, v ∈ done := by
  have key : ∀ k, ∀ w < lab.length, dep lab w = k → w ∈ done := by
    intro k
    induction k with
    | zero =>
      intro w hw hk
      by_cases h0 : w = 0
      · rw [h0]; simpa using h.zero
      · obtain ⟨u, -, hp⟩ := exists_parent hrep hw h0
        have := hp.dep
        omega
    | succ k ih =>
      intro w hw hk
      by_cases h0 : w = 0
      · rw [h0]; simpa using h.zero
      · obtain ⟨u, hu, hp⟩ := exists_parent hrep hw h0
        have := hp.dep
        simpa using h.closed u (ih u hu (by omega)) w hp
  exact fun v hv => key _ v hv rfl

theorem Bfs.done_lt {lab : List (List κ)} {done dq : List Nat} {cur : Nat} (h : Bfs lab done (cur :: dq)) : done.length < lab.length := by
  have hsub : done ++ cur :: dq ⊆ List.range lab.length := fun v hv => List.mem_range.2 (h.lt v hv)
  have := (List.subperm_of_subset h.nodup hsub).length_le
  simp at this
  omega

end Trie
