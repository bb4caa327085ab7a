import Verif.Proof.Trie

/-! # Proofs about `library/string/{trie_array,trie_map}.hpp` -/

namespace Trie
open Cxx

/-- The operations of a trie with user data `P` in the nodes. -/
structure Ops (σ κ P : Type) where
  make : σ
  child : σ → Nat → κ → M Int
  add : σ → List κ → Nat → M (σ × Nat)
  setVal : σ → Nat → (P → P) → M σ
  getVal : σ → Nat → M P

/-- Follow the letters of a word from a node; `none` when a child is missing (`-1`). -/
def walk {σ κ P : Type} (O : Ops σ κ P) (s : σ) : List κ → Nat → M (Option Nat)
  | [], u => return some u
  | c :: w, u => do
    let x ← O.child s u c
    if x = -1 then return none else walk O s w x.toNat

/-- A use of the trie: add the word `w` below the node of the word `p` and update the data of the node that is returned. -/
structure Use (κ P : Type) where
  p : List κ
  w : List κ
  f : P → P

/-- Run a use. -/
def use {σ κ P : Type} (O : Ops σ κ P) (s : σ) (op : Use κ P) : M σ := do
  let r ← walk O s op.p 0
  match r with
  | none => .error .ub
  | some u => do
    let r ← O.add s op.w u
    O.setVal r.1 r.2 op.f

/-- Each start word is empty or a prefix of a word that is present. -/
def Valid {κ P : Type} : List (List κ) → List (Use κ P) → Prop
  | _, [] => True
  | ws, op :: ops => (op.p = [] ∨ ∃ w ∈ ws, op.p <+: w) ∧ Valid (ws ++ [op.p ++ op.w]) ops

/-- What an implementation has to satisfy. -/
structure Lawful {σ κ P : Type} [DecidableEq κ] (O : Ops σ κ P) (d : P) (ok : κ → Prop) where
  Inv : σ → Prop
  ch : σ → Nat → κ → Option Nat
  size : σ → Nat
  val : σ → Nat → P
  make_inv : Inv O.make
  make_ch : ∀ u c, ch O.make u c = none
  make_size : size O.make = 1
  make_val : val O.make 0 = d
  child_eq : ∀ s u c, Inv s → u < size s → ok c → O.child s u c = .ok (match ch s u c with | some v => (v : Int) | none => -1)
  add_tot : ∀ s lab, Inv s → Rep (ch s) lab → size s = lab.length → ∀ u x w, lab[u]? = some x → (∀ c ∈ w, ok c) →
    Tot (O.add s w u) fun r => Inv r.1 ∧ (∀ i < size s, val r.1 i = val s i) ∧ (∀ i, size s ≤ i → i < size r.1 → val r.1 i = d) ∧
      ∃ lab', Rep (ch r.1) lab' ∧ size r.1 = lab'.length ∧ AddOk lab x w lab' r.2
  set_tot : ∀ s u f, Inv s → u < size s → Tot (O.setVal s u f) fun s' => Inv s' ∧ ch s' = ch s ∧ size s' = size s ∧
    ∀ i, val s' i = if i = u then f (val s u) else val s i
  get_eq : ∀ s u, Inv s → u < size s → O.getVal s u = .ok (val s u)

section
variable {σ κ P : Type} [DecidableEq κ] {O : Ops σ κ P} {d : P} {ok : κ → Prop}

theorem walk_eq (L : Lawful O d ok) {s : σ} {lab : List (List κ)} (hinv : L.Inv s) (hrep : Rep (L.ch s) lab) (hsz : L.size s = lab.length) :
    ∀ (w : List κ) (u : Nat) (x : List κ), lab[u]? = some x → (∀ c ∈ w, ok c) →
      ∃ r, walk O s w u = .ok r ∧ ∀ v, r = some v ↔ lab[v]? = some (x ++ w) := by
  intro w
  induction w with
  | nil =>
    intro u x hu _
    refine ⟨some u, rfl, fun v => ?_⟩
    rw [List.append_nil]
    constructor
    · intro h; cases h; exact hu
    · intro h; rw [idx_inj hrep.nodup hu h]
  | cons c w ih =>
    intro u x hu hw
    have hul := (List.getElem?_eq_some_iff.1 hu).1
    rw [walk, L.child_eq s u c hinv (by omega) (hw c (by simp)), ok_bind]
    cases hc : L.ch s u c with
    | none =>
      refine ⟨none, rfl, fun v => ?_⟩
      simp only [reduceCtorEq, false_iff]
      intro hv
      have hm : x ++ [c] ∈ lab := closed_prefix hrep.closed (List.mem_of_getElem? hv) ⟨w, by simp⟩
      obtain ⟨v', hv'⟩ := List.getElem?_of_mem hm
      have := (hrep.child u c v').2 ⟨x, hu, hv'⟩
      rw [hc] at this
      cases this
    | some v' =>
      obtain ⟨y, hy1, hy2⟩ := (hrep.child u c v').1 hc
      rw [hu] at hy1
      cases hy1
      obtain ⟨r, hr1, hr2⟩ := ih v' (x ++ [c]) hy2 (fun c hc => hw c (by simp [hc]))
      refine ⟨r, ?_, fun v => by rw [hr2]; simp⟩
      dsimp only
      rw [if_neg (by omega), Int.toNat_natCast, hr1]

/-- The state after some uses: words, nodes and data. -/
def After (L : Lawful O d ok) (ops : List (Use κ P)) (s : σ) : Prop :=
  L.Inv s ∧ ∃ lab, Rep (L.ch s) lab ∧ L.size s = lab.length ∧ (∀ x, x ∈ lab ↔ x = [] ∨ ∃ op ∈ ops, x <+: op.p ++ op.w) ∧
    ∀ (u : Nat) x, lab[u]? = some x → L.val s u = (ops.filter fun op => decide (op.p ++ op.w = x)).foldl (fun a op => op.f a) d

theorem After.init (L : Lawful O d ok) : After L [] O.make := by
  refine ⟨L.make_inv, [[]], ⟨rfl, by simp, fun u c v => ?_, fun x c h => by simp at h⟩, by simp [L.make_size], by simp, fun u x h => ?_⟩
  · rw [L.make_ch]
    simp only [reduceCtorEq, false_iff, not_exists, not_and]
    intro x h1 h2
    have := List.mem_of_getElem? h2
    simp at this
  · have := (List.getElem?_eq_some_iff.1 h).1
    simp at this
    subst this
    simp [L.make_val]

theorem use_tot (L : Lawful O d ok) {ops : List (Use κ P)} {s : σ} (h : After L ops s) (op : Use κ P) (hp : op.p = [] ∨ ∃ o ∈ ops, op.p <+: o.p ++ o.w)
    (hok : ∀ c ∈ op.p ++ op.w, ok c) : Tot (use O s op) (After L (ops ++ [op])) := by
  obtain ⟨h1, lab, h2, h3, h4, h5⟩ := h
  obtain ⟨r, hr1, hr2⟩ := walk_eq L h1 h2 h3 op.p 0 [] h2.root (fun c hc => hok c (by simp [hc]))
  obtain ⟨u, hu⟩ := List.getElem?_of_mem ((h4 op.p).2 hp)
  have hr : r = some u := (hr2 u).2 (by simpa using hu)
  rw [use, hr1, ok_bind, hr]
  dsimp only
  refine Tot.bind (L.add_tot s lab h1 h2 h3 u op.p op.w hu (fun c hc => hok c (by simp [hc]))) ?_
  rintro ⟨t, v⟩ ⟨g1, g2, g3, lab', g4, g5, g6, g7, g8⟩
  dsimp only at g1 g2 g3 g4 g5 g7
  have hv := (List.getElem?_eq_some_iff.1 g7).1
  refine (L.set_tot t v op.f g1 (by omega)).mono ?_
  rintro t' ⟨e1, e2, e3, e4⟩
  refine ⟨e1, lab', by rw [e2]; exact g4, by omega, fun x => ?_, fun i x hi => ?_⟩
  · rw [g8, h4]
    constructor
    · rintro ((rfl | ⟨o, ho, hx⟩) | ⟨p, hp', rfl⟩)
      · exact Or.inl rfl
      · exact Or.inr ⟨o, by simp [ho], hx⟩
      · exact Or.inr ⟨op, by simp, (List.prefix_append_right_inj _).2 hp'⟩
    · rintro (rfl | ⟨o, ho, hx⟩)
      · exact Or.inl (Or.inl rfl)
      · rcases List.mem_append.1 ho with ho | ho
        · exact Or.inl (Or.inr ⟨o, ho, hx⟩)
        · rw [List.mem_singleton] at ho
          subst ho
          rcases Nat.lt_or_ge x.length o.p.length with hlt | hge
          · left
            have hxp : x <+: o.p := List.prefix_of_prefix_length_le hx (List.prefix_append _ _) (by omega)
            rcases hp with hp | ⟨o', ho', hp⟩
            · rw [hp] at hxp
              exact Or.inl (List.prefix_nil.1 hxp)
            · exact Or.inr ⟨o', ho', hxp.trans hp⟩
          · right
            obtain ⟨p, rfl⟩ : o.p <+: x := List.prefix_of_prefix_length_le (List.prefix_append _ _) hx hge
            exact ⟨p, (List.prefix_append_right_inj _).1 hx, rfl⟩
  · -- data
    have hbase : L.val t i = (ops.filter fun o => decide (o.p ++ o.w = x)).foldl (fun a o => o.f a) d := by
      rcases Nat.lt_or_ge i lab.length with hlt | hge
      · rw [g2 i (by omega)]
        apply h5
        rw [List.prefix_iff_eq_append] at g6
        rw [← g6, List.getElem?_append_left hlt] at hi
        exact hi
      · rw [g3 i (by omega) (by rw [g5]; exact (List.getElem?_eq_some_iff.1 hi).1)]
        have : (ops.filter fun o => decide (o.p ++ o.w = x)) = [] := by
          rw [List.filter_eq_nil_iff]
          intro o ho he
          have he' : o.p ++ o.w = x := by simpa using he
          obtain ⟨j, hj⟩ := List.getElem?_of_mem ((h4 x).2 (Or.inr ⟨o, ho, by rw [he']⟩))
          have hjl := (List.getElem?_eq_some_iff.1 hj).1
          have hj' : lab'[j]? = some x := by
            rw [List.prefix_iff_eq_append] at g6
            rw [← g6, List.getElem?_append_left hjl]
            exact hj
          have := idx_inj g4.nodup hi hj'
          omega
        rw [this]
        rfl
    rw [e4, List.filter_append, List.foldl_append, ← hbase]
    by_cases hiv : i = v
    · subst hiv
      rw [g7] at hi
      cases hi
      simp
    · rw [if_neg hiv]
      have : op.p ++ op.w ≠ x := by
        rintro rfl
        exact hiv (idx_inj g4.nodup hi g7)
      simp [this]

theorem uses_tot (L : Lawful O d ok) (ops : List (Use κ P)) (hv : Valid [] ops) (hok : ∀ op ∈ ops, ∀ c ∈ op.p ++ op.w, ok c) :
    Tot (forEach ops O.make (use O)) (After L ops) := by
  have split : ∀ (pre post : List (Use κ P)) (ws : List (List κ)), Valid ws (pre ++ post) → Valid (ws ++ pre.map fun o => o.p ++ o.w) post := by
    intro pre
    induction pre with
    | nil => intro post ws h; simpa using h
    | cons o pre ih => intro post ws h; simpa using ih post _ h.2
  refine Tot.forEach (P := After L) (After.init L) ?_
  intro pre op post s he hs
  have h1 := split pre (op :: post) [] (he ▸ hv)
  refine use_tot L hs op ?_ (hok op (by simp [he]))
  rcases h1.1 with h | ⟨w, hw, h⟩
  · exact Or.inl h
  · simp only [List.nil_append, List.mem_map] at hw
    obtain ⟨o, ho, rfl⟩ := hw
    exact Or.inr ⟨o, ho, h⟩

theorem trie_tot (L : Lawful O d ok) (ops : List (Use κ P)) (hv : Valid [] ops) (hok : ∀ op ∈ ops, ∀ c ∈ op.p ++ op.w, ok c) :
    ∃ s, forEach ops O.make (use O) = .ok s ∧
      (∀ x, (∀ c ∈ x, ok c) → ∃ r, walk O s x 0 = .ok r ∧ (r ≠ none ↔ x = [] ∨ ∃ op ∈ ops, x <+: op.p ++ op.w) ∧
        ∀ u, r = some u → O.getVal s u = .ok ((ops.filter fun op => decide (op.p ++ op.w = x)).foldl (fun a op => op.f a) d)) ∧
      ∀ x y u, (∀ c ∈ x, ok c) → (∀ c ∈ y, ok c) → walk O s x 0 = .ok (some u) → walk O s y 0 = .ok (some u) → x = y := by
  obtain ⟨s, hs, h1, lab, h2, h3, h4, h5⟩ := uses_tot L ops hv hok
  have hw := fun x hx => walk_eq L h1 h2 h3 x 0 [] h2.root hx
  refine ⟨s, hs, fun x hx => ?_, fun x y u hx hy ex ey => ?_⟩
  · obtain ⟨r, hr1, hr2⟩ := hw x hx
    simp only [List.nil_append] at hr2
    refine ⟨r, hr1, ?_, fun u hu => ?_⟩
    · rw [← h4, Option.ne_none_iff_exists']
      constructor
      · rintro ⟨u, hu⟩
        exact List.mem_of_getElem? ((hr2 u).1 hu)
      · intro hm
        obtain ⟨u, hu⟩ := List.getElem?_of_mem hm
        exact ⟨u, (hr2 u).2 hu⟩
    · have hu' := (hr2 u).1 hu
      rw [L.get_eq s u h1 (by rw [h3]; exact (List.getElem?_eq_some_iff.1 hu').1), h5 u x hu']
  · obtain ⟨r, hr1, hr2⟩ := hw x hx
    obtain ⟨r', hr1', hr2'⟩ := hw y hy
    rw [hr1] at ex
    rw [hr1'] at ey
    have a := (hr2 u).1 (Except.ok.inj ex)
    have b := (hr2' u).1 (Except.ok.inj ey)
    rw [a] at b
    simpa using b

end

end Trie

namespace MapTrie
open Cxx Trie
variable {κ P : Type} [DecidableEq κ]

/-- Abstract children. -/
def ch (s : Array (Node κ P)) (u : Nat) (c : κ) : Option Nat := (s[u]?.bind fun v => v.next.lookup c).map Int.toNat

/-- Stored node numbers are not negative. -/
def Inv (s : Array (Node κ P)) : Prop := ∀ (u : Nat) (v : Node κ P), s[u]? = some v → ∀ c x, v.next.lookup c = some x → 0 ≤ x

/-- The operations. -/
def ops (κ P : Type) [DecidableEq κ] (d : P) : Ops (Array (Node κ P)) κ P := ⟨make d, child, add d, setVal, getVal⟩

theorem lookup_snoc (l : List (κ × Int)) (c b : κ) (n : Int) (h : l.lookup c = none) :
    (l ++ [(c, n)]).lookup b = if b = c then some n else l.lookup b := by
  rw [List.lookup_append]
  by_cases hb : b = c
  · subst hb
    rw [h, if_pos rfl]
    simp [List.lookup]
  · rw [if_neg hb]
    have : (b == c) = false := by simpa using hb
    simp [List.lookup, this]

theorem step_tot (d : P) (s : Array (Node κ P)) (u : Nat) (c : κ) (hs : Inv s) (hu : u < s.size) :
    Tot (addStep d (s, u) c) fun r => Inv r.1 ∧ (s.size ≤ r.1.size ∧ (∀ i < s.size, r.1[i]?.map (·.val) = s[i]?.map (·.val)) ∧
      ∀ i, s.size ≤ i → i < r.1.size → r.1[i]?.map (·.val) = some d) ∧ AStep (ch s) s.size u c (ch r.1) r.1.size r.2 := by
  have hg : s[u]? = some s[u] := Array.getElem?_eq_getElem hu
  rw [addStep]
  dsimp only
  rw [rd_eq hu, ok_bind]
  cases hl : s[u].next.lookup c with
  | some x =>
    have hx := hs u _ hg c x hl
    dsimp only
    rw [nodeIndex, if_neg (by omega), ok_bind]
    refine Tot.pure ⟨hs, ⟨le_refl _, fun _ _ => rfl, fun i h1 (h2 : i < s.size) => by omega⟩, Or.inl ⟨?_, rfl, fun _ _ => rfl⟩⟩
    simp [ch, hg, hl]
  | none =>
    dsimp only
    rw [grow, rd_eq hu, ok_bind, wr_eq hu, ok_bind]
    obtain ⟨nn, hnn⟩ : ∃ nn : Node κ P, nn = { s[u] with next := s[u].next ++ [(c, (s.size : Int))] } := ⟨_, rfl⟩
    rw [← hnn]
    have hval : nn.val = s[u].val := by rw [hnn]
    have hlk : ∀ b, nn.next.lookup b = if b = c then some (s.size : Int) else s[u].next.lookup b := by
      intro b; rw [hnn]; exact lookup_snoc _ _ _ _ hl
    have hget : ∀ i, ((s.setIfInBounds u nn).push (⟨[], d⟩ : Node κ P))[i]? = if i = s.size then some ⟨[], d⟩ else if i = u then some nn else s[i]? := by
      intro i
      rw [Array.getElem?_push, Array.size_setIfInBounds, Array.getElem?_setIfInBounds]
      by_cases h1 : i = s.size
      · rw [if_pos h1, if_pos h1]
      · rw [if_neg h1, if_neg h1]
        by_cases h2 : u = i
        · rw [if_pos h2, if_pos h2.symm, if_pos hu]
        · rw [if_neg h2, if_neg (fun h => h2 h.symm)]
    refine Tot.pure ⟨?_, ⟨by simp, fun i hi => ?_, fun i h1 h2 => ?_⟩, Or.inr ⟨by simp [ch, hg, hl], rfl, by simp, fun a b => ?_⟩⟩
    · intro a v hv b x hx
      dsimp only at hv
      rw [hget] at hv
      split at hv
      · cases hv; simp at hx
      · split at hv
        · cases hv
          rw [hlk] at hx
          split at hx
          · cases hx; omega
          · exact hs u _ hg b x hx
        · exact hs a v hv b x hx
    · dsimp only
      rw [hget, if_neg (by omega)]
      split
      · rename_i h; subst h; rw [hg]; simp [hval]
      · rfl
    · dsimp only at h2 ⊢
      simp only [Array.size_push, Array.size_setIfInBounds] at h2
      rw [hget, if_pos (by omega)]
      rfl
    · dsimp only [ch]
      rw [hget]
      by_cases h1 : a = s.size
      · subst h1
        rw [if_pos rfl, if_neg (by omega)]
        simp
      · rw [if_neg h1]
        by_cases h2 : a = u
        · subst h2
          rw [if_pos rfl, hg]
          simp only [Option.bind_some]
          rw [hlk]
          by_cases h3 : b = c
          · simp [h3]
          · simp [h3]
        · rw [if_neg h2, if_neg (fun h => h2 h.1)]

/-- The map trie is a lawful trie. -/
def lawful (d : P) : Lawful (ops κ P d) d (fun _ => True) where
  Inv := Inv
  ch := ch
  size := Array.size
  val := fun s u => (s[u]?.map (·.val)).getD d
  make_inv := by
    intro u v h c x hx
    have h' : (#[⟨[], d⟩] : Array (Node κ P))[u]? = some v := h
    have := (Array.getElem?_eq_some_iff.1 h').1
    simp at this
    subst this
    simp at h'
    subst h'
    simp at hx
  make_ch := by
    intro u c
    show ((#[⟨[], d⟩] : Array (Node κ P))[u]?.bind fun v => v.next.lookup c).map Int.toNat = none
    rcases u with _ | u <;> simp
  make_size := rfl
  make_val := rfl
  child_eq := by
    intro s u c hs hu _
    show child s u c = _
    have hg : s[u]? = some s[u] := Array.getElem?_eq_getElem hu
    rw [child, rd_eq hu, ok_bind, getConst]
    cases hl : s[u].next.lookup c with
    | none => simp [ch, hg, hl]
    | some x =>
      have hx := hs u _ hg c x hl
      have : ((x.toNat : Nat) : Int) = x := by omega
      simp [ch, hg, hl]
      exact hx
  add_tot := by
    intro s lab hs hrep hsz u x w hu hw
    have hlt := (List.getElem?_eq_some_iff.1 hu).1
    refine (Trie.add_tot ch Array.size Inv (fun _ => True) (fun s t => s.size ≤ t.size ∧ (∀ i < s.size, t[i]?.map (·.val) = s[i]?.map (·.val)) ∧
      ∀ i, s.size ≤ i → i < t.size → t[i]?.map (·.val) = some d) (fun s => ⟨le_refl _, fun _ _ => rfl, fun i h1 h2 => by omega⟩) ?_
      (addStep d) (fun s u c h1 h2 _ _ => step_tot d s u c h1 h2) s lab hs hrep hsz u x w hu (fun _ _ => trivial)).mono ?_
    · rintro s t r ⟨h1, h2, h3⟩ ⟨g1, g2, g3⟩
      refine ⟨by omega, fun i hi => by rw [g2 i (by omega), h2 i hi], fun i hi1 hi2 => ?_⟩
      rcases Nat.lt_or_ge i t.size with h | h
      · rw [g2 i h, h3 i hi1 h]
      · exact g3 i h hi2
    · rintro r ⟨h1, ⟨h2, h3, h4⟩, h5⟩
      exact ⟨h1, fun i hi => by rw [h3 i hi], fun i hi1 hi2 => by rw [h4 i hi1 hi2]; rfl, h5⟩
  set_tot := by
    intro s u f hs hu
    show Tot (setVal s u f) _
    have hg : s[u]? = some s[u] := Array.getElem?_eq_getElem hu
    rw [setVal, rd_eq hu, ok_bind, wr_eq hu]
    have hget : ∀ i, (s.setIfInBounds u { s[u] with val := f s[u].val })[i]? = if i = u then some { s[u] with val := f s[u].val } else s[i]? := by
      intro i
      rw [Array.getElem?_setIfInBounds]
      by_cases h : u = i
      · rw [if_pos h, if_pos h.symm, if_pos hu]
      · rw [if_neg h, if_neg (fun e => h e.symm)]
    refine Tot.pure ⟨?_, ?_, by simp, fun i => ?_⟩
    · intro a v hv c x hx
      rw [hget] at hv
      split at hv
      · cases hv; exact hs u _ hg c x hx
      · exact hs a v hv c x hx
    · funext a c
      rw [ch, ch, hget]
      split
      · rename_i h; subst h; rw [hg]; rfl
      · rfl
    · rw [hget]
      split
      · rw [hg]; rfl
      · rfl
  get_eq := by
    intro s u _ hu
    show getVal s u = _
    rw [getVal, rd_eq hu, ok_bind, Array.getElem?_eq_getElem hu]
    rfl

end MapTrie

namespace ArrayTrie
open Cxx Trie
variable {P : Type}

/-- Abstract children. -/
def ch (off : Int) (s : Array (Node P)) (u : Nat) (c : Int) : Option Nat :=
  s[u]?.bind fun v => if off ≤ c then v.next[(c - off).toNat]?.bind fun x => if x = -1 then none else some x.toNat else none

/-- Sizes of the child arrays and range of the entries. -/
def Inv (σ : Nat) (s : Array (Node P)) : Prop := ∀ (u : Nat) v, s[u]? = some v → v.next.size = σ ∧ ∀ (i : Nat) x, v.next[i]? = some x → -1 ≤ x

/-- The operations. -/
def ops (σ : Nat) (off : Int) (d : P) : Ops (Array (Node P)) Int P :=
  ⟨make σ d, fun s u c => do let i ← index σ off c; child s u i, add σ off d, setVal, getVal⟩

/-- Valid letters. -/
def okc (σ : Nat) (off : Int) (c : Int) : Prop := off ≤ c ∧ c < off + σ

theorem index_eq {σ : Nat} {off c : Int} (h : okc σ off c) : index σ off c = .ok (c - off).toNat := by
  obtain ⟨h1, h2⟩ := h
  rw [index, if_pos ⟨by omega, by omega⟩]

theorem entry {σ : Nat} {off c : Int} {s : Array (Node P)} {u : Nat} (hs : Inv σ s) (hu : u < s.size) (hc : okc σ off c) :
    ∃ x : Int, s[u].next[(c - off).toNat]? = some x ∧ -1 ≤ x ∧ ch off s u c = if x = -1 then none else some x.toNat := by
  have hg : s[u]? = some s[u] := Array.getElem?_eq_getElem hu
  obtain ⟨h1, h2⟩ := hs u _ hg
  have hi : (c - off).toNat < s[u].next.size := by rw [h1]; have := hc.1; have := hc.2; omega
  refine ⟨s[u].next[(c - off).toNat], Array.getElem?_eq_getElem hi, h2 _ _ (Array.getElem?_eq_getElem hi), ?_⟩
  rw [ch, hg, Option.bind_some, if_pos hc.1, Array.getElem?_eq_getElem hi, Option.bind_some]

theorem inv_fresh {σ : Nat} (d : P) : (Node.fresh σ d).next.size = σ ∧ ∀ (i : Nat) x, (Node.fresh σ d).next[i]? = some x → -1 ≤ x := by
  refine ⟨by simp [Node.fresh], fun i x h => ?_⟩
  rw [Node.fresh, Array.getElem?_replicate] at h
  split at h
  · cases h; omega
  · cases h

theorem step_tot (σ : Nat) (off : Int) (d : P) (s : Array (Node P)) (u : Nat) (c : Int) (hs : Inv σ s) (hu : u < s.size) (hc : okc σ off c) :
    Tot (addStep σ off d (s, u) c) fun r => Inv σ r.1 ∧ (s.size ≤ r.1.size ∧ (∀ i < s.size, r.1[i]?.map (·.val) = s[i]?.map (·.val)) ∧
      ∀ i, s.size ≤ i → i < r.1.size → r.1[i]?.map (·.val) = some d) ∧ AStep (ch off s) s.size u c (ch off r.1) r.1.size r.2 := by
  have hg : s[u]? = some s[u] := Array.getElem?_eq_getElem hu
  obtain ⟨x, hx1, hx2, hx3⟩ := entry hs hu hc
  have hi : (c - off).toNat < s[u].next.size := (Array.getElem?_eq_some_iff.1 hx1).1
  rw [addStep, index_eq hc, ok_bind]
  dsimp only
  rw [ensure, rd_eq hu, ok_bind, rd_some hx1, ok_bind]
  by_cases hm : x = -1
  · rw [if_pos hm] at hx3 ⊢
    rw [grow, rd_eq hu, ok_bind, wr_eq hi, ok_bind, wr_eq hu, ok_bind, pure_eq, ok_bind]
    obtain ⟨nn, hnn⟩ : ∃ nn : Node P, nn = { s[u] with next := s[u].next.setIfInBounds (c - off).toNat (s.size : Int) } := ⟨_, rfl⟩
    rw [← hnn]
    have hval : nn.val = s[u].val := by rw [hnn]
    have hnx : ∀ j, nn.next[j]? = if j = (c - off).toNat then some (s.size : Int) else s[u].next[j]? := by
      intro j
      rw [hnn, Array.getElem?_setIfInBounds]
      by_cases h : (c - off).toNat = j
      · rw [if_pos h, if_pos h.symm, if_pos hi]
      · rw [if_neg h, if_neg (fun e => h e.symm)]
    have hget : ∀ i, ((s.setIfInBounds u nn).push (Node.fresh σ d))[i]? = if i = s.size then some (Node.fresh σ d) else if i = u then some nn else s[i]? := by
      intro i
      rw [Array.getElem?_push, Array.size_setIfInBounds, Array.getElem?_setIfInBounds]
      by_cases h1 : i = s.size
      · rw [if_pos h1, if_pos h1]
      · rw [if_neg h1, if_neg h1]
        by_cases h2 : u = i
        · rw [if_pos h2, if_pos h2.symm, if_pos hu]
        · rw [if_neg h2, if_neg (fun h => h2 h.symm)]
    have hgu : ((s.setIfInBounds u nn).push (Node.fresh σ d))[u]? = some nn := by rw [hget, if_neg (by omega), if_pos rfl]
    rw [rd_some hgu, ok_bind, rd_some (show nn.next[(c - off).toNat]? = some (s.size : Int) by rw [hnx, if_pos rfl]), ok_bind, nodeIndex,
      if_neg (by omega), ok_bind]
    refine Tot.pure ⟨?_, ⟨by simp, fun i hi => ?_, fun i h1 h2 => ?_⟩, Or.inr ⟨hx3, by simp, by simp, fun a b => ?_⟩⟩
    · intro a v hv
      dsimp only at hv
      rw [hget] at hv
      split at hv
      · cases hv; exact inv_fresh d
      · split at hv
        · cases hv
          refine ⟨by rw [hnn]; simp [(hs u _ hg).1], fun j y hy => ?_⟩
          rw [hnx] at hy
          split at hy
          · cases hy; omega
          · exact (hs u _ hg).2 j y hy
        · exact hs a v hv
    · dsimp only
      rw [hget, if_neg (by omega)]
      split
      · rename_i h; subst h; rw [hg]; simp [hval]
      · rfl
    · dsimp only at h2 ⊢
      simp only [Array.size_push, Array.size_setIfInBounds] at h2
      rw [hget, if_pos (by omega)]
      rfl
    · dsimp only [ch]
      rw [hget]
      by_cases h1 : a = s.size
      · subst h1
        rw [if_pos rfl, if_neg (by omega), Array.getElem?_eq_none (le_refl _), Option.bind_some, Option.bind_none]
        split
        · rw [Node.fresh, Array.getElem?_replicate]
          split
          · simp
          · rfl
        · rfl
      · rw [if_neg h1]
        by_cases h2 : a = u
        · subst h2
          rw [if_pos rfl, hg]
          rw [Option.bind_some, Option.bind_some]
          by_cases h3 : b = c
          · subst h3
            rw [if_pos hc.1, hnx, if_pos rfl, if_pos ⟨rfl, rfl⟩, Option.bind_some, if_neg (by omega), Int.toNat_natCast]
          · rw [if_neg (show ¬ (a = a ∧ b = c) from fun h => h3 h.2)]
            split
            · rename_i hb
              rw [hnx, if_neg]
              have := hc.1
              omega
            · rfl
        · rw [if_neg h2, if_neg (fun h => h2 h.1)]
  · rw [if_neg hm] at hx3 ⊢
    rw [pure_eq, ok_bind, rd_eq hu, ok_bind, rd_some hx1, ok_bind, nodeIndex, if_neg (by omega), ok_bind]
    exact Tot.pure ⟨hs, ⟨le_refl _, fun _ _ => rfl, fun i h1 (h2 : i < s.size) => by omega⟩, Or.inl ⟨hx3, rfl, fun _ _ => rfl⟩⟩

/-- The array trie is a lawful trie. -/
def lawful (σ : Nat) (off : Int) (d : P) : Lawful (ops σ off d) d (okc σ off) where
  Inv := Inv σ
  ch := ch off
  size := Array.size
  val := fun s u => (s[u]?.map (·.val)).getD d
  make_inv := by
    intro u v h
    have h' : (#[Node.fresh σ d] : Array (Node P))[u]? = some v := h
    have := (Array.getElem?_eq_some_iff.1 h').1
    simp at this
    subst this
    simp at h'
    subst h'
    exact inv_fresh d
  make_ch := by
    intro u c
    show ((#[Node.fresh σ d] : Array (Node P))[u]?.bind _) = none
    rcases u with _ | u
    · simp only [List.getElem?_toArray, List.getElem?_cons_zero, Option.bind_some]
      split
      · rw [Node.fresh, Array.getElem?_replicate]
        split
        · simp
        · rfl
      · rfl
    · simp
  make_size := rfl
  make_val := rfl
  child_eq := by
    intro s u c hs hu hc
    show (index σ off c >>= fun i => child s u i) = _
    obtain ⟨x, hx1, hx2, hx3⟩ := entry hs hu hc
    rw [index_eq hc, ok_bind, child, rd_eq hu, ok_bind, rd_some hx1, hx3]
    by_cases hm : x = -1
    · rw [if_pos hm, hm]
    · rw [if_neg hm]
      dsimp only
      congr 1
      omega
  add_tot := by
    intro s lab hs hrep hsz u x w hu hw
    have hlt := (List.getElem?_eq_some_iff.1 hu).1
    refine (Trie.add_tot (ch off) Array.size (Inv σ) (okc σ off) (fun s t => s.size ≤ t.size ∧ (∀ i < s.size, t[i]?.map (·.val) = s[i]?.map (·.val)) ∧
      ∀ i, s.size ≤ i → i < t.size → t[i]?.map (·.val) = some d) (fun s => ⟨le_refl _, fun _ _ => rfl, fun i h1 h2 => by omega⟩) ?_
      (addStep σ off d) (fun s u c h1 h2 h3 _ => step_tot σ off d s u c h1 h2 h3) s lab hs hrep hsz u x w hu hw).mono ?_
    · rintro s t r ⟨h1, h2, h3⟩ ⟨g1, g2, g3⟩
      refine ⟨by omega, fun i hi => by rw [g2 i (by omega), h2 i hi], fun i hi1 hi2 => ?_⟩
      rcases Nat.lt_or_ge i t.size with h | h
      · rw [g2 i h, h3 i hi1 h]
      · exact g3 i h hi2
    · rintro r ⟨h1, ⟨h2, h3, h4⟩, h5⟩
      exact ⟨h1, fun i hi => by rw [h3 i hi], fun i hi1 hi2 => by rw [h4 i hi1 hi2]; rfl, h5⟩
  set_tot := by
    intro s u f hs hu
    show Tot (setVal s u f) _
    have hg : s[u]? = some s[u] := Array.getElem?_eq_getElem hu
    rw [setVal, rd_eq hu, ok_bind, wr_eq hu]
    have hget : ∀ i, (s.setIfInBounds u { s[u] with val := f s[u].val })[i]? = if i = u then some { s[u] with val := f s[u].val } else s[i]? := by
      intro i
      rw [Array.getElem?_setIfInBounds]
      by_cases h : u = i
      · rw [if_pos h, if_pos h.symm, if_pos hu]
      · rw [if_neg h, if_neg (fun e => h e.symm)]
    refine Tot.pure ⟨?_, ?_, by simp, fun i => ?_⟩
    · intro a v hv
      rw [hget] at hv
      split at hv
      · cases hv; exact ⟨(hs u _ hg).1, (hs u _ hg).2⟩
      · exact hs a v hv
    · funext a c
      rw [ch, ch, hget]
      split
      · rename_i h; subst h; rw [hg]; rfl
      · rfl
    · rw [hget]
      split
      · rw [hg]; rfl
      · rfl
  get_eq := by
    intro s u _ hu
    show getVal s u = _
    rw [getVal, rd_eq hu, ok_bind, Array.getElem?_eq_getElem hu]
    rfl

end ArrayTrie
