import Verif.Proof.TrieImpl

/-! # Proofs about `library/string/aho_corasick.hpp` -/

namespace Trie
variable {κ : Type} [DecidableEq κ]

/-- Number of words that are suffixes of `x`. -/
def cnt (ws : List (List κ)) (x : List κ) : Nat := ws.countP fun w => decide (w <:+ x)

theorem cnt_fail {lab ws : List (List κ)} {x f : List κ} (hws : ∀ w ∈ ws, w ∈ lab) (h : IsFail lab x f) : cnt ws x = ws.count x + cnt ws f := by
  induction ws with
  | nil => rfl
  | cons w ws ih =>
    have ih' := ih fun w hw => hws w (by simp [hw])
    unfold cnt at ih' ⊢
    rw [List.countP_cons, List.countP_cons, List.count_cons, ih']
    have hlen := h.length_lt
    by_cases h1 : w = x
    · subst h1
      have : ¬ w <:+ f := fun hs => by have := hs.length_le; omega
      simp [this]
      omega
    · have : w <:+ x ↔ w <:+ f := ⟨fun hs => h.2.2.2 w (hws w (by simp)) hs h1, fun hs => hs.trans h.2.1⟩
      simp [this, h1]
      omega

theorem cnt_ls {lab ws : List (List κ)} {w x : List κ} (hws : ∀ w ∈ ws, w ∈ lab) (h : IsLS lab w x) : cnt ws w = cnt ws x := by
  apply List.countP_congr
  intro v hv
  simp only [decide_eq_true_eq]
  exact ⟨fun hs => h.2.2 v (hws v hv) hs, fun hs => hs.trans h.2.1⟩

theorem cnt_root {lab ws : List (List κ)} {c : κ} (hroot : [] ∈ lab) (hws : ∀ w ∈ ws, w ∈ lab) : cnt ws [c] = ws.count [c] + ws.count [] := by
  rw [cnt_fail hws (isFail_single hroot)]
  congr 1
  rw [cnt, List.count]
  apply List.countP_congr
  intro v _
  simp

end Trie

namespace AhoCorasick
open Cxx Trie
variable {κ : Type} [DecidableEq κ]

/-- Abstract children. -/
def ch (next : Array (List (κ × Nat))) (u : Nat) (c : κ) : Option Nat := next[u]?.bind fun m => m.lookup c

/-- Keys of a map are distinct. -/
def Inv (next : Array (List (κ × Nat))) : Prop := ∀ (u : Nat) m, next[u]? = some m → (m.map Prod.fst).Nodup

theorem lookup_of_mem {l : List (κ × Nat)} (hn : (l.map Prod.fst).Nodup) {c : κ} {v : Nat} : l.lookup c = some v ↔ (c, v) ∈ l := by
  induction l with
  | nil => simp
  | cons e l ih =>
    obtain ⟨a, b⟩ := e
    simp only [List.map_cons, List.nodup_cons] at hn
    rw [List.lookup_cons]
    by_cases h : c = a
    · subst h
      simp only [BEq.rfl, List.mem_cons, Prod.mk.injEq, true_and, Option.some.injEq]
      constructor
      · intro h; exact Or.inl h.symm
      · rintro (h | h)
        · exact h.symm
        · exact absurd (List.mem_map.2 ⟨_, h, rfl⟩) hn.1
    · have : (c == a) = false := by simpa using h
      simp only [this, ih hn.2, List.mem_cons, Prod.mk.injEq, h, false_and, false_or]

theorem lookup_none_iff {l : List (κ × Nat)} {c : κ} : l.lookup c = none ↔ c ∉ l.map Prod.fst := by
  induction l with
  | nil => simp
  | cons e l ih =>
    obtain ⟨a, b⟩ := e
    rw [List.lookup_cons]
    by_cases h : c = a
    · subst h; simp
    · have : (c == a) = false := by simpa using h
      simp only [this, ih, List.map_cons, List.mem_cons, h, false_or]

theorem lookup_snoc (l : List (κ × Nat)) (c b : κ) (n : Nat) (h : l.lookup c = none) :
    (l ++ [(c, n)]).lookup b = if b = c then some n else l.lookup b := by
  rw [List.lookup_append]
  by_cases hb : b = c
  · subst hb
    rw [h, if_pos rfl]
    simp [List.lookup]
  · rw [if_neg hb]
    have : (b == c) = false := by simpa using hb
    simp [List.lookup, this]

theorem step_tot (s : Array (List (κ × Nat))) (u : Nat) (c : κ) (hs : Inv s) (hu : u < s.size) :
    Tot (addStep (s, u) c) fun r => Inv r.1 ∧ True ∧ AStep (ch s) s.size u c (ch r.1) r.1.size r.2 := by
  have hg : s[u]? = some s[u] := Array.getElem?_eq_getElem hu
  rw [addStep]
  dsimp only
  rw [rd_eq hu, ok_bind]
  cases hl : s[u].lookup c with
  | some x => exact Tot.pure ⟨hs, trivial, Or.inl ⟨by simp [ch, hg, hl], rfl, fun _ _ => rfl⟩⟩
  | none =>
    dsimp only
    rw [grow, rd_eq hu, ok_bind, wr_eq hu, ok_bind]
    obtain ⟨nn, hnn⟩ : ∃ nn, nn = s[u] ++ [(c, s.size)] := ⟨_, rfl⟩
    rw [← hnn]
    have hlk : ∀ b, nn.lookup b = if b = c then some s.size else s[u].lookup b := by
      intro b; rw [hnn]; exact lookup_snoc _ _ _ _ hl
    have hget : ∀ i, ((s.setIfInBounds u nn).push [])[i]? = if i = s.size then some [] else if i = u then some nn else s[i]? := by
      intro i
      rw [Array.getElem?_push, Array.size_setIfInBounds, Array.getElem?_setIfInBounds]
      by_cases h1 : i = s.size
      · rw [if_pos h1, if_pos h1]
      · rw [if_neg h1, if_neg h1]
        by_cases h2 : u = i
        · rw [if_pos h2, if_pos h2.symm, if_pos hu]
        · rw [if_neg h2, if_neg (fun h => h2 h.symm)]
    refine Tot.pure ⟨?_, trivial, Or.inr ⟨by simp [ch, hg, hl], rfl, by simp, fun a b => ?_⟩⟩
    · intro a m hm
      dsimp only at hm
      rw [hget] at hm
      split at hm
      · cases hm; simp
      · split at hm
        · cases hm
          rw [hnn, List.map_append, List.nodup_append]
          refine ⟨hs u _ hg, by simp, ?_⟩
          intro a ha b hb e
          simp at hb
          subst hb
          subst e
          exact lookup_none_iff.1 hl ha
        · exact hs a m hm
    · dsimp only [ch]
      rw [hget]
      by_cases h1 : a = s.size
      · subst h1
        rw [if_pos rfl, if_neg (by omega)]
        simp
      · rw [if_neg h1]
        by_cases h2 : a = u
        · subst h2
          rw [if_pos rfl, hg, Option.bind_some, Option.bind_some, hlk]
          by_cases h3 : b = c
          · rw [if_pos h3, if_pos ⟨rfl, h3⟩]
          · rw [if_neg h3, if_neg (show ¬ (a = a ∧ b = c) from fun h => h3 h.2)]
        · rw [if_neg h2, if_neg (fun h => h2 h.1)]

/-- The state before `build`, after adding the words `ws`. -/
structure Pre (s : State κ) (ws : List (List κ)) (lab : List (List κ)) : Prop where
  inv : Inv s.next
  rep : Rep (ch s.next) lab
  size : s.next.size = lab.length
  marks : List.Forall₂ (fun m w => lab[m]? = some w) s.marks ws
  failure : s.failure = #[]
  count : s.count = #[]

theorem make_pre : Pre (make : State κ) [] [[]] := by
  refine ⟨?_, ⟨rfl, by simp, fun u c v => ?_, fun x c h => by simp at h⟩, rfl, List.Forall₂.nil, rfl, rfl⟩
  · intro u m h
    have h' : (#[[]] : Array (List (κ × Nat)))[u]? = some m := h
    have := (Array.getElem?_eq_some_iff.1 h').1
    simp at this
    subst this
    simp at h'
    subst h'
    simp
  · have : ch (make : State κ).next u c = none := by
      show ((#[[]] : Array (List (κ × Nat)))[u]?.bind _) = none
      rcases u with _ | u <;> simp
    rw [this]
    simp only [reduceCtorEq, false_iff, not_exists, not_and]
    intro x h1 h2
    have := List.mem_of_getElem? h2
    simp at this

theorem forall₂_imp {α β : Type} {R S : α → β → Prop} (h : ∀ a b, R a b → S a b) {l : List α} {m : List β} (hl : List.Forall₂ R l m) : List.Forall₂ S l m := by
  induction hl with
  | nil => exact .nil
  | cons a b ih => exact .cons (h _ _ a) ih

theorem forall₂_snoc {α β : Type} {R : α → β → Prop} {a : α} {b : β} (h : R a b) {l : List α} {m : List β} (hl : List.Forall₂ R l m) :
    List.Forall₂ R (l ++ [a]) (m ++ [b]) := by
  induction hl with
  | nil => exact .cons h .nil
  | cons a b ih => exact .cons a ih

theorem add_tot {s : State κ} {ws lab : List (List κ)} (h : Pre s ws lab) (w : List κ) :
    Tot (add s w) fun s' => ∃ lab', Pre s' (ws ++ [w]) lab' := by
  rw [add]
  refine Tot.bind (Trie.add_tot ch Array.size Inv (fun _ => True) (fun _ _ => True) (fun _ => trivial) (fun _ _ _ _ _ => trivial) addStep
    (fun s u c h1 h2 _ _ => step_tot s u c h1 h2) s.next lab h.inv h.rep h.size 0 [] w h.rep.root (fun _ _ => trivial)) ?_
  rintro ⟨n, v⟩ ⟨h1, -, lab', h2, h3, h4, h5, h6⟩
  refine Tot.pure ⟨lab', h1, h2, h3, ?_, h.failure, h.count⟩
  refine forall₂_snoc (by simpa using h5) (forall₂_imp ?_ h.marks)
  intro m w hm
  obtain ⟨t, ht⟩ := h4
  rw [← ht, List.getElem?_append_left (List.getElem?_eq_some_iff.1 hm).1]
  exact hm

/-- Failure links are right up to the depth `L`. -/
def FailOk (lab : List (List κ)) (failure : Array Nat) (L : Nat) : Prop :=
  ∀ (u : Nat) y, lab[u]? = some y → y ≠ [] → y.length ≤ L → ∃ f fy, failure[u]? = some f ∧ lab[f]? = some fy ∧ IsFail lab y fy

/-- Invariant of the loop of `next_state`. -/
def GI (lab : List (List κ)) (L : Nat) (x : List κ) (c : κ) (q : Nat × Option Nat) : Prop :=
  match q.2 with
  | none => ∃ y, lab[q.1]? = some y ∧ y.length ≤ L ∧ ∀ z, IsLS lab (y ++ [c]) z → IsLS lab (x ++ [c]) z
  | some t => ∃ z, lab[t]? = some z ∧ IsLS lab (x ++ [c]) z

/-- Its variant. -/
def gv (lab : List (List κ)) (q : Nat × Option Nat) : Nat :=
  match q.2 with
  | none => dep lab q.1 + 1
  | some _ => 0

theorem goto_tot {next : Array (List (κ × Nat))} {lab : List (List κ)} {failure : Array Nat} {L : Nat} (hrep : Rep (ch next) lab)
    (hsz : next.size = lab.length) (hf : FailOk lab failure L) {u : Nat} {x : List κ} (hu : lab[u]? = some x) (hL : x.length ≤ L) (c : κ) :
    Tot (goto next failure u c) fun t => ∃ z, lab[t]? = some z ∧ IsLS lab (x ++ [c]) z := by
  rw [goto]
  have hroot : [] ∈ lab := List.mem_of_getElem? hrep.root
  refine Tot.bind (P := fun (q : Nat × Option Nat) => ∃ t, q.2 = some t ∧ ∃ z, lab[t]? = some z ∧ IsLS lab (x ++ [c]) z) ?_ ?_
  · refine Tot.loop (P := GI lab L x c) (gv lab) ?_ ?_ ?_
    · rintro ⟨v, r⟩ hq
      rw [nextStep]
      cases r with
      | some t => exact Tot.pure ⟨t, rfl, hq⟩
      | none =>
        obtain ⟨y, hy, hyL, hz⟩ := hq
        dsimp only at hy ⊢
        have hv := (List.getElem?_eq_some_iff.1 hy).1
        have hg : next[v]? = some next[v] := Array.getElem?_eq_getElem (by omega)
        rw [rd_some hg, ok_bind]
        cases hl : next[v].lookup c with
        | some t =>
          refine Tot.pure ⟨?_, by simp [gv]⟩
          have : ch next v c = some t := by simp [ch, hg, hl]
          obtain ⟨y', h1, h2⟩ := (hrep.child v c t).1 this
          rw [hy] at h1
          cases h1
          exact ⟨_, h2, hz _ (IsLS.of_mem (List.mem_of_getElem? h2))⟩
        | none =>
          have hnc : y ++ [c] ∉ lab := by
            intro hm
            obtain ⟨t, ht⟩ := List.getElem?_of_mem hm
            have := (hrep.child v c t).2 ⟨y, hy, ht⟩
            simp [ch, hg, hl] at this
          dsimp only
          by_cases h0 : v = 0
          · rw [if_pos h0]
            subst h0
            rw [hrep.root] at hy
            cases hy
            exact Tot.pure ⟨⟨[], hrep.root, hz _ (isLS_root hroot hnc)⟩, by simp [gv]⟩
          · rw [if_neg h0]
            have hne : y ≠ [] := by
              rintro rfl
              exact h0 (idx_inj hrep.nodup hy hrep.root)
            obtain ⟨f, fy, h1, h2, h3⟩ := hf v y hy hne hyL
            rw [rd_some h1, ok_bind]
            have hlt := h3.length_lt
            refine Tot.pure ⟨⟨fy, h2, by omega, fun z hz' => hz z (IsLS.fail hrep.closed h3 hnc hz')⟩, ?_⟩
            simp [gv, dep, h2, hy]
            exact hlt
    · exact ⟨x, hu, hL, fun _ h => h⟩
    · have := length_lt hrep.closed (List.mem_of_getElem? hu)
      simp [gv, dep, hu]
      omega
  · rintro ⟨v, r⟩ ⟨t, h1, h2⟩
    dsimp only at h1
    subst h1
    exact ⟨t, rfl, h2⟩

/-- Failure links and counts of the nodes in `S` are right, others are initial. -/
def FC (lab ws : List (List κ)) (failure count : Array Nat) (S : List Nat) : Prop :=
  ∀ (v : Nat) y, lab[v]? = some y →
    (v ∈ S → (y ≠ [] → ∃ f fy, failure[v]? = some f ∧ lab[f]? = some fy ∧ IsFail lab y fy) ∧ count[v]? = some (cnt ws y)) ∧
    (v ∉ S → failure[v]? = some 0 ∧ count[v]? = some (ws.count y))

theorem child_tot {next : Array (List (κ × Nat))} {lab ws : List (List κ)} (hrep : Rep (ch next) lab) (hsz : next.size = lab.length)
    (hws : ∀ w ∈ ws, w ∈ lab) (hne : [] ∉ ws) {S : List Nat} {cur v : Nat} {x : List κ} {c : κ} (hcur : lab[cur]? = some x) (hv : lab[v]? = some (x ++ [c]))
    (hS : ∀ (u : Nat) y, lab[u]? = some y → y.length ≤ x.length → u ∈ S) (hvS : v ∉ S) (dq : List Nat) (failure count : Array Nat)
    (h : FC lab ws failure count S) :
    Tot (childStep next cur (dq, failure, count) (c, v)) fun t => t.1 = dq ++ [v] ∧ FC lab ws t.2.1 t.2.2 (S ++ [v]) := by
  have hroot : [] ∈ lab := List.mem_of_getElem? hrep.root
  rw [childStep]
  dsimp only
  refine Tot.bind (P := fun (t : Array Nat × Array Nat) => FC lab ws t.1 t.2 (S ++ [v])) ?_ fun t ht => Tot.pure ⟨rfl, ht⟩
  rw [linkIf]
  obtain ⟨hv1, hv2⟩ := (h v _ hv).2 hvS
  by_cases h0 : cur = 0
  · rw [if_neg (by simpa using h0)]
    subst h0
    rw [hrep.root] at hcur
    cases hcur
    refine Tot.pure fun u y hy => ⟨fun hu => ?_, fun hu => (h u y hy).2 fun h => hu (by simp [h])⟩
    rcases List.mem_append.1 hu with hu | hu
    · exact (h u y hy).1 hu
    · rw [List.mem_singleton] at hu
      subst hu
      rw [hv] at hy
      cases hy
      refine ⟨fun _ => ⟨0, [], hv1, hrep.root, isFail_single hroot⟩, ?_⟩
      rw [hv2]
      simp only [List.nil_append]
      rw [cnt_root hroot hws, List.count_eq_zero_of_not_mem hne]
      rfl
  · rw [if_pos h0, linkChild]
    dsimp only
    have hxne : x ≠ [] := by
      rintro rfl
      exact h0 (idx_inj hrep.nodup hcur hrep.root)
    have hFO : FailOk lab failure x.length := fun u y hy hyne hyl => ((h u y hy).1 (hS u y hy hyl)).1 hyne
    obtain ⟨f, fy, h1, h2, h3⟩ := hFO cur x hcur hxne (le_refl _)
    have hlt := h3.length_lt
    rw [rd_some h1, ok_bind]
    refine Tot.bind (goto_tot hrep hsz hFO h2 (by omega) c) ?_
    rintro t ⟨z, hz1, hz2⟩
    have hfail := isFail_child hrep.closed h3 hz2
    have hvf : v < failure.size := (Array.getElem?_eq_some_iff.1 hv1).1
    have hvc : v < count.size := (Array.getElem?_eq_some_iff.1 hv2).1
    have hzlen : z.length ≤ x.length := by
      have := hfail.length_lt
      simp at this
      omega
    have htS := hS t z hz1 hzlen
    have hct := ((h t z hz1).1 htS).2
    rw [wr_eq hvf, ok_bind, rd_some (show (failure.setIfInBounds v t)[v]? = some t by rw [Array.getElem?_setIfInBounds, if_pos rfl, if_pos hvf]), ok_bind,
      rd_some hct, ok_bind, rd_some hv2, ok_bind, wr_eq hvc, ok_bind]
    refine Tot.pure fun u y hy => ?_
    dsimp only
    rw [Array.getElem?_setIfInBounds, Array.getElem?_setIfInBounds]
    by_cases huv : v = u
    · subst huv
      rw [if_pos rfl, if_pos rfl, if_pos hvf, if_pos hvc]
      rw [hv] at hy
      cases hy
      refine ⟨fun _ => ⟨fun _ => ⟨t, z, rfl, hz1, hfail⟩, ?_⟩, fun hn => absurd (by simp) hn⟩
      rw [cnt_fail hws hfail]
    · rw [if_neg huv, if_neg huv]
      have : u ∈ S ++ [v] ↔ u ∈ S := by simp [Ne.symm huv]
      rw [this]
      exact h u y hy

/-- Invariant of the main loop. -/
def BI (lab ws : List (List κ)) (s : List Nat × Array Nat × Array Nat) (done : List Nat) : Prop :=
  Bfs lab done s.1 ∧ FC lab ws s.2.1 s.2.2 (done ++ s.1)

theorem bfs_tot {next : Array (List (κ × Nat))} {lab ws : List (List κ)} (hinv : Inv next) (hrep : Rep (ch next) lab) (hsz : next.size = lab.length)
    (hws : ∀ w ∈ ws, w ∈ lab) (hne : [] ∉ ws) (order : List (κ × Nat) → List (κ × Nat)) (ho : ∀ l, (order l).Perm l) (failure count : Array Nat)
    (h : FC lab ws failure count [0]) :
    Tot (loop (bfsStep order next) next.size ([0], failure, count)) fun r => FC lab ws r.2.1 r.2.2 (List.range lab.length) := by
  have hpos : 0 < lab.length := (List.getElem?_eq_some_iff.1 hrep.root).1
  refine Tot.loopG (P := fun k s => ∃ done, k = lab.length - done.length ∧ BI lab ws s done) (k := lab.length) ?_
    ⟨[], by simp, Bfs.init hpos, by simpa using h⟩ (by omega)
  rintro k ⟨q, fl, ct⟩ ⟨done, rfl, hb, hfc⟩
  dsimp only at hb hfc
  rw [bfsStep]
  dsimp only
  cases q with
  | nil =>
    refine Tot.pure ?_
    intro v y hy
    have hvl := (List.getElem?_eq_some_iff.1 hy).1
    have := hb.finish hrep v hvl
    exact ⟨fun _ => (hfc v y hy).1 (by simpa using this), fun hn => absurd (List.mem_range.2 hvl) hn⟩
  | cons cur dq =>
    dsimp only
    have hcl : cur < lab.length := hb.lt cur (by simp)
    have hg : next[cur]? = some next[cur] := Array.getElem?_eq_getElem (by omega)
    obtain ⟨x, hx⟩ : ∃ x, lab[cur]? = some x := ⟨_, List.getElem?_eq_getElem hcl⟩
    obtain ⟨m, hm⟩ : ∃ m, m = next[cur] := ⟨_, rfl⟩
    rw [rd_some hg, ok_bind, ← hm]
    have hkeys : (m.map Prod.fst).Nodup := hinv cur m (hm ▸ hg)
    have hmem : ∀ c v, (c, v) ∈ m ↔ lab[v]? = some (x ++ [c]) := by
      intro c v
      rw [← lookup_of_mem hkeys]
      have : ch next cur c = m.lookup c := by simp [ch, hg, hm]
      rw [← this, hrep.child]
      constructor
      · rintro ⟨y, h1, h2⟩
        rw [hx] at h1
        cases h1
        exact h2
      · intro h; exact ⟨x, hx, h⟩
    have hmn : (m.map Prod.snd).Nodup := by
      have hmnd : m.Nodup := List.Nodup.of_map _ hkeys
      rw [List.nodup_map_iff_inj_on hmnd]
      rintro ⟨a, v⟩ h1 ⟨b, w⟩ h2 e
      dsimp only at e
      subst e
      have e1 := (hmem a v).1 h1
      have e2 := (hmem b v).1 h2
      rw [e1] at e2
      simp at e2
      rw [e2]
    have hkn : ((order m).map Prod.snd).Nodup := ((ho m).map Prod.snd).nodup_iff.2 hmn
    have hkm : ∀ e, e ∈ order m ↔ e ∈ m := fun e => (ho m).mem_iff
    have hpar : ∀ v, v ∈ (order m).map Prod.snd ↔ Par lab cur v := by
      intro v
      rw [List.mem_map]
      constructor
      · rintro ⟨⟨c, v'⟩, h1, rfl⟩
        exact ⟨x, c, hx, (hmem c v').1 ((hkm _).1 h1)⟩
      · rintro ⟨y, c, h1, h2⟩
        rw [hx] at h1
        cases h1
        exact ⟨(c, v), (hkm _).2 ((hmem c v).2 h2), rfl⟩
    refine Tot.bind (P := fun (t : List Nat × Array Nat × Array Nat) => t.1 = dq ++ (order m).map Prod.snd ∧
      FC lab ws t.2.1 t.2.2 (done ++ cur :: dq ++ (order m).map Prod.snd)) ?_ ?_
    · refine Tot.forEach (P := fun pre (t : List Nat × Array Nat × Array Nat) => t.1 = dq ++ pre.map Prod.snd ∧
        FC lab ws t.2.1 t.2.2 (done ++ cur :: dq ++ pre.map Prod.snd)) ⟨by simp, by simpa using hfc⟩ ?_
      rintro pre ⟨c, v⟩ post ⟨q, f, ct⟩ he ⟨h1, h2⟩
      dsimp only at h1 h2
      subst h1
      have hin : (c, v) ∈ order m := by rw [he]; simp
      have hv := (hmem c v).1 ((hkm _).1 hin)
      have hf := hb.fresh hrep.nodup ⟨x, c, hx, hv⟩ hrep.root
      have hp : v ∉ pre.map Prod.snd := by
        rw [he, List.map_append, List.map_cons] at hkn
        intro hvp
        exact (List.nodup_append.1 hkn).2.2 v hvp v (by simp) rfl
      refine (child_tot hrep hsz hws hne hx hv ?_ ?_ _ _ _ h2).mono ?_
      · intro u y hy hl
        have : u ∈ done ++ cur :: dq := (hb.low hrep).1 u (List.getElem?_eq_some_iff.1 hy).1 (by simpa [dep, hy, hx] using hl)
        simp only [List.mem_append] at this ⊢
        exact Or.inl this
      · rw [List.mem_append]
        rintro (h | h)
        · exact hf h
        · exact hp h
      · rintro t ⟨e1, e2⟩
        exact ⟨by rw [e1]; simp, by simpa using e2⟩
    · rintro t ⟨h1, h2⟩
      have hlt := hb.done_lt
      refine Tot.pure ⟨lab.length - (done ++ [cur]).length, by simp; omega, done ++ [cur], rfl, ?_, ?_⟩
      · rw [h1]
        exact hb.step hrep.nodup hrep.root hkn hpar
      · rw [h1]
        have : done ++ [cur] ++ (dq ++ (order m).map Prod.snd) = done ++ cur :: dq ++ (order m).map Prod.snd := by simp
        rw [this]
        exact h2

theorem bump_tot {lab : List (List κ)} (hnd : lab.Nodup) {marks : List Nat} {ws : List (List κ)} (h : List.Forall₂ (fun m w => lab[m]? = some w) marks ws) :
    ∀ (a : Array Nat) (g : List κ → Nat), a.size = lab.length → (∀ (v : Nat) y, lab[v]? = some y → a[v]? = some (g y)) →
    Tot (forEach marks a bump) fun b => b.size = lab.length ∧ ∀ (v : Nat) y, lab[v]? = some y → b[v]? = some (g y + ws.count y) := by
  induction h with
  | nil => intro a g h1 h2; exact Tot.pure ⟨h1, by simpa using h2⟩
  | @cons m w marks ws hm _ ih =>
    intro a g h1 h2
    have hml := (List.getElem?_eq_some_iff.1 hm).1
    rw [forEach, bump, rd_some (h2 m w hm), ok_bind, wr_eq (by omega), ok_bind]
    refine (ih _ (fun y => g y + if w = y then 1 else 0) (by simpa using h1) ?_).mono ?_
    · intro v y hy
      rw [Array.getElem?_setIfInBounds]
      by_cases hv : m = v
      · subst hv
        rw [hm] at hy
        cases hy
        rw [if_pos rfl, if_pos (by omega), if_pos rfl]
      · rw [if_neg hv, h2 v y hy, if_neg, Nat.add_zero]
        rintro rfl
        exact hv (idx_inj hnd hm hy)
    · rintro b ⟨e1, e2⟩
      refine ⟨e1, fun v y hy => ?_⟩
      rw [e2 v y hy, List.count_cons]
      congr 1
      by_cases hwy : w = y
      · simp [hwy]; omega
      · simp [hwy]

/-- After `build`. -/
structure Post (s : State κ) (ws : List (List κ)) (lab : List (List κ)) : Prop where
  rep : Rep (ch s.next) lab
  size : s.next.size = lab.length
  mem : ∀ w ∈ ws, w ∈ lab
  ok : FC lab ws s.failure s.count (List.range lab.length)
  built : s.built = true

theorem build_tot {s : State κ} {ws lab : List (List κ)} (h : Pre s ws lab) (hne : [] ∉ ws) (order : List (κ × Nat) → List (κ × Nat))
    (ho : ∀ l, (order l).Perm l) : Tot (build order s) fun s' => Post s' ws lab := by
  have hws : ∀ w ∈ ws, w ∈ lab := by
    have h' := h.marks
    generalize s.marks = ms at h'
    clear h hne
    induction h' with
    | nil => simp
    | cons a _ ih =>
      intro w hw
      rcases List.mem_cons.1 hw with rfl | hw
      · exact List.mem_of_getElem? a
      · exact ih w hw
  rw [build, h.failure, h.count]
  have hrs : resize #[] s.next.size = Array.replicate lab.length 0 := by simp [resize, h.size]
  rw [hrs]
  refine Tot.bind (bump_tot h.rep.nodup h.marks _ (fun _ => 0) (by simp) ?_) ?_
  · intro v y hy
    rw [Array.getElem?_replicate, if_pos (List.getElem?_eq_some_iff.1 hy).1]
  · rintro ct ⟨h1, h2⟩
    refine Tot.bind (bfs_tot h.inv h.rep h.size hws hne order ho _ _ ?_) ?_
    · intro v y hy
      have hvl := (List.getElem?_eq_some_iff.1 hy).1
      have hc := h2 v y hy
      rw [Nat.zero_add] at hc
      refine ⟨fun hv => ?_, fun _ => ⟨by rw [Array.getElem?_replicate, if_pos hvl], hc⟩⟩
      rw [List.mem_singleton] at hv
      subst hv
      rw [h.rep.root] at hy
      cases hy
      refine ⟨fun hn => absurd rfl hn, ?_⟩
      rw [hc]
      congr 1
      rw [cnt, List.count]
      apply List.countP_congr
      simp
    · intro r hr
      exact Tot.pure ⟨h.rep, h.size, hws, hr, rfl⟩

theorem Post.failOk {s : State κ} {ws lab : List (List κ)} (h : Post s ws lab) (L : Nat) : FailOk lab s.failure L := by
  intro u y hy hn _
  exact ((h.ok u y hy).1 (List.mem_range.2 (List.getElem?_eq_some_iff.1 hy).1)).1 hn

theorem next_tot {s : State κ} {ws lab : List (List κ)} (h : Post s ws lab) {u : Nat} {w x : List κ} (hu : lab[u]? = some x) (hx : IsLS lab w x) (c : κ) :
    Tot (nextState s u c) fun t => ∃ z, lab[t]? = some z ∧ IsLS lab (w ++ [c]) z := by
  rw [nextState, h.built, check_true, ok_bind]
  refine (goto_tot h.rep h.size (h.failOk x.length) hu (le_refl _) c).mono ?_
  rintro t ⟨z, h1, h2⟩
  exact ⟨z, h1, IsLS.snoc (List.mem_of_getElem? h.rep.root) h.rep.closed hx h2⟩

theorem text_tot {s : State κ} {ws lab : List (List κ)} (h : Post s ws lab) (t : List κ) :
    Tot (forEach t 0 (nextState s)) fun u => ∃ z, lab[u]? = some z ∧ IsLS lab t z := by
  refine Tot.forEach (P := fun pre u => ∃ z, lab[u]? = some z ∧ IsLS lab pre z) ⟨[], h.rep.root, IsLS.of_mem (List.mem_of_getElem? h.rep.root)⟩ ?_
  rintro pre c post u - ⟨z, h1, h2⟩
  exact next_tot h h1 h2 c

theorem count_eq {s : State κ} {ws lab : List (List κ)} (h : Post s ws lab) {u : Nat} {w x : List κ} (hu : lab[u]? = some x) (hx : IsLS lab w x) :
    countSuffix s u = .ok (cnt ws w) := by
  rw [countSuffix, h.built, check_true, ok_bind, rd_some ((h.ok u x hu).1 (List.mem_range.2 (List.getElem?_eq_some_iff.1 hu).1)).2, cnt_ls h.mem hx]

theorem adds_tot (ws : List (List κ)) : Tot (forEach ws (make : State κ) add) fun s => ∃ lab, Pre s ws lab := by
  refine Tot.forEach (P := fun pre (s : State κ) => ∃ lab, Pre s pre lab) ⟨_, make_pre⟩ ?_
  rintro pre w post s - ⟨lab, h⟩
  exact add_tot h w

theorem correct (ws : List (List κ)) (hne : [] ∉ ws) (order : List (κ × Nat) → List (κ × Nat)) (ho : ∀ l, (order l).Perm l) :
    ∃ s s', forEach ws (make : State κ) add = .ok s ∧ build order s = .ok s' ∧
      ∀ t, ∃ u, forEach t 0 (nextState s') = .ok u ∧ countSuffix s' u = .ok (cnt ws t) := by
  obtain ⟨s, hs, lab, hp⟩ := adds_tot ws
  obtain ⟨s', hs', hq⟩ := build_tot hp hne order ho
  refine ⟨s, s', hs, hs', fun t => ?_⟩
  obtain ⟨u, hu, z, h1, h2⟩ := text_tot hq t
  exact ⟨u, hu, count_eq hq h1 h2⟩

end AhoCorasick
