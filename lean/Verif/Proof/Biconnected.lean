import Verif.Model.Biconnected
import Verif.Proof.BiconnectedStatic

namespace Biconnected
open Cxx Cut LowLink

variable {n : Nat} {E : List (Nat × Nat)} {o : LowLink.Obj} {v : V}

/-- Numbers of the closed blocks. -/
structure Ids (n : Nat) (E : List (Nat × Nat)) (v : V) (Pop : Nat → Prop) (s : Biconnected.St) (f : Nat → Nat) : Prop where
  yes : ∀ i x y w, Lower E v i x y → IsHead v n x w → Pop w → at' (-1) s.comp i = f w
  no : ∀ i x y w, Lower E v i x y → IsHead v n x w → ¬ Pop w → at' (-1) s.comp i = -1
  lt : ∀ w, Pop w → f w < s.num
  inj : ∀ w w', Pop w → Pop w' → f w = f w' → w = w'
  surj : ∀ k, k < s.num → ∃ w, Pop w ∧ f w = k

/-- `c` vertices have been visited, the blocks with tops in `Pop` are closed. -/
structure BInv (n : Nat) (E : List (Nat × Nat)) (v : V) (Pop : Nat → Prop) (c : Int) (s : Biconnected.St) : Prop where
  s1 : s.used.size = n
  s2 : s.comp.size = E.length
  used : ∀ x, x < n → (at' false s.used x = true ↔ v.pre x < c)
  ids : ∃ f, Ids n E v Pop s f
  loops : ∀ i x, Inc E x x i → at' (-1) s.comp i = -1

theorem Ids.congr {Pop Pop' : Nat → Prop} {s s' : Biconnected.St} {f : Nat → Nat} (h : Ids n E v Pop s f) (hp : ∀ w, Pop' w ↔ Pop w) (h1 : s'.comp = s.comp)
    (h2 : s'.num = s.num) : Ids n E v Pop' s' f := by
  have : Pop' = Pop := funext fun w => propext (hp w)
  subst this
  refine ⟨?_, ?_, ?_, h.inj, ?_⟩
  · intro i x y w a b c; rw [h1]; exact h.yes i x y w a b c
  · intro i x y w a b c; rw [h1]; exact h.no i x y w a b c
  · intro w hw; rw [h2]; exact h.lt w hw
  · intro k hk; rw [h2] at hk; exact h.surj k hk

theorem BInv.congr {Pop Pop' : Nat → Prop} {c c' : Int} {s s' : Biconnected.St} (h : BInv n E v Pop c s) (hp : ∀ w, Pop' w ↔ Pop w) (h1 : s'.comp = s.comp)
    (h2 : s'.num = s.num) (h3 : s'.used = s.used) (hc : c' = c) : BInv n E v Pop' c' s' := by
  obtain ⟨f, hf⟩ := h.ids
  subst hc
  exact ⟨by rw [h3]; exact h.s1, by rw [h1]; exact h.s2, by rw [h3]; exact h.used, ⟨f, hf.congr hp h1 h2⟩, by rw [h1]; exact h.loops⟩

/-- Blocks closed while the search is at `u` and has visited `c` vertices. -/
def PopAt (v : V) (n u : Nat) (c : Int) (z : Nat) : Prop := SepN v n z ∧ v.fin z ≤ c ∧ (v.fin z ≤ v.pre u ∨ v.pre u < v.pre z)

/-- Blocks closed when `u` is entered. -/
def PopIn (v : V) (n : Nat) (c : Int) (z : Nat) : Prop := SepN v n z ∧ v.fin z ≤ c

/-- Edges on the stack above the entry of `u` after the list `A`. -/
def TLoop (n : Nat) (E : List (Nat × Nat)) (v : V) (u : Nat) (A : List (Nat × Nat)) (c : Int) (i : Nat) : Prop :=
  ∃ x y, Lower E v i x y ∧ ((x = u ∧ (i : Int) ≠ v.pe u ∧ (y, i) ∈ A) ∨
    (v.pre u < v.pre x ∧ v.pre x < c ∧ ∀ z, SepN v n z → v.pre u < v.pre z → ¬ v.In z x))

/-- Edges on the stack above the entry of `u` when it is left. -/
def TPost (n : Nat) (E : List (Nat × Nat)) (v : V) (u : Nat) (i : Nat) : Prop :=
  ∃ x y, Lower E v i x y ∧ v.In u x ∧ (i : Int) ≠ v.pe u ∧ ∀ z, SepN v n z → v.pre u < v.pre z → ¬ v.In z x

theorem popAt_start (B : Built n E o v) {u : Nat} (z : Nat) : PopAt v n u (v.pre u + 1) z ↔ PopIn v n (v.pre u) z := by
  unfold PopAt PopIn
  constructor
  · rintro ⟨h1, h2, h3⟩
    have := (B.cert.done z h1.lt).lt
    exact ⟨h1, by omega⟩
  · rintro ⟨h1, h2⟩
    exact ⟨h1, by omega, .inl h2⟩

theorem popIn_child (B : Built n E o v) {u y z : Nat} {c : Int} (hu : u < n) (hy : y < n) (W : Walk n v u c) (h1 : v.pre y = c) (h2 : v.par y = u) :
    PopIn v n (v.pre y) z ↔ PopAt v n u c z := by
  unfold PopAt PopIn
  rw [h1]
  constructor
  · rintro ⟨a, b⟩
    refine ⟨a, b, ?_⟩
    by_contra hc
    push Not at hc
    have h3 : v.In z u := ⟨hc.2, hc.1⟩
    have h4 := B.fin_mono a.lt hu h3
    have h5 := B.cert.child_in hu hy h2 (B.cert.in_self hu)
    have := h5.2
    omega
  · rintro ⟨a, b, -⟩; exact ⟨a, b⟩

theorem popAt_child (B : Built n E o v) {u y z : Nat} {c : Int} (hu : u < n) (hy : y < n) (W : Walk n v u c) (h1 : v.pre y = c) (h2 : v.par y = u) :
    PopAt v n u (v.fin y) z ↔ PopAt v n y (v.fin y) z ∨ (z = y ∧ SepN v n y) := by
  have hlo := W.lo
  have hyl := (B.cert.done y hy).lt
  constructor
  · rintro ⟨a, b, d⟩
    by_cases e : z = y
    · subst e; exact .inr ⟨rfl, a⟩
    · left
      refine ⟨a, b, ?_⟩
      rcases d with d | d
      · left; omega
      · by_cases h3 : v.pre z < c
        · left; rw [h1]; exact W.full z a.lt d h3
        · right
          have : v.pre z ≠ v.pre y := fun e' => e (B.cert.inj _ _ a.lt hy e')
          omega
  · rintro (⟨a, b, d⟩ | ⟨rfl, a⟩)
    · refine ⟨a, b, ?_⟩
      rcases d with d | d
      · have : PopIn v n (v.pre y) z := ⟨a, d⟩
        exact ((popIn_child B hu hy W h1 h2).mp this).2.2
      · right; omega
    · exact ⟨a, le_refl _, .inr (by omega)⟩

theorem tloop_end (B : Built n E o v) {u i : Nat} (hu : u < n) : TLoop n E v u (at' [] o.g u) (v.fin u) i ↔ TPost n E v u i := by
  constructor
  · rintro ⟨x, y, h, ⟨rfl, h1, h2⟩ | ⟨h1, h2, h3⟩⟩
    · refine ⟨x, y, h, B.cert.in_self hu, h1, ?_⟩
      intro z _ h3 h4
      have := h4.1
      omega
    · refine ⟨x, y, h, ⟨by omega, h2⟩, ?_, h3⟩
      intro e
      obtain ⟨p, j, a1, a2, a3, a4, a5, a6⟩ := B.cert.par_of hu (by rw [Ne, ← B.cert.root_iff hu]; omega)
      have : j = i := by omega
      subst this
      have := (h.unique (x' := u) (y' := p) ⟨a4, a6⟩).1
      subst this
      omega
  · rintro ⟨x, y, h, h1, h2, h3⟩
    refine ⟨x, y, h, ?_⟩
    by_cases e : x = u
    · subst e
      exact .inl ⟨rfl, h2, (B.graph.adj x hu y i).mpr h.1⟩
    · right
      have : v.pre u ≠ v.pre x := fun e' => e (B.cert.inj _ _ hu (h.bnd B.cert).1 e').symm
      exact ⟨by have := h1.1; omega, h1.2, h3⟩

theorem TLoop.mono {u i : Nat} {A A' : List (Nat × Nat)} {c c' : Int} (hA : ∀ e ∈ A, e ∈ A') (hc : c ≤ c') (h : TLoop n E v u A c i) : TLoop n E v u A' c' i := by
  obtain ⟨x, y, h, h1⟩ := h
  refine ⟨x, y, h, ?_⟩
  rcases h1 with ⟨a, b, d⟩ | ⟨a, b, d⟩
  · exact .inl ⟨a, b, hA _ d⟩
  · exact .inr ⟨a, by omega, d⟩

/-- After a child. -/
theorem tloop_child (B : Built n E o v) {u y i j : Nat} {A : List (Nat × Nat)} {c : Int} (hu : u < n) (hy : y < n) (W : Walk n v u c) (h1 : v.pre y = c)
    (h2 : v.par y = u) (h3 : v.pe y = i) :
    TLoop n E v u (A ++ [(y, i)]) (v.fin y) j ↔ TLoop n E v u A c j ∨ (¬ SepN v n y ∧ (TPost n E v y j ∨ j = i)) := by
  have hlo := W.lo
  have hyl := (B.cert.done y hy).lt
  obtain ⟨p, i', a1, a2, a3, a4, a5, a6⟩ := B.cert.par_of hy (by omega)
  have : p = u := by omega
  subst this
  have : i' = i := by omega
  subst this
  have hl : Lower E v i' y p := ⟨a4, a6⟩
  constructor
  · rintro ⟨x, y', h, h4⟩
    rcases h4 with ⟨rfl, b, d⟩ | ⟨b, d, e⟩
    · left
      rw [List.mem_append, List.mem_singleton, Prod.mk.injEq] at d
      rcases d with d | ⟨rfl, rfl⟩
      · exact ⟨x, y', h, .inl ⟨rfl, b, d⟩⟩
      · have := h.2; omega
    · by_cases hx : v.pre x < c
      · exact .inl ⟨x, y', h, .inr ⟨b, hx, e⟩⟩
      · right
        have hin : v.In y x := ⟨by omega, d⟩
        refine ⟨fun hs => e y hs a6 hin, ?_⟩
        by_cases hj : j = i'
        · exact .inr hj
        · left
          exact ⟨x, y', h, hin, by omega, fun z hz hz' => e z hz (by omega)⟩
  · rintro (h | ⟨hs, ⟨x, y', h, b, d, e⟩ | rfl⟩)
    · exact h.mono (fun e he => List.mem_append_left _ he) (by omega)
    · refine ⟨x, y', h, .inr ⟨by have := b.1; omega, b.2, ?_⟩⟩
      intro z hz hz' hin
      rcases lt_trichotomy (v.pre z) (v.pre y) with h4 | h4 | h4
      · have := W.full z hz.lt hz' (by omega)
        have := hin.2
        have := b.1
        omega
      · have := B.cert.inj _ _ hz.lt hy h4
        subst this
        exact hs hz
      · exact e z hz h4 hin
    · refine ⟨y, p, hl, .inr ⟨by omega, by omega, ?_⟩⟩
      intro z hz hz' hin
      rcases lt_trichotomy (v.pre z) (v.pre y) with h4 | h4 | h4
      · have := W.full z hz.lt hz' (by omega)
        have := hin.2
        omega
      · have := B.cert.inj _ _ hz.lt hy h4
        subst this
        exact hs hz
      · have := hin.1; omega

theorem popUntil_tot {id num : Nat} {S : List Nat} : ∀ (T : List Nat) (comp : Array Int), (∀ i ∈ T, i < comp.size) → id < comp.size → id ∉ T →
    Tot (popUntil id num (T ++ id :: S) comp) fun r => r.1 = S ∧ r.2.size = comp.size ∧
      ∀ j, at' (-1) r.2 j = if j ∈ T ∨ j = id then (num : Int) else at' (-1) comp j := by
  intro T
  induction T with
  | nil =>
    intro comp _ h2 _
    rw [List.nil_append]
    unfold popUntil
    rw [wr_eq h2, ok_bind, if_neg (by simp)]
    refine Tot.pure ⟨rfl, by simp, ?_⟩
    intro j
    rw [at_set (-1) h2]
    by_cases e : j = id
    · subst e; simp
    · rw [if_neg (fun e' => e e'.symm), if_neg (by simp [e])]
  | cons t T ih =>
    intro comp h1 h2 h3
    have ht : t < comp.size := h1 t (by simp)
    rw [List.cons_append]
    unfold popUntil
    rw [wr_eq ht, ok_bind, if_pos (by rintro rfl; simp at h3)]
    refine (ih (comp.setIfInBounds t num) (fun i hi => by simpa using h1 i (by simp [hi])) (by simpa using h2) (fun h => h3 (by simp [h]))).mono ?_
    rintro r ⟨a1, a2, a3⟩
    refine ⟨a1, by simpa using a2, ?_⟩
    intro j
    rw [a3 j, at_set (-1) ht]
    by_cases e : j ∈ T ∨ j = id
    · rw [if_pos e, if_pos (by rcases e with e | e <;> simp [e])]
    · rw [if_neg e]
      push Not at e
      by_cases e2 : t = j
      · subst e2; simp
      · rw [if_neg e2, if_neg]
        rintro (h | h)
        · rw [List.mem_cons] at h
          rcases h with h | h
          · exact e2 h.symm
          · exact e.1 h
        · exact e.2 h

theorem inc_lt {x y i : Nat} (h : Inc E x y i) : i < E.length := by
  unfold Inc at h
  by_contra hc
  rw [List.getElem?_eq_none (by omega)] at h
  simp at h

/-- Closing the block of `y`. -/
theorem close_inv (B : Built n E o v) {u y i : Nat} {c : Int} (hu : u < n) (hy : y < n) (W : Walk n v u c) (h1 : v.pre y = c) (h2 : v.par y = u) (h3 : v.pe y = i)
    (hs : SepN v n y) {s : Biconnected.St} (I : BInv n E v (PopAt v n y (v.fin y)) (v.fin y) s) {T : List Nat} (hT : ∀ j, j ∈ T ↔ TPost n E v y j)
    {comp : Array Int} (hsz : comp.size = s.comp.size) (hcomp : ∀ j, at' (-1) comp j = if j ∈ T ∨ j = i then (s.num : Int) else at' (-1) s.comp j) {S : List Nat} :
    BInv n E v (PopAt v n u (v.fin y)) (v.fin y) { s with stack := S, comp := comp, num := s.num + 1 } := by
  classical
  obtain ⟨f, hf⟩ := I.ids
  obtain ⟨p, i', b0, b2, b3, b4⟩ := hs.edge B.cert
  have : p = u := by omega
  subst this
  have : i' = i := by omega
  subst this
  have key : ∀ j x y' w, Lower E v j x y' → IsHead v n x w → ((j ∈ T ∨ j = i') ↔ w = y) := by
    intro j x y' w hl hw
    rw [hT]
    constructor
    · rintro (⟨x', y'', h, d1, d2, d3⟩ | rfl)
      · have := (hl.unique h).1
        subst this
        have e1 := hw.2.2 y hs d1
        have e2 := d3 w hw.1
        have e3 : ¬ v.pre y < v.pre w := fun h => e2 h hw.2.1
        exact B.cert.inj _ _ hw.1.lt hy (by have := e1.1; omega)
      · have := (hl.unique b3).1
        subst this
        exact hw.unique B.cert (IsHead.self B.cert hs)
    · rintro rfl
      by_cases e : j = i'
      · exact .inr e
      · left
        refine ⟨x, y', hl, hw.2.1, by omega, ?_⟩
        intro z hz hz' hin
        have := (hw.2.2 z hz hin).1
        omega
  have hny : ¬ PopAt v n y (v.fin y) y := by
    rintro ⟨-, -, h | h⟩
    · have := (B.cert.done y hy).lt; omega
    · omega
  have hp : ∀ w, PopAt v n p (v.fin y) w ↔ PopAt v n y (v.fin y) w ∨ w = y := by
    intro w
    rw [popAt_child B hu hy W h1 h2]
    constructor
    · rintro (h | h)
      · exact .inl h
      · exact .inr h.1
    · rintro (h | h)
      · exact .inl h
      · exact .inr ⟨h, hs⟩
  refine ⟨I.s1, by dsimp only; rw [hsz]; exact I.s2, I.used, ⟨fun w => if w = y then s.num else f w, ?_, ?_, ?_, ?_, ?_⟩, ?_⟩
  · intro j x y' w hl hw hpop
    dsimp only
    rw [hcomp]
    have hk := key j x y' w hl hw
    by_cases e : w = y
    · rw [if_pos (hk.mpr e), if_pos e]
    · rw [if_neg (fun h => e (hk.mp h)), if_neg e]
      exact hf.yes j x y' w hl hw (((hp w).mp hpop).resolve_right e)
  · intro j x y' w hl hw hpop
    dsimp only
    rw [hcomp]
    have hk := key j x y' w hl hw
    have h4 : ¬ PopAt v n y (v.fin y) w := fun h => hpop ((hp w).mpr (.inl h))
    have h5 : w ≠ y := fun h => hpop ((hp w).mpr (.inr h))
    rw [if_neg (fun h => h5 (hk.mp h))]
    exact hf.no j x y' w hl hw h4
  · intro w hw
    dsimp only
    by_cases e : w = y
    · rw [if_pos e]; omega
    · rw [if_neg e]
      have := hf.lt w (((hp w).mp hw).resolve_right e)
      omega
  · intro w w' hw hw' he
    by_cases e : w = y <;> by_cases e' : w' = y
    · rw [e, e']
    · rw [if_pos e, if_neg e'] at he
      have := hf.lt w' (((hp w').mp hw').resolve_right e')
      omega
    · rw [if_neg e, if_pos e'] at he
      have := hf.lt w (((hp w).mp hw).resolve_right e)
      omega
    · rw [if_neg e, if_neg e'] at he
      exact hf.inj w w' (((hp w).mp hw).resolve_right e) (((hp w').mp hw').resolve_right e') he
  · intro k hk
    dsimp only at hk ⊢
    by_cases e : k = s.num
    · exact ⟨y, (hp y).mpr (.inr rfl), by rw [if_pos rfl, e]⟩
    · obtain ⟨w, w1, w2⟩ := hf.surj k (by omega)
      refine ⟨w, (hp w).mpr (.inl w1), ?_⟩
      rw [if_neg (by rintro rfl; exact hny w1), w2]
  · intro j x hl
    dsimp only
    rw [hcomp, if_neg, I.loops j x hl]
    rintro (h | rfl)
    · obtain ⟨x', y', h, -⟩ := (hT j).mp h
      have := h.2
      rcases h.1.ends hl with ⟨rfl, rfl⟩ | ⟨rfl, rfl⟩ <;> omega
    · have := b3.2
      rcases b3.1.ends hl with ⟨rfl, rfl⟩ | ⟨rfl, rfl⟩ <;> omega

theorem dfs_tot (B : Built n E o v) : ∀ (fuel u : Nat) (s : Biconnected.St), u < n → BInv n E v (PopIn v n (v.pre u)) (v.pre u) s → (n : Int) - v.pre u ≤ fuel →
    Tot (dfs o fuel u (v.pe u) s) fun s' => BInv n E v (PopAt v n u (v.fin u)) (v.fin u) s' ∧ s'.iso = s.iso ∧
      ∃ T, s'.stack = T ++ s.stack ∧ ∀ i, i ∈ T ↔ TPost n E v u i := by
  intro fuel
  induction fuel with
  | zero =>
    intro u s hu _ hf
    have := B.lt u hu
    omega
  | succ fuel ih =>
    intro u s hu I hf
    unfold dfs
    have su : u < s.used.size := by rw [I.s1]; exact hu
    rw [wr_eq su, ok_bind, rd_at [] (by rw [B.graph.size]; exact hu), ok_bind]
    refine (Tot.forEach (P := fun A (s' : Biconnected.St) => ∃ c, BInv n E v (PopAt v n u c) c s' ∧ Walk n v u c ∧ (∀ e ∈ A, v.pre e.1 < c) ∧ s'.iso = s.iso ∧
      ∃ T, s'.stack = T ++ s.stack ∧ ∀ i, i ∈ T ↔ TLoop n E v u A c i) (s := { s with used := s.used.setIfInBounds u true })
      ⟨v.pre u + 1, ?_, B.walk_start hu, by simp, rfl, [], rfl, ?_⟩ ?_).mono ?_
    · obtain ⟨f, hf⟩ := I.ids
      refine ⟨by simpa using I.s1, I.s2, ?_, ⟨f, hf.congr (popAt_start B) rfl rfl⟩, I.loops⟩
      intro x hx
      dsimp only
      rw [at_set false su]
      by_cases e : u = x
      · subst e
        rw [if_pos rfl]
        exact iff_of_true rfl (by omega)
      · rw [if_neg e, I.used x hx]
        have : v.pre u ≠ v.pre x := fun e' => e (B.cert.inj _ _ hu hx e')
        omega
    · intro i
      refine iff_of_false (by simp) ?_
      rintro ⟨x, y, h, ⟨-, -, h1⟩ | ⟨h1, h2, -⟩⟩
      · simp at h1
      · omega
    · rintro A ⟨y, i⟩ C s1 hA ⟨c, J, W, h3, h4, T, h5, h6⟩
      have hin : Inc E u y i := (B.graph.adj u hu y i).mp (by rw [hA]; simp)
      have hyn := (B.graph.bnd _ _ _ hin).2
      have hmem : ∀ (c' : Int), (∀ e ∈ A, v.pre e.1 < c') → v.pre y < c' → ∀ e ∈ A ++ [(y, i)], v.pre e.1 < c' := by
        intro c' a b e he
        rw [List.mem_append, List.mem_singleton] at he
        rcases he with he | rfl
        · exact a e he
        · exact b
      have tl : ∀ j, TLoop n E v u (A ++ [(y, i)]) c j ↔ TLoop n E v u A c j ∨ (j = i ∧ (i : Int) ≠ v.pe u ∧ v.pre y < v.pre u) := by
        intro j
        constructor
        · rintro ⟨x, z, h, ⟨rfl, b, d⟩ | b⟩
          · rw [List.mem_append, List.mem_singleton, Prod.mk.injEq] at d
            rcases d with d | ⟨rfl, rfl⟩
            · exact .inl ⟨x, z, h, .inl ⟨rfl, b, d⟩⟩
            · exact .inr ⟨rfl, b, h.2⟩
          · exact .inl ⟨x, z, h, .inr b⟩
        · rintro (h | ⟨rfl, b, d⟩)
          · exact h.mono (fun e he => List.mem_append_left _ he) (le_refl _)
          · exact ⟨u, y, ⟨hin, d⟩, .inl ⟨rfl, b, by simp⟩⟩
      unfold edgeStep
      dsimp only
      split_ifs with hpe
      · have sy : y < s1.used.size := by rw [J.s1]; exact hyn
        have hv := J.used y hyn
        unfold push
        dsimp only
        rw [rd_at false sy, ok_bind]
        by_cases hb : at' false s1.used y = true
        · rw [hb]
          have hyc := hv.mp hb
          rw [if_neg (by simp), rd_at (-1) (by rw [B.rep.s1]; exact hyn), ok_bind, rd_at (-1) (by rw [B.rep.s1]; exact hu), ok_bind, pure_eq, ok_bind, ← B.rep.e1]
          have fin : ∀ s2 : Biconnected.St, s2.used = s1.used → descend (dfs o fuel) o u (y, i) s2 = .ok s2 := by
            intro s2 e
            unfold descend
            dsimp only
            rw [e, rd_at false sy, ok_bind, hb]
            rfl
          split_ifs with hlt
          · rw [fin { s1 with stack := i :: s1.stack } rfl]
            refine tot_ok.mpr ⟨c, J.congr (fun _ => Iff.rfl) rfl rfl rfl rfl, W, hmem c h3 hyc, h4, i :: T, by dsimp only; rw [h5]; rfl, ?_⟩
            intro j
            rw [List.mem_cons, h6 j, tl j]
            constructor
            · rintro (h | h)
              · exact .inr ⟨h, hpe, hlt⟩
              · exact .inl h
            · rintro (h | h)
              · exact .inr h
              · exact .inl h.1
          · rw [fin _ rfl]
            refine tot_ok.mpr ⟨c, J, W, hmem c h3 hyc, h4, T, h5, ?_⟩
            intro j
            rw [h6 j, tl j]
            constructor
            · intro h; exact .inl h
            · rintro (h | h)
              · exact h
              · exact absurd h.2.2 hlt
        · have hb' : at' false s1.used y = false := by simpa using hb
          rw [hb', if_pos (by simp), pure_eq, ok_bind]
          have hyc : c ≤ v.pre y := by
            by_contra hcc
            exact hb (hv.mpr (by omega))
          obtain ⟨-, b1, b2, b3⟩ := B.next_edge hu W hA h3 hyc
          have hlo := W.lo
          have hfy := (B.cert.done y hyn).lt
          unfold descend
          dsimp only
          rw [rd_at false sy, ok_bind, hb']
          rw [if_neg (by simp), ← b3]
          refine Tot.bind (ih y { s1 with stack := i :: s1.stack } hyn ?_ (by push_cast at hf; omega)) ?_
          · exact J.congr (fun w => popIn_child B hu hyn W b1 b2) rfl rfl rfl b1
          · rintro s2 ⟨K, k1, T2, k2, k3⟩
            unfold closeBlock
            dsimp only
            rw [rd_at 0 (by rw [B.rep.s2]; exact hyn), ok_bind, rd_at (-1) (by rw [B.rep.s1]; exact hu), ok_bind, ← B.rep.e1, ← B.rep.e2]
            have hmem' := hmem (v.fin y) (fun e he => by have := h3 e he; omega) hfy
            have W' := B.walk_child hu hyn W b1 b2
            have t2 := fun j => tloop_child B (j := j) (A := A) hu hyn W b1 b2 b3
            split_ifs with hlow
            · have hns : ¬ SepN v n y := by
                rintro ⟨q, -, q1, q2⟩
                have : q = u := by omega
                subst this
                omega
              refine Tot.pure ⟨v.fin y, K.congr (fun w => ?_) rfl rfl rfl rfl, W', hmem', by rw [k1, h4], T2 ++ i :: T, by rw [k2, h5]; simp, ?_⟩
              · rw [popAt_child B hu hyn W b1 b2]
                exact ⟨fun h => h.resolve_right fun h => hns h.2, .inl⟩
              · intro j
                rw [List.mem_append, List.mem_cons, k3, h6, t2 j]
                constructor
                · rintro (h | h | h)
                  · exact .inr ⟨hns, .inl h⟩
                  · exact .inr ⟨hns, .inr h⟩
                  · exact .inl h
                · rintro (h | ⟨-, h | h⟩)
                  · exact .inr (.inr h)
                  · exact .inl h
                  · exact .inr (.inl h)
            · have hs : SepN v n y := ⟨u, hyn, b2, by omega⟩
              have hiT : i ∉ T2 := by
                intro h
                obtain ⟨_, _, _, _, h, _⟩ := (k3 i).mp h
                exact h b3.symm
              have hlt : ∀ j ∈ T2, j < s2.comp.size := by
                intro j hj
                obtain ⟨_, _, h, _⟩ := (k3 j).mp hj
                rw [K.s2]
                exact inc_lt h.1
              rw [k2]
              refine Tot.bind (popUntil_tot T2 s2.comp hlt (by rw [K.s2]; exact inc_lt hin) hiT) ?_
              rintro ⟨S, comp⟩ ⟨g1, g2, g3⟩
              dsimp only at g1 g2 g3
              refine Tot.pure ⟨v.fin y, close_inv B hu hyn W b1 b2 b3 hs K k3 g2 g3, W', hmem', by dsimp only; rw [k1, h4], T, by dsimp only; rw [g1, h5], ?_⟩
              intro j
              rw [h6, t2 j]
              constructor
              · intro h; exact .inl h
              · rintro (h | h)
                · exact h
                · exact absurd hs h.1
      · refine Tot.pure ⟨c, J, W, hmem c h3 ?_, h4, T, h5, ?_⟩
        · push Not at hpe
          obtain ⟨p, j, a1, a2, a3, a4, a5, a6⟩ := B.cert.par_of hu (by rw [Ne, ← B.cert.root_iff hu]; omega)
          have : j = i := by omega
          subst this
          have := W.lo
          rcases a4.ends hin with ⟨-, rfl⟩ | ⟨rfl, rfl⟩ <;> omega
        · intro j
          rw [h6 j, tl j]
          constructor
          · intro h; exact .inl h
          · rintro (h | h)
            · exact h
            · exact absurd h.2.1 hpe
    · rintro s' ⟨c, J, W, h3, h4, T, h5, h6⟩
      have hc := B.walk_end hu W h3
      subst hc
      exact ⟨J, h4, T, h5, fun i => by rw [h6, tloop_end B hu]⟩

/-- The search has finished. -/
structure Fin (n : Nat) (E : List (Nat × Nat)) (o : LowLink.Obj) (v : V) (s : Biconnected.St) : Prop where
  inv : BInv n E v (SepN v n) n s
  stack : s.stack = []
  iso : s.iso = (List.range n).filter fun x => (at' [] o.g x).isEmpty

theorem dfsAll_tot (B : Built n E o v) : Tot (dfsAll o [] []) fun s => Fin n E o v s := by
  unfold dfsAll
  rw [B.size, B.edges]
  have v0 : ∀ x, x < n → 0 ≤ v.pre x := fun x hx => (B.cert.done x hx).vis
  refine (Tot.forUp (lo := 0) (hi := n) (P := fun i (s : Biconnected.St) => ∃ c, 0 ≤ c ∧ BInv n E v (PopIn v n c) c s ∧ (∀ x, x < i → v.pre x < c) ∧
    (∀ q, q < n → v.pre q < c → v.fin q ≤ c) ∧ (∀ r, r < n → v.par r = -1 → v.pre r < c → r < i) ∧ s.stack = [] ∧ s.iso = (List.range i).filter fun x => (at' [] o.g x).isEmpty)
    (by omega) ⟨0, le_refl _, ⟨by simp, by simp, ?_, ⟨fun _ => 0, ?_, ?_, ?_, ?_, ?_⟩, ?_⟩, by simp, ?_, ?_, rfl, rfl⟩ ?_).mono ?_
  · intro x hx
    have := v0 x hx
    simp [at', hx]
    omega
  · rintro i x y w - hw ⟨h1, h2⟩
    have := (B.cert.done w h1.lt).lt
    have := v0 w h1.lt
    omega
  · intro i x y w hl _ _
    simp [at', inc_lt hl.1]
  · rintro w ⟨h1, h2⟩
    have := (B.cert.done w h1.lt).lt
    have := v0 w h1.lt
    omega
  · rintro w w' ⟨h1, h2⟩
    have := (B.cert.done w h1.lt).lt
    have := v0 w h1.lt
    omega
  · intro k hk; simp at hk
  · intro i x hl
    simp [at', inc_lt hl]
  · intro q hq h
    have := v0 q hq
    omega
  · intro q hq _ h
    have := v0 q hq
    omega
  · rintro i s - hi ⟨c, c0, J, h2, h3, hr, h4, h5⟩
    unfold rootStep
    rw [rd_at false (by rw [J.s1]; exact hi), ok_bind]
    have hv := J.used i hi
    split_ifs with hc
    · have hic := hv.mp hc
      refine Tot.pure ⟨c, c0, J, ?_, h3, fun r a b d => by have := hr r a b d; omega, h4, ?_⟩
      · intro x hx
        by_cases e : x = i
        · subst e; exact hic
        · exact h2 x (by omega)
      · rw [List.range_succ, List.filter_append, ← h5]
        have : (at' [] o.g i).isEmpty = false := by
          rw [Bool.eq_false_iff]
          intro he
          rw [List.isEmpty_iff] at he
          -- `i` was reached from a parent or is an earlier root
          rcases (B.cert.done i hi).up with ⟨-, a2⟩ | ⟨p, j, a1, a2, a3, a4, a5, a6⟩
          · have := hr i hi a2 hic
            omega
          · have := (B.graph.adj i hi p j).mpr a4
            rw [he] at this
            simp at this
        simp [this]
    · have hy : c ≤ v.pre i := by
        by_contra hcc
        exact hc (hv.mpr (by omega))
      obtain ⟨b1, b2⟩ := B.next_root hi c0 h2 h3 hy
      have b3 := (B.cert.root_iff hi).mpr b2
      rw [B.size]
      have hsep : ∀ z, SepN v n z → v.In z i → False := by
        intro z hz hin
        have := B.cert.root_in hz.lt hi b2 hin
        subst this
        obtain ⟨p, _, h, _⟩ := hz.edge B.cert
        omega
      have D := dfs_tot B n i s hi (J.congr (fun w => by rw [b1]) rfl rfl rfl b1) (by omega)
      rw [b3] at D
      refine Tot.bind D ?_
      rintro s' ⟨K, k1, T, k2, k3⟩
      have h6 := (B.cert.done i hi).lt
      have hT : T = [] := by
        rw [List.eq_nil_iff_forall_not_mem]
        intro j hj
        obtain ⟨x, y, hl, d1, d2, d3⟩ := (k3 j).mp hj
        obtain ⟨w, w1, w2, w3⟩ := hl.head B.cert
        refine d3 w w1 ?_ w2
        rcases B.cert.laminar d1 w2 with h | h
        · have : v.pre i ≠ v.pre w := by
            intro e
            have := B.cert.inj _ _ hi w1.lt e
            subst this
            exact hsep i w1 (B.cert.in_self hi)
          have := h.1
          omega
        · exact absurd h (hsep w w1)
      subst hT
      rw [rd_at [] (by rw [B.graph.size]; exact hi), ok_bind]
      have fin : ∀ s2 : Biconnected.St, s2.comp = s'.comp → s2.num = s'.num → s2.used = s'.used → s2.stack = s'.stack →
          (s2.iso = (List.range (i + 1)).filter fun x => (at' [] o.g x).isEmpty) →
          ∃ c, 0 ≤ c ∧ BInv n E v (PopIn v n c) c s2 ∧ (∀ x, x < i + 1 → v.pre x < c) ∧
            (∀ q, q < n → v.pre q < c → v.fin q ≤ c) ∧ (∀ r, r < n → v.par r = -1 → v.pre r < c → r < i + 1) ∧ s2.stack = [] ∧ s2.iso = (List.range (i + 1)).filter fun x => (at' [] o.g x).isEmpty := by
        intro s2 e1 e2 e3 e4 e5
        refine ⟨v.fin i, by omega, K.congr (fun w => ?_) e1 e2 e3 rfl, ?_, ?_, ?_, by rw [e4, k2, h4]; rfl, e5⟩
        · constructor
          · rintro ⟨a1, a2⟩
            refine ⟨a1, a2, ?_⟩
            by_contra hcc
            push Not at hcc
            exact hsep w a1 ⟨hcc.2, hcc.1⟩
          · rintro ⟨a1, a2, -⟩; exact ⟨a1, a2⟩
        · intro x hx
          by_cases e : x = i
          · subst e; exact h6
          · have := h2 x (by omega); omega
        · intro q hq h7
          by_cases h8 : v.pre q < c
          · have := h3 q hq h8; omega
          · exact B.fin_mono hi hq ⟨by omega, h7⟩
        · intro r a b d
          by_cases h8 : v.pre r < c
          · have := hr r a b h8; omega
          · have := B.cert.root_in hi a b ⟨by omega, d⟩
            omega
      split_ifs with hg
      · refine Tot.pure (fin { s' with iso := s'.iso ++ [i] } rfl rfl rfl rfl ?_)
        dsimp only
        rw [k1, h5, List.range_succ, List.filter_append]
        simp [hg]
      · refine Tot.pure (fin _ rfl rfl rfl rfl ?_)
        rw [k1, h5, List.range_succ, List.filter_append]
        simp [hg]
  · rintro s ⟨c, c0, J, h2, h3, -, h4, h5⟩
    refine ⟨?_, h4, h5⟩
    obtain ⟨f, hf⟩ := J.ids
    refine ⟨J.s1, J.s2, ?_, ⟨f, hf.congr (fun w => ?_) rfl rfl⟩, J.loops⟩
    · intro x hx
      rw [J.used x hx]
      exact iff_of_true (h2 x hx) (B.lt x hx)
    · exact ⟨fun h => ⟨h, h3 w h.lt (h2 w h.lt)⟩, fun h => h.1⟩

end Biconnected
