import Verif.Model.Eulerian
import Verif.Spec.Eulerian
import Mathlib.Algebra.Order.BigOperators.Group.Finset
import Mathlib.Data.Finset.Union

namespace Eulerian
open Cxx Finset

/-- An entry of the adjacency lists: vertex and position. -/
abbrev Slot := Nat × Nat

/-- The number of entries at `u`, and where the entry leads. -/
def sz (g : Array (Array Nat)) (u : Nat) : Nat := (at' #[] g u).size
def hd (g : Array (Array Nat)) (e : Slot) : Nat := at' 0 (at' #[] g e.1) e.2

/-- All entries. -/
def slots (g : Array (Array Nat)) : Finset Slot := (range g.size).biUnion fun u => (range (sz g u)).image fun i => (u, i)

theorem mem_slots {g : Array (Array Nat)} {e : Slot} : e ∈ slots g ↔ e.1 < g.size ∧ e.2 < sz g e.1 := by
  unfold slots
  rw [mem_biUnion]
  constructor
  · rintro ⟨u, h1, h2⟩
    rw [mem_image] at h2
    obtain ⟨i, h3, rfl⟩ := h2
    exact ⟨mem_range.mp h1, mem_range.mp h3⟩
  · rintro ⟨h1, h2⟩
    exact ⟨e.1, mem_range.mpr h1, mem_image.mpr ⟨e.2, mem_range.mpr h2, rfl⟩⟩

/-- Walks given by their entries. -/
def Walk (g : Array (Array Nat)) : Nat → List Slot → Nat → Prop
  | u, [], c => u = c
  | u, e :: es, c => e.1 = u ∧ Walk g (hd g e) es c

/-- The vertices of a walk. -/
def verts (g : Array (Array Nat)) (u : Nat) (es : List Slot) : List Nat := u :: es.map (hd g)

theorem walk_append {g : Array (Array Nat)} {es fs : List Slot} {u v c : Nat} (h1 : Walk g u es v) (h2 : Walk g v fs c) : Walk g u (es ++ fs) c := by
  induction es generalizing u with
  | nil =>
    have : u = v := h1
    rw [this]
    exact h2
  | cons e es ih => exact ⟨h1.1, ih h1.2⟩

/-- The flags describe the set `F` of free entries. -/
structure FreeRep (g : Array (Array Nat)) (used : Used) (F : Finset Slot) : Prop where
  size : used.size = g.size
  row : ∀ u, u < g.size → (at' #[] used u).size = sz g u
  sub : F ⊆ slots g
  flag : ∀ e ∈ slots g, (at' false (at' #[] used e.1) e.2 = false ↔ e ∈ F)

theorem getUsed_tot {g : Array (Array Nat)} {used : Used} {F : Finset Slot} (h : FreeRep g used F) {u i : Nat} (he : (u, i) ∈ slots g) : getUsed u i used = .ok (decide ((u, i) ∉ F)) := by
  have hs := mem_slots.mp he
  unfold getUsed
  rw [rd_at #[] (by rw [h.size]; exact hs.1), ok_bind, rd_at false (by rw [h.row u hs.1]; exact hs.2)]
  have := h.flag _ he
  dsimp only at this
  congr 1
  by_cases hF : (u, i) ∈ F
  · rw [this.mpr hF]
    simp [hF]
  · have h2 : at' false (at' #[] used u) i ≠ false := fun hc => hF (this.mp hc)
    simp [hF]
    simpa using h2

theorem setUsed_tot {g : Array (Array Nat)} {used : Used} {F : Finset Slot} (h : FreeRep g used F) {u i : Nat} (he : (u, i) ∈ slots g) :
    Tot (setUsed u i used) (fun used' => FreeRep g used' (F \ {(u, i)})) := by
  have hs := mem_slots.mp he
  have hu : u < used.size := by rw [h.size]; exact hs.1
  have hi : i < (at' #[] used u).size := by rw [h.row u hs.1]; exact hs.2
  unfold setUsed
  rw [rd_at #[] hu, ok_bind, wr_eq hi, ok_bind, wr_eq hu]
  refine tot_ok.mpr ⟨by simp [h.size], ?_, fun e h1 => h.sub (mem_sdiff.mp h1).1, ?_⟩
  · intro v hv
    rw [at_set #[] hu]
    split_ifs with hc
    · subst hc
      simp [h.row u hv]
    · exact h.row v hv
  · rintro ⟨v, j⟩ hvj
    dsimp only
    rw [at_set #[] hu]
    have hF := h.flag _ hvj
    dsimp only at hF
    rw [mem_sdiff, mem_singleton]
    split_ifs with hc
    · subst hc
      rw [at_set false hi]
      split_ifs with hj
      · subst hj
        simp
      · rw [hF]
        simp
        intro _ hc
        exact hj hc.symm
    · rw [hF]
      simp
      intro _ hc' _
      exact hc hc'.symm

/-- The positions of the loops have passed used entries only. -/
structure ItRep (g : Array (Array Nat)) (iter : Array Nat) (F : Finset Slot) : Prop where
  size : iter.size = g.size
  past : ∀ u i, i < at' 0 iter u → (u, i) ∉ F

theorem ItRep.mono {g : Array (Array Nat)} {iter : Array Nat} {F F' : Finset Slot} (h : ItRep g iter F) (hs : F' ⊆ F) : ItRep g iter F' :=
  ⟨h.size, fun u i hi hc => h.past u i hi (hs hc)⟩

theorem advance_tot {t : St} {u : Nat} (h : u < t.iter.size) :
    Tot (advance u t) (fun t' => t'.used = t.used ∧ t'.res = t.res ∧ t'.iter.size = t.iter.size ∧ ∀ x, at' 0 t'.iter x = if u = x then at' 0 t.iter u + 1 else at' 0 t.iter x) := by
  unfold advance
  rw [rd_at 0 h, ok_bind, wr_eq h, ok_bind]
  refine tot_ok.mpr ⟨rfl, rfl, by simp, fun x => ?_⟩
  dsimp only
  rw [at_set 0 h]

/-- What is left to do for the loops. -/
def rem (g : Array (Array Nat)) (iter : Array Nat) : Nat := ∑ x ∈ range g.size, (sz g x - at' 0 iter x)

theorem rem_le {g : Array (Array Nat)} {a b : Array Nat} (h : ∀ x, at' 0 b x = at' 0 a x ∨ sz g x ≤ at' 0 b x) : rem g b ≤ rem g a := by
  refine sum_le_sum fun x _ => ?_
  rcases h x with h | h <;> omega

theorem rem_lt {g : Array (Array Nat)} {a b : Array Nat} {u : Nat} (hu : u < g.size) (hlt : at' 0 a u < sz g u) (h : ∀ x, at' 0 b x = if u = x then at' 0 a u + 1 else at' 0 a x) :
    rem g b < rem g a := by
  refine sum_lt_sum (fun x _ => ?_) ⟨u, mem_range.mpr hu, ?_⟩
  · rw [h x]
    split_ifs with hc
    · subst hc
      omega
    · omega
  · rw [h u, if_pos rfl]
    omega

theorem rem_le' {g : Array (Array Nat)} {a b : Array Nat} {u : Nat} (h : ∀ x, at' 0 b x = if u = x then at' 0 a u + 1 else at' 0 a x) : rem g b ≤ rem g a := by
  refine sum_le_sum fun x _ => ?_
  rw [h x]
  split_ifs with hc
  · subst hc
    omega
  · omega

/-- What the proof needs of the marking lines: `cl e` is the set of entries that they mark, `Bal F u c` says that a search from `u` in the free entries `F` gets stuck at
`c`. -/
structure Kind (g : Array (Array Nat)) (mark : Nat → Nat → Used → M Used) where
  cl : Slot → Finset Slot
  self : ∀ e, e ∈ cl e
  symm : ∀ a b, a ∈ cl b → b ∈ cl a
  Bal : Finset Slot → Nat → Nat → Prop
  stuck : ∀ F u c, Bal F u c → (∀ e ∈ F, e.1 ≠ u) → u = c
  next : ∀ F u c e, Bal F u c → e ∈ F → e.1 = u → F ⊆ slots g → Bal (F \ cl e) (hd g e) c
  any : ∀ F c w, Bal F c c → Bal F w w
  markOk : ∀ F u c e used, Bal F u c → e ∈ F → e.1 = u → FreeRep g used F → Tot (mark e.1 e.2 used) (fun used' => FreeRep g used' (F \ cl e))
  valid : ∀ e ∈ slots g, hd g e < g.size

/-- The entries marked by a walk. -/
def marked {g : Array (Array Nat)} {mark : Nat → Nat → Used → M Used} (K : Kind g mark) (es : List Slot) : Finset Slot := es.toFinset.biUnion K.cl

theorem mem_marked {g : Array (Array Nat)} {mark : Nat → Nat → Used → M Used} {K : Kind g mark} {es : List Slot} {e : Slot} : e ∈ marked K es ↔ ∃ a ∈ es, e ∈ K.cl a := by
  unfold marked
  rw [mem_biUnion]
  simp only [List.mem_toFinset]

/-- The outcome of a search from `u`. -/
structure Post {g : Array (Array Nat)} {mark : Nat → Nat → Used → M Used} (K : Kind g mark) (F : Finset Slot) (u c : Nat) (t t' : St) (es : List Slot) : Prop where
  walk : Walk g u es c
  sub : ∀ e ∈ es, e ∈ F
  pair : es.Pairwise fun a b => b ∉ K.cl a
  res : t'.res.toList = t.res.toList ++ (verts g u es).reverse
  free : FreeRep g t'.used (F \ marked K es)
  it : ItRep g t'.iter (F \ marked K es)
  adv : ∀ x, at' 0 t'.iter x = at' 0 t.iter x ∨ sz g x ≤ at' 0 t'.iter x
  bal : K.Bal (F \ marked K es) c c
  done : ∀ x ∈ verts g u es, ∀ e ∈ F \ marked K es, e.1 ≠ x

theorem dfs_tot {g : Array (Array Nat)} {mark : Nat → Nat → Used → M Used} (K : Kind g mark) : ∀ k u c F t, u < g.size → FreeRep g t.used F → ItRep g t.iter F → K.Bal F u c →
    F.card + rem g t.iter < k → Tot (dfs g mark k u t) (fun t' => (∃ es, Post K F u c t t' es) ∧ sz g u ≤ at' 0 t'.iter u) := by
  intro k
  induction k with
  | zero =>
    intro u c F t _ _ _ _ h
    omega
  | succ k ih =>
    intro u c F t hu hf hi hb hk
    have hiu : u < t.iter.size := by rw [hi.size]; exact hu
    unfold dfs
    rw [rd_at 0 hiu, ok_bind, rd_at #[] hu, ok_bind]
    obtain ⟨i, hidef⟩ : ∃ i, i = at' 0 t.iter u := ⟨_, rfl⟩
    rw [← hidef]
    by_cases hlt : i < (at' #[] g u).size
    · rw [if_pos hlt]
      have he : (u, i) ∈ slots g := mem_slots.mpr ⟨hu, hlt⟩
      rw [getUsed_tot hf he, ok_bind]
      by_cases hF : (u, i) ∈ F
      · rw [if_neg (by simp [hF]), rd_at 0 hlt, ok_bind]
        have hhd : at' 0 (at' #[] g u) i = hd g (u, i) := rfl
        rw [hhd]
        refine (K.markOk F u c (u, i) t.used hb hF rfl hf).bind ?_
        intro used hused
        have hsub : F \ K.cl (u, i) ⊆ F := sdiff_subset
        have hcard : (F \ K.cl (u, i)).card < F.card := card_lt_card ⟨hsub, fun hc => (mem_sdiff.mp (hc hF)).2 (K.self _)⟩
        have hv := K.valid _ he
        refine (ih (hd g (u, i)) c (F \ K.cl (u, i)) { t with used := used } hv hused (hi.mono hsub) (K.next F u c _ hb hF rfl hf.sub) (by dsimp only; omega)).bind ?_
        rintro t1 ⟨⟨es1, p1⟩, -⟩
        have hiu1 : u < t1.iter.size := by rw [p1.it.size]; exact hu
        obtain ⟨F2, hF2⟩ : ∃ F2, F2 = (F \ K.cl (u, i)) \ marked K es1 := ⟨_, rfl⟩
        have hF2sub : F2 ⊆ F := by
          rw [hF2]
          exact sdiff_subset.trans hsub
        have hF2card : F2.card < F.card := by
          refine lt_of_le_of_lt (card_le_card ?_) hcard
          rw [hF2]
          exact sdiff_subset
        refine (advance_tot hiu1).bind ?_
        rintro t2 ⟨a1, a2, a3, a4⟩
        have it2 : ItRep g t2.iter F2 := by
          refine ⟨by rw [a3, p1.it.size], fun x j hj => ?_⟩
          rw [a4] at hj
          have old := p1.it.past x j
          rw [← hF2] at old
          split_ifs at hj with hc
          · subst hc
            by_cases hj2 : j < at' 0 t1.iter u
            · exact old hj2
            · have hj3 : j = at' 0 t1.iter u := by omega
              rcases p1.adv u with h | h
              · have hji : j = i := by
                  rw [hj3, h, hidef]
                rw [hji, hF2, mem_sdiff, mem_sdiff]
                exact fun hc => hc.1.2 (K.self _)
              · intro hc
                have := (mem_slots.mp (hf.sub (hF2sub hc))).2
                dsimp only at this
                omega
          · exact old hj
        have bal2 : K.Bal F2 u u := by
          rw [hF2]
          exact K.any _ c u p1.bal
        have free2 : FreeRep g t2.used F2 := by
          rw [a1, hF2]
          exact p1.free
        have hrem : rem g t2.iter ≤ rem g t.iter := (rem_le' a4).trans (rem_le p1.adv)
        refine (ih u u F2 t2 hu free2 it2 bal2 (by omega)).mono ?_
        rintro t' ⟨⟨es2, p2⟩, hend⟩
        have hset : F2 \ marked K es2 = F \ marked K (es2 ++ (u, i) :: es1) := by
          ext e
          rw [hF2]
          simp only [mem_sdiff, mem_marked]
          constructor
          · rintro ⟨⟨⟨h1, h2⟩, h3⟩, h4⟩
            refine ⟨h1, ?_⟩
            rintro ⟨a, ha, hea⟩
            rcases List.mem_append.mp ha with ha | ha
            · exact h4 ⟨a, ha, hea⟩
            · rcases List.mem_cons.mp ha with rfl | ha
              · exact h2 hea
              · exact h3 ⟨a, ha, hea⟩
          · rintro ⟨h1, h2⟩
            refine ⟨⟨⟨h1, fun hc => h2 ⟨_, by simp, hc⟩⟩, ?_⟩, ?_⟩
            · rintro ⟨a, ha, hea⟩
              exact h2 ⟨a, by simp [ha], hea⟩
            · rintro ⟨a, ha, hea⟩
              exact h2 ⟨a, by simp [ha], hea⟩
        refine ⟨⟨es2 ++ (u, i) :: es1, ?_⟩, hend⟩
        refine ⟨walk_append p2.walk ⟨rfl, p1.walk⟩, ?_, ?_, ?_, ?_, ?_, ?_, ?_, ?_⟩
        · intro e he
          rcases List.mem_append.mp he with he | he
          · exact hF2sub (p2.sub e he)
          · rcases List.mem_cons.mp he with rfl | he
            · exact hF
            · exact hsub (p1.sub e he)
        · rw [List.pairwise_append]
          refine ⟨p2.pair, List.pairwise_cons.mpr ⟨fun b hb => (mem_sdiff.mp (p1.sub b hb)).2, p1.pair⟩, ?_⟩
          intro a ha b hb hc
          have := p2.sub a ha
          rw [hF2] at this
          have hab := K.symm _ _ hc
          rcases List.mem_cons.mp hb with rfl | hb
          · exact (mem_sdiff.mp (mem_sdiff.mp this).1).2 hab
          · exact (mem_sdiff.mp this).2 (mem_marked.mpr ⟨b, hb, hab⟩)
        · rw [p2.res, a2, p1.res]
          dsimp only
          unfold verts
          simp
        · rw [← hset]
          exact p2.free
        · rw [← hset]
          exact p2.it
        · intro x
          rcases p2.adv x with h | h
          · rw [a4] at h
            by_cases hc : u = x
            · subst hc
              exact Or.inr hend
            · rw [if_neg hc] at h
              rcases p1.adv x with h' | h'
              · left
                rw [h, h']
              · right
                rw [h]
                exact h'
          · exact Or.inr h
        · rw [← hset]
          exact K.any _ u c p2.bal
        · rw [← hset]
          intro x hx e he
          have hv : verts g u (es2 ++ (u, i) :: es1) = verts g u es2 ++ verts g (hd g (u, i)) es1 := by
            unfold verts
            simp
          rw [hv] at hx
          rcases List.mem_append.mp hx with hx | hx
          · exact p2.done x hx e he
          · refine p1.done x hx e ?_
            rw [← hF2]
            exact (mem_sdiff.mp he).1
      · rw [if_pos (by simp [hF])]
        refine (advance_tot hiu).bind ?_
        rintro t1 ⟨a1, a2, a3, a4⟩
        have it1 : ItRep g t1.iter F := by
          refine ⟨by rw [a3, hi.size], fun x j hj => ?_⟩
          rw [a4] at hj
          split_ifs at hj with hc
          · subst hc
            by_cases hj2 : j < at' 0 t.iter u
            · exact hi.past u j hj2
            · rw [show j = i by omega]
              exact hF
          · exact hi.past x j hj
        have hrem : rem g t1.iter < rem g t.iter := rem_lt hu (by rw [← hidef]; exact hlt) a4
        refine (ih u c F t1 hu (by rw [a1]; exact hf) it1 hb (by omega)).mono ?_
        rintro t' ⟨⟨es, p⟩, hend⟩
        refine ⟨⟨es, p.walk, p.sub, p.pair, by rw [p.res, a2], p.free, p.it, ?_, p.bal, p.done⟩, hend⟩
        intro x
        rcases p.adv x with h | h
        · rw [a4] at h
          by_cases hc : u = x
          · subst hc
            exact Or.inr hend
          · rw [if_neg hc] at h
            exact Or.inl h
        · exact Or.inr h
    · rw [if_neg hlt]
      have hge : sz g u ≤ at' 0 t.iter u := by
        rw [← hidef]
        exact Nat.le_of_not_lt hlt
      have hno : ∀ e ∈ F, e.1 ≠ u := by
        rintro ⟨x, j⟩ he hx
        dsimp only at hx
        subst hx
        have := (mem_slots.mp (hf.sub he)).2
        dsimp only at this
        exact hi.past x j (by omega) he
      have huc := K.stuck F u c hb hno
      subst huc
      have hm : F \ marked K [] = F := by
        ext e
        simp [mem_marked, mem_sdiff]
      refine tot_ok.mpr ⟨⟨[], rfl, by simp, by simp, ?_, ?_, ?_, ?_, ?_, ?_⟩, hge⟩
      · simp [verts]
      · rw [hm]
        exact hf
      · rw [hm]
        exact hi
      · exact fun x => Or.inl rfl
      · rw [hm]
        exact hb
      · rw [hm]
        intro x hx e he
        have : x = u := by simpa [verts] using hx
        rw [this]
        exact hno e he

end Eulerian
