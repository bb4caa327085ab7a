import Verif.Model.Kruscal
import Verif.Proof.SpanningForest

/-! # Kruskal's algorithm -/

namespace Kruscal
open Cxx SpanningForest

/-- The labels describe the components of the edges. -/
def Lab (n : Nat) (lab : Array Nat) (F : List Edge) : Prop :=
  lab.size = n ∧ ∀ (u v : Nat), u < n → v < n → (lab[u]? = lab[v]? ↔ Conn F u v)

theorem lab_range (n : Nat) : Lab n (Array.range n) [] := by
  refine ⟨by simp, fun u v hu hv => ?_⟩
  rw [conn_nil, Array.getElem?_range, Array.getElem?_range, if_pos hu, if_pos hv, Option.some.injEq]

theorem same_tot {n : Nat} {lab : Array Nat} {F : List Edge} (h : Lab n lab F) {u v : Nat} (hu : u < n) (hv : v < n) :
    Tot (same lab u v) fun b => b = true ↔ Conn F u v := by
  unfold same
  rw [decide_eq_true (show _ < lab.size by rw [h.1]; exact hu), decide_eq_true (show _ < lab.size by rw [h.1]; exact hv), check_true]
  simp only [ok_bind]
  rw [rd_eq (h := by rw [h.1]; exact hu), ok_bind, rd_eq (h := by rw [h.1]; exact hv), ok_bind]
  refine Tot.pure ?_
  rw [decide_eq_true_iff, ← h.2 u v hu hv, Array.getElem?_eq_getElem (by rw [h.1]; exact hu), Array.getElem?_eq_getElem (by rw [h.1]; exact hv), Option.some.injEq]

theorem merge_tot {n : Nat} {lab : Array Nat} {F : List Edge} (h : Lab n lab F) {e : Edge} (hu : e.1 < n) (hv : e.2.1 < n) :
    Tot (merge lab e.1 e.2.1) fun lab' => Lab n lab' (e :: F) := by
  unfold merge
  rw [decide_eq_true (show _ < lab.size by rw [h.1]; exact hu), decide_eq_true (show _ < lab.size by rw [h.1]; exact hv), check_true]
  simp only [ok_bind]
  rw [rd_eq (h := by rw [h.1]; exact hu), ok_bind, rd_eq (h := by rw [h.1]; exact hv), ok_bind]
  refine Tot.pure ⟨by rw [Array.size_map]; exact h.1, fun x y hx hy => ?_⟩
  have key : ∀ (a b : Nat) (ha : a < n) (hb : b < n), (lab[a]'(by rw [h.1]; exact ha) = lab[b]'(by rw [h.1]; exact hb)) ↔ Conn F a b := by
    intro a b ha hb
    rw [← h.2 a b ha hb, Array.getElem?_eq_getElem (by rw [h.1]; exact ha), Array.getElem?_eq_getElem (by rw [h.1]; exact hb), Option.some.injEq]
  rw [conn_cons, Array.getElem?_map, Array.getElem?_map, Array.getElem?_eq_getElem (by rw [h.1]; exact hx), Array.getElem?_eq_getElem (by rw [h.1]; exact hy)]
  simp only [Option.map_some, Option.some.injEq]
  rw [← key x y hx hy, ← key x _ hx hu, ← key x _ hx hv, ← key _ y hv hy, ← key _ y hu hy]
  split <;> split <;> constructor <;> intro hh <;> first | omega | skip
  all_goals grind

/-- The invariant of the loop: `P` are the edges already seen, `F` those kept. -/
structure LInv (n : Nat) (key : Int → Int) (P : List Edge) (s : Array Nat × Int × List Edge) (F : List Edge) : Prop where
  keep : s.2.2.filter (fun e => e.1 ≠ n) = F
  lab : Lab n s.1 F
  sub : F.Sublist P
  forest : comps n F + F.length = n
  sum : s.2.1 = total F
  thr : Thr key P F

theorem total_append (F : List Edge) (e : Edge) : total (F ++ [e]) = total F + e.2.2 := by
  unfold total
  simp

theorem below_append (key : Int → Int) (t : Int) (F : List Edge) (e : Edge) : below key t (F ++ [e]) = below key t F ++ (if key e.2.2 ≤ t then [e] else []) := by
  unfold below
  rw [List.filter_append]
  congr 1
  simp only [List.filter_cons, List.filter_nil, decide_eq_true_eq]

theorem edgeStep_tot {n : Nat} {key : Int → Int} {P : List Edge} {s : Array Nat × Int × List Edge} {F : List Edge} {e : Edge}
    (h : LInv n key P s F) (hu : e.1 < n) (hv : e.2.1 < n) (hs : ∀ e' ∈ P, key e'.2.2 ≤ key e.2.2) :
    Tot (edgeStep n s e) fun s' => ∃ F', LInv n key (P ++ [e]) s' F' := by
  unfold edgeStep
  refine Tot.bind (same_tot h.lab hu hv) fun b hb => ?_
  have hp1 : ∀ {l : List Edge}, (l ++ [e]).Perm (e :: l) := fun {l} => List.perm_append_singleton e l
  have hF : ∀ e' ∈ F, key e'.2.2 ≤ key e.2.2 := fun e' he' => hs e' (h.sub.subset he')
  cases b with
  | true =>
    rw [if_pos rfl]
    have hc : Conn F e.1 e.2.1 := hb.1 rfl
    refine Tot.pure ⟨F, ?_, h.lab, h.sub.trans (List.sublist_append_left _ _), h.forest, h.sum, ?_⟩
    · dsimp only
      rw [List.filter_append, h.keep]
      simp
    · intro t x y
      rw [below_append]
      split
      · next ht =>
        rw [below_all fun e' he' => (hs e' he').trans ht, below_all fun e' he' => (hF e' he').trans ht, conn_perm hp1,
          conn_redundant ((h.thr.conn _ _).1 hc)]
        exact h.thr.conn x y
      · rw [List.append_nil]
        exact h.thr t x y
  | false =>
    rw [if_neg (by simp)]
    have hc : ¬ Conn F e.1 e.2.1 := fun hc => by simpa using hb.2 hc
    refine Tot.bind (merge_tot h.lab hu hv) fun lab' hl => ?_
    refine Tot.pure ⟨F ++ [e], ?_, ?_, h.sub.append (List.Sublist.refl _), ?_, ?_, h.thr.append [e]⟩
    · dsimp only
      rw [List.filter_append, h.keep]
      have : ¬ e.1 = n := by omega
      simp [this]
    · refine ⟨hl.1, fun u v hu hv => ?_⟩
      rw [conn_perm hp1]
      exact hl.2 u v hu hv
    · have h1 := comps_cons hu hv hc
      have h2 : comps n (F ++ [e]) = comps n (e :: F) := comps_congr fun x y => conn_perm hp1
      have := h.forest
      rw [h2, List.length_append, List.length_singleton]
      omega
    · rw [total_append, ← h.sum]

/-- What is known after `build`. -/
structure Built (n : Nat) (key : Int → Int) (E : List Edge) (o : Obj) : Prop where
  sz : o.sz = n
  built : o.built = true
  valid : Valid n o.edges
  sub : o.edges.Subperm E
  acyclic : Acyclic o.edges
  sorted : o.edges.Pairwise fun a b => key a.2.2 ≤ key b.2.2
  sum : o.weight = total o.edges
  thr : Thr key E o.edges

/-- The contract of `std::sort`. -/
def SortSpec (key : Int → Int) (srt : List Edge → List Edge) : Prop :=
  ∀ l, (srt l).Perm l ∧ (srt l).Pairwise fun a b => key a.2.2 ≤ key b.2.2

theorem conn_all_iff {n : Nat} {F : List Edge} (hn : n ≠ 0) : comps n F = 1 ↔ ∀ u v, u < n → v < n → Conn F u v := by
  have h0 : 0 ∈ mins n F := mem_mins.2 ⟨by omega, fun w hw => by omega⟩
  constructor
  · intro h
    have h1 : mins n F = {0} := by
      obtain ⟨a, ha⟩ := Finset.card_eq_one.1 h
      rw [ha, Finset.mem_singleton] at h0
      rw [ha, h0]
    have key : ∀ u, u < n → Conn F u 0 := by
      intro u hu
      obtain ⟨a, a1, a2, a3⟩ := exists_min (es := F) u
      have : a ∈ mins n F := mem_mins.2 ⟨by omega, fun w hw hc => by have := a3 w (conn_trans a2 hc); omega⟩
      rw [h1, Finset.mem_singleton] at this
      rwa [this] at a2
    exact fun u v hu hv => conn_trans (key u hu) (conn_symm (key v hv))
  · intro h
    have h1 : mins n F = {0} := by
      ext x
      rw [Finset.mem_singleton]
      constructor
      · intro hx
        rw [mem_mins] at hx
        by_contra hne
        exact hx.2 0 (by omega) (h x 0 hx.1 (by omega))
      · rintro rfl; exact h0
    unfold comps
    rw [h1, Finset.card_singleton]

theorem buildMain_tot {n : Nat} {key : Int → Int} {srt : List Edge → List Edge} (hsrt : SortSpec key srt) {o : Obj} (hn : n ≠ 0) (hsz : o.sz = n) (hv : Valid n o.edges) :
    Tot (buildMain srt o) fun r => Built n key o.edges r.1 ∧ (r.2 = true ↔ ∀ u v, u < n → v < n → Conn o.edges u v) := by
  unfold buildMain
  obtain ⟨hp, hso⟩ := hsrt o.edges
  rw [hsz]
  refine Tot.bind (Tot.forEach (P := fun P s => ∃ F, LInv n key P s F) ?_ ?_) fun s hs => ?_
  · exact ⟨[], rfl, lab_range n, List.Sublist.refl _, by rw [comps_nil]; simp, rfl, fun t x y => Iff.rfl⟩
  · rintro pre x post s he ⟨F, hF⟩
    have hx : x ∈ o.edges := hp.mem_iff.1 (by rw [he]; simp)
    obtain ⟨h1, h2⟩ := hv x hx
    refine edgeStep_tot hF h1 h2 fun e' he' => ?_
    rw [he, List.pairwise_append] at hso
    exact hso.2.2 e' he' x (by simp)
  · obtain ⟨F, hF⟩ := hs
    have hk := hF.keep
    have hvF : Valid n F := fun e he => hv e (hp.mem_iff.1 (hF.sub.subset he))
    have hthr : Thr key o.edges F := (Thr.perm hp.symm).trans hF.thr
    refine Tot.pure ⟨⟨rfl, rfl, ?_, ?_, ?_, ?_, ?_, ?_⟩, ?_⟩
    · dsimp only; rw [hk]; exact hvF
    · dsimp only; rw [hk]; exact hF.sub.subperm.trans hp.subperm
    · dsimp only; rw [hk]; exact acyclic_of_comps hvF hF.forest
    · dsimp only; rw [hk]; exact hso.sublist hF.sub
    · dsimp only; rw [hk]; exact hF.sum
    · dsimp only; rw [hk]; exact hthr
    · dsimp only
      rw [hk, decide_eq_true_iff]
      have := hF.forest
      have h1 : F.length = n - 1 ↔ comps n F = 1 := by
        have : F.length < n := by
          have : 0 < comps n F := Finset.card_pos.2 ⟨0, mem_mins.2 ⟨by omega, fun w hw => by omega⟩⟩
          omega
        omega
      rw [h1, conn_all_iff hn]
      refine forall₄_congr fun u v _ _ => hthr.conn u v

end Kruscal
