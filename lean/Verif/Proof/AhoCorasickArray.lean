import Verif.Proof.AhoCorasick

/-! # Proofs about `library/string/aho_corasick_array.hpp` -/

namespace AhoCorasickArray
open Cxx Trie ArrayTrie

/-- Transitions: `full v i` tells whether the transition of node `v` by letter number `i` is completed. -/
def Entry (lab : List (List Int)) (y : List Int) (c : Int) (full : Prop) (e : Option Int) : Prop :=
  (full → ∃ (t : Nat) (z : List Int), e = some (t : Int) ∧ lab[t]? = some z ∧ IsLS lab (y ++ [c]) z) ∧
  (¬ full → (∃ t : Nat, e = some (t : Int) ∧ lab[t]? = some (y ++ [c])) ∨ (e = some (-1) ∧ y ++ [c] ∉ lab))

/-- Failure link and count of a node: `inS` tells whether they are computed. -/
def DataOk (lab ws : List (List Int)) (y : List Int) (inS : Prop) (d : Data) : Prop :=
  (inS → (y ≠ [] → ∃ fy, lab[d.failure]? = some fy ∧ IsFail lab y fy) ∧ d.count = cnt ws y) ∧ (¬ inS → d.count = ws.count y)

/-- Node `v` with label `y`. -/
def NodeOk (lab ws : List (List Int)) (σ : Nat) (off : Int) (full : Nat → Prop) (inS : Prop) (y : List Int) (nd : Node Data) : Prop :=
  nd.next.size = σ ∧ (∀ i < σ, Entry lab y (off + i) (full i) nd.next[i]?) ∧ DataOk lab ws y inS nd.val

/-- All nodes. -/
def Ok (lab ws : List (List Int)) (σ : Nat) (off : Int) (full : Nat → Nat → Prop) (S : List Nat) (nodes : Array (Node Data)) : Prop :=
  nodes.size = lab.length ∧ ∀ (v : Nat) y, lab[v]? = some y → ∃ nd, nodes[v]? = some nd ∧ NodeOk lab ws σ off (full v) (v ∈ S) y nd

theorem Entry.congr {lab : List (List Int)} {y : List Int} {c : Int} {f f' : Prop} {e : Option Int} (h : Entry lab y c f e) (hf : f ↔ f') : Entry lab y c f' e := by
  rw [show f' = f from propext hf.symm]; exact h

theorem Ok.congr {lab ws : List (List Int)} {σ : Nat} {off : Int} {full full' : Nat → Nat → Prop} {S S' : List Nat} {nodes : Array (Node Data)}
    (h : Ok lab ws σ off full S nodes) (hf : ∀ v i, v < lab.length → i < σ → (full v i ↔ full' v i)) (hS : ∀ v < lab.length, (v ∈ S ↔ v ∈ S')) :
    Ok lab ws σ off full' S' nodes := by
  refine ⟨h.1, fun v y hy => ?_⟩
  have hv := (List.getElem?_eq_some_iff.1 hy).1
  obtain ⟨nd, h1, h2, h3, h4⟩ := h.2 v y hy
  refine ⟨nd, h1, h2, fun i hi => (h3 i hi).congr (hf v i hv hi), ?_⟩
  rw [show (v ∈ S') = (v ∈ S) from propext (hS v hv).symm]
  exact h4

section
variable {lab ws : List (List Int)} {σ : Nat} {off : Int}

theorem link_tot (hroot : lab[0]? = some []) (hnd : lab.Nodup) (hcl : ∀ x c, x ++ [c] ∈ lab → x ∈ lab) {full : Nat → Nat → Prop} {S : List Nat}
    {nodes : Array (Node Data)} (h : Ok lab ws σ off full S nodes) {cur i : Nat} {x : List Int} (hx : lab[cur]? = some x) (hi : i < σ) (hS : cur ∈ S)
    (hfull : ∀ (u : Nat) y, lab[u]? = some y → y.length < x.length → full u i) :
    Tot (linkOf nodes cur i) fun l => ∃ (t : Nat) (z : List Int), l = (t : Int) ∧ lab[t]? = some z ∧ IsFail lab (x ++ [off + i]) z ∧
      (x ++ [off + (i : Int)] ∉ lab → IsLS lab (x ++ [off + i]) z) := by
  have hr : [] ∈ lab := List.mem_of_getElem? hroot
  rw [linkOf]
  by_cases h0 : cur = 0
  · rw [if_neg (by simpa using h0)]
    subst h0
    rw [hroot] at hx
    cases hx
    exact Tot.pure ⟨0, [], rfl, hroot, isFail_single hr, fun hn => isLS_root hr hn⟩
  · rw [if_pos h0]
    have hne : x ≠ [] := by
      rintro rfl
      exact h0 (idx_inj hnd hx hroot)
    obtain ⟨nd, h1, h2, h3, h4⟩ := h.2 cur x hx
    obtain ⟨fy, h5, h6⟩ := (h4.1 hS).1 hne
    obtain ⟨nf, g1, g2, g3, g4⟩ := h.2 _ fy h5
    obtain ⟨t, z, e1, e2, e3⟩ := (g3 i hi).1 (hfull _ fy h5 h6.length_lt)
    rw [rd_some h1, ok_bind, rd_some g1, ok_bind, rd_some e1]
    exact ⟨_, rfl, t, z, rfl, e2, isFail_child hcl h6 e3, fun hn => IsLS.fail hcl h6 hn e3⟩

theorem linkChild_tot (hws : ∀ w ∈ ws, w ∈ lab) {full : Nat → Nat → Prop} {S : List Nat}
    {nodes : Array (Node Data)} (h : Ok lab ws σ off full S nodes) {v t : Nat} {y z : List Int} (hv : lab[v]? = some y) (ht : lab[t]? = some z)
    (hf : IsFail lab y z) (hvS : v ∉ S) (htS : t ∈ S) :
    Tot (linkChild nodes v t) (Ok lab ws σ off full (S ++ [v])) := by
  obtain ⟨nv, h1, h2, h3, h4⟩ := h.2 v y hv
  obtain ⟨nt, g1, g2, g3, g4⟩ := h.2 t z ht
  have hvt : v ≠ t := by rintro rfl; exact hvS htS
  have hvl : v < nodes.size := by rw [h.1]; exact (List.getElem?_eq_some_iff.1 hv).1
  obtain ⟨n1, hn1⟩ : ∃ n1 : Node Data, n1 = { nv with val := { nv.val with failure := t } } := ⟨_, rfl⟩
  rw [linkChild, rd_some h1, ok_bind, ← hn1, wr_eq hvl, ok_bind, rd_some (show (nodes.setIfInBounds v n1)[t]? = some nt by rw [Array.getElem?_setIfInBounds, if_neg hvt]; exact g1), ok_bind,
    rd_some (show (nodes.setIfInBounds v n1)[v]? = some n1 by rw [Array.getElem?_setIfInBounds, if_pos rfl, if_pos hvl]), ok_bind, wr_eq (by simpa using hvl)]
  refine ⟨_, rfl, by simpa using h.1, fun u y' hu => ?_⟩
  rw [Array.getElem?_setIfInBounds, Array.getElem?_setIfInBounds, Array.size_setIfInBounds]
  by_cases huv : v = u
  · subst huv
    rw [hv] at hu
    cases hu
    rw [if_pos rfl, if_pos hvl]
    refine ⟨_, rfl, ?_⟩
    rw [hn1]
    refine ⟨h2, h3, fun _ => ⟨fun _ => ⟨z, ht, hf⟩, ?_⟩, fun hn => absurd (by simp) hn⟩
    dsimp only
    rw [h4.2 hvS, (g4.1 htS).2, cnt_fail hws hf]
  · rw [if_neg huv, if_neg huv]
    rw [show (u ∈ S ++ [v]) = (u ∈ S) by simp [Ne.symm huv]]
    exact h.2 u y' hu

theorem setChild_tot {full : Nat → Nat → Prop} {S : List Nat}
    {nodes : Array (Node Data)} (h : Ok lab ws σ off full S nodes) {cur i t : Nat} {x z : List Int} (hx : lab[cur]? = some x) (hi : i < σ)
    (ht : lab[t]? = some z) (hz : IsLS lab (x ++ [off + (i : Int)]) z) :
    Tot (setChild nodes cur i t) (Ok lab ws σ off (fun v j => full v j ∨ (v = cur ∧ j = i)) S) := by
  obtain ⟨nd, h1, h2, h3, h4⟩ := h.2 cur x hx
  have hcl : cur < nodes.size := by rw [h.1]; exact (List.getElem?_eq_some_iff.1 hx).1
  rw [setChild, rd_some h1, ok_bind, wr_eq (by omega), ok_bind, wr_eq hcl]
  refine ⟨_, rfl, by simpa using h.1, fun u y hu => ?_⟩
  rw [Array.getElem?_setIfInBounds]
  by_cases huc : cur = u
  · subst huc
    rw [hx] at hu
    cases hu
    rw [if_pos rfl, if_pos hcl]
    refine ⟨_, rfl, by simpa using h2, fun j hj => ?_, h4⟩
    dsimp only
    rw [Array.getElem?_setIfInBounds]
    by_cases hji : i = j
    · subst hji
      rw [if_pos rfl, if_pos (by omega)]
      exact ⟨fun _ => ⟨t, z, rfl, ht, hz⟩, fun hn => absurd (Or.inr ⟨rfl, rfl⟩) hn⟩
    · rw [if_neg hji]
      exact (h3 j hj).congr ⟨fun h => Or.inl h, fun h => h.resolve_right fun e => hji e.2.symm⟩
  · rw [if_neg huc]
    obtain ⟨nd', g1, g2, g3, g4⟩ := h.2 u y hu
    exact ⟨nd', g1, g2, fun j hj => (g3 j hj).congr ⟨fun h => Or.inl h, fun h => h.resolve_right fun e => huc e.1.symm⟩, g4⟩

/-- An existing child is a completed transition. -/
theorem mark_child {full : Nat → Nat → Prop} {S : List Nat}
    {nodes : Array (Node Data)} (h : Ok lab ws σ off full S nodes) {cur i : Nat} {x : List Int} (hx : lab[cur]? = some x)
    (hm : x ++ [off + (i : Int)] ∈ lab) (hn : ¬ full cur i) : Ok lab ws σ off (fun v j => full v j ∨ (v = cur ∧ j = i)) S nodes := by
  refine ⟨h.1, fun u y hu => ?_⟩
  obtain ⟨nd, g1, g2, g3, g4⟩ := h.2 u y hu
  refine ⟨nd, g1, g2, fun j hj => ?_, g4⟩
  by_cases he : u = cur ∧ j = i
  · obtain ⟨rfl, rfl⟩ := he
    rw [hx] at hu
    cases hu
    refine ⟨fun _ => ?_, fun hn' => absurd (Or.inr ⟨rfl, rfl⟩) hn'⟩
    rcases (g3 j hj).2 hn with ⟨t, e1, e2⟩ | ⟨e1, e2⟩
    · exact ⟨t, _, e1, e2, IsLS.of_mem hm⟩
    · exact absurd hm e2
  · exact (g3 j hj).congr ⟨fun h => Or.inl h, fun h => h.resolve_right he⟩

/-- Which transitions are completed in the middle of the work on `cur`. -/
def fullAt (done : List Nat) (cur i : Nat) (v j : Nat) : Prop := v ∈ done ∨ (v = cur ∧ j < i)

theorem letter_tot (hroot : lab[0]? = some []) (hnd : lab.Nodup) (hcl : ∀ x c, x ++ [c] ∈ lab → x ∈ lab) (hws : ∀ w ∈ ws, w ∈ lab)
    {done S q : List Nat} {nodes : Array (Node Data)} {cur i : Nat} {x : List Int} (h : Ok lab ws σ off (fullAt done cur i) S nodes)
    (hx : lab[cur]? = some x) (hi : i < σ) (hcd : cur ∉ done) (hlow : ∀ (u : Nat) y, lab[u]? = some y → y.length < x.length → u ∈ done)
    (hS : ∀ (u : Nat) y, lab[u]? = some y → y.length ≤ x.length → u ∈ S) (hfresh : ∀ v, lab[v]? = some (x ++ [off + (i : Int)]) → v ∉ S) :
    Tot (letterStep cur i (q, nodes)) fun r => ∃ ks, r.1 = q ++ ks ∧ (∀ v, v ∈ ks ↔ lab[v]? = some (x ++ [off + (i : Int)])) ∧ ks.Nodup ∧
      Ok lab ws σ off (fullAt done cur (i + 1)) (S ++ ks) r.2 := by
  have hnf : ¬ fullAt done cur i cur i := by
    rintro (h | h)
    · exact hcd h
    · omega
  have hfa : ∀ v j, (fullAt done cur i v j ∨ (v = cur ∧ j = i)) ↔ fullAt done cur (i + 1) v j := by
    intro v j
    unfold fullAt
    constructor
    · rintro ((h | ⟨h1, h2⟩) | ⟨h1, h2⟩)
      · exact Or.inl h
      · exact Or.inr ⟨h1, by omega⟩
      · exact Or.inr ⟨h1, by omega⟩
    · rintro (h | ⟨h1, h2⟩)
      · exact Or.inl (Or.inl h)
      · by_cases hj : j = i
        · exact Or.inr ⟨h1, hj⟩
        · exact Or.inl (Or.inr ⟨h1, by omega⟩)
  rw [letterStep]
  dsimp only
  refine Tot.bind (link_tot hroot hnd hcl h hx hi (hS cur x hx (le_refl _)) fun u y hu hl => Or.inl (hlow u y hu hl)) ?_
  rintro l ⟨t, z, rfl, ht, hf, hls⟩
  obtain ⟨nd, h1, h2, h3, h4⟩ := h.2 cur x hx
  have htS : t ∈ S := by
    refine hS t z ht ?_
    have := hf.length_lt
    simp at this
    omega
  rcases (h3 i hi).2 hnf with ⟨v, e1, e2⟩ | ⟨e1, e2⟩
  · rw [child, rd_some h1, ok_bind, rd_some e1, ok_bind, branch, if_pos (by omega), nodeIndex, if_neg (by omega), ok_bind, nodeIndex, if_neg (by omega),
      ok_bind, Int.toNat_natCast, Int.toNat_natCast]
    dsimp only
    refine Tot.bind (linkChild_tot hws (mark_child h hx (List.mem_of_getElem? e2) hnf) e2 ht hf (hfresh v e2) htS) ?_
    intro r hr
    refine Tot.pure ⟨[v], rfl, fun v' => ?_, by simp, hr.congr (fun v j _ _ => hfa v j) fun _ _ => Iff.rfl⟩
    rw [List.mem_singleton]
    exact ⟨fun h => h ▸ e2, fun h => idx_inj hnd h e2⟩
  · rw [child, rd_some h1, ok_bind, rd_some e1, ok_bind, branch, if_neg (by omega)]
    dsimp only
    refine Tot.bind (setChild_tot h hx hi ht (hls e2)) ?_
    intro r hr
    refine Tot.pure ⟨[], by simp, fun v' => ?_, by simp, hr.congr (fun v j _ _ => hfa v j) fun _ _ => by simp⟩
    simp only [List.not_mem_nil, false_iff]
    intro hv
    exact e2 (List.mem_of_getElem? hv)

theorem bfs_tot {ch : Nat → Int → Option Nat} (hrep : Rep ch lab) (hws : ∀ w ∈ ws, w ∈ lab) (hlet : ∀ x c, x ++ [c] ∈ lab → okc σ off c)
    {nodes : Array (Node Data)} (h : Ok lab ws σ off (fun _ _ => False) [0] nodes) :
    Tot (loop (bfsStep σ) nodes.size ([0], nodes)) fun r => Ok lab ws σ off (fun _ _ => True) (List.range lab.length) r.2 := by
  have hpos : 0 < lab.length := (List.getElem?_eq_some_iff.1 hrep.root).1
  refine Tot.loopG (P := fun k (s : List Nat × Array (Node Data)) => ∃ done, k = lab.length - done.length ∧ Bfs lab done s.1 ∧
    Ok lab ws σ off (fun v _ => v ∈ done) (done ++ s.1) s.2) (k := lab.length) ?_
    ⟨[], by simp, Bfs.init hpos, by simpa using h⟩ (by rw [h.1])
  rintro k ⟨q, nodes⟩ ⟨done, rfl, hb, hok⟩
  dsimp only at hb hok
  rw [bfsStep]
  dsimp only
  cases q with
  | nil =>
    refine Tot.pure ?_
    have hd := hb.finish hrep
    exact hok.congr (fun v i hv _ => ⟨fun _ => trivial, fun _ => hd v hv⟩) fun v hv => ⟨fun _ => List.mem_range.2 hv, fun _ => by simpa using hd v hv⟩
  | cons cur dq =>
    dsimp only
    have hclt : cur < lab.length := hb.lt cur (by simp)
    obtain ⟨x, hx⟩ : ∃ x, lab[cur]? = some x := ⟨_, List.getElem?_eq_getElem hclt⟩
    have hcd : cur ∉ done := by
      intro hc
      exact (List.nodup_append.1 hb.nodup).2.2 cur hc cur (by simp) rfl
    have hlow := hb.low hrep
    refine Tot.bind (P := fun (t : List Nat × Array (Node Data)) => ∃ ks, t.1 = dq ++ ks ∧ ks.Nodup ∧
      (∀ v, v ∈ ks ↔ ∃ j : Nat, j < σ ∧ lab[v]? = some (x ++ [off + (j : Int)])) ∧ Ok lab ws σ off (fullAt done cur σ) (done ++ cur :: dq ++ ks) t.2) ?_ ?_
    · refine Tot.forUp (P := fun i (t : List Nat × Array (Node Data)) => ∃ ks, t.1 = dq ++ ks ∧ ks.Nodup ∧
        (∀ v, v ∈ ks ↔ ∃ j : Nat, j < i ∧ lab[v]? = some (x ++ [off + (j : Int)])) ∧ Ok lab ws σ off (fullAt done cur i) (done ++ cur :: dq ++ ks) t.2)
        (Nat.zero_le _) ⟨[], by simp, by simp, by simp, ?_⟩ ?_
      · exact hok.congr (fun v i _ _ => ⟨fun h => Or.inl h, fun h => h.resolve_right fun e => by omega⟩) fun _ _ => by simp
      · rintro i ⟨q, nodes⟩ - hi ⟨ks, rfl, hkn, hk, hok⟩
        dsimp only at hok
        refine (letter_tot hrep.root hrep.nodup hrep.closed hws hok hx hi hcd ?_ ?_ ?_).mono ?_
        · intro u y hu hl
          exact hlow.2 u (List.getElem?_eq_some_iff.1 hu).1 (by simpa [dep, hu, hx] using hl)
        · intro u y hu hl
          have : u ∈ done ++ cur :: dq := hlow.1 u (List.getElem?_eq_some_iff.1 hu).1 (by simpa [dep, hu, hx] using hl)
          rw [List.mem_append]
          exact Or.inl this
        · intro v hv
          rw [List.mem_append]
          rintro (h | h)
          · exact hb.fresh hrep.nodup ⟨x, _, hx, hv⟩ hrep.root h
          · obtain ⟨j, hj, hvj⟩ := (hk v).1 h
            rw [hv] at hvj
            simp at hvj
            omega
        · rintro ⟨q', nodes'⟩ ⟨ks', rfl, hk', hkn', hok'⟩
          refine ⟨ks ++ ks', by simp, ?_, fun v => ?_, by simpa using hok'⟩
          · rw [List.nodup_append]
            refine ⟨hkn, hkn', ?_⟩
            rintro a ha b hb' rfl
            obtain ⟨j, hj, hvj⟩ := (hk a).1 ha
            rw [(hk' a).1 hb'] at hvj
            simp at hvj
            omega
          · rw [List.mem_append, hk, hk']
            constructor
            · rintro (⟨j, hj, hv⟩ | hv)
              · exact ⟨j, by omega, hv⟩
              · exact ⟨i, by omega, hv⟩
            · rintro ⟨j, hj, hv⟩
              by_cases hji : j = i
              · subst hji; exact Or.inr hv
              · exact Or.inl ⟨j, by omega, hv⟩
    · rintro ⟨q', nodes'⟩ ⟨ks, rfl, hkn, hk, hok'⟩
      have hlt := hb.done_lt
      refine Tot.pure ⟨lab.length - (done ++ [cur]).length, by simp; omega, done ++ [cur], rfl, ?_, ?_⟩
      · refine hb.step hrep.nodup hrep.root hkn fun v => ?_
        rw [hk]
        constructor
        · rintro ⟨j, hj, hv⟩
          exact ⟨x, _, hx, hv⟩
        · rintro ⟨y, c, h1, h2⟩
          rw [hx] at h1
          cases h1
          obtain ⟨o1, o2⟩ := hlet x c (List.mem_of_getElem? h2)
          refine ⟨(c - off).toNat, by omega, ?_⟩
          rw [h2]
          congr 3
          omega
      · refine hok'.congr (fun v i _ hi => ?_) fun v _ => by simp
        unfold fullAt
        rw [List.mem_append, List.mem_singleton]
        exact ⟨fun h => h.imp id (·.1), fun h => h.imp id fun e => ⟨e, hi⟩⟩

/-- Adding words. -/
theorem adds_eq (ws : List (List Int)) :
    ∀ (s : State) (nodes' : Array (Node Data)),
      forEach (ws.map fun w => (⟨[], w, fun d => { d with count := d.count + 1 }⟩ : Use Int Data)) s.nodes (use (ArrayTrie.ops σ off ⟨0, 0⟩)) = .ok nodes' →
      forEach ws s (add σ off) = .ok { s with nodes := nodes' } := by
  induction ws with
  | nil => intro s nodes' h; cases h; rfl
  | cons w ws ih =>
    intro s nodes' h
    rw [List.map_cons, forEach] at h
    rw [forEach]
    have hu : use (ArrayTrie.ops σ off ⟨0, 0⟩) s.nodes (⟨[], w, fun d => { d with count := d.count + 1 }⟩ : Use Int Data) =
        (ArrayTrie.add σ off ⟨0, 0⟩ s.nodes w 0 >>= fun r => setVal r.1 r.2 fun d => { d with count := d.count + 1 }) := rfl
    rw [hu] at h
    rw [add]
    cases ha : ArrayTrie.add σ off ⟨0, 0⟩ s.nodes w 0 with
    | error e => rw [ha] at h; cases h
    | ok r =>
      rw [ha, ok_bind] at h
      rw [ok_bind]
      cases hb : setVal r.1 r.2 (fun d : Data => { d with count := d.count + 1 }) with
      | error e => rw [hb] at h; cases h
      | ok n =>
        rw [hb, ok_bind] at h
        rw [ok_bind]
        exact ih { s with nodes := n } nodes' h

theorem fold_count (l : List (Use Int Data)) (h : ∀ o ∈ l, o.f = fun d => { d with count := d.count + 1 }) :
    ∀ d : Data, l.foldl (fun a op => op.f a) d = ⟨d.count + l.length, d.failure⟩ := by
  induction l with
  | nil => intro d; rfl
  | cons o l ih =>
    intro d
    rw [List.foldl_cons, ih (fun o ho => h o (by simp [ho])), h o (by simp)]
    simp
    omega

theorem valid_nil (ws : List (List Int)) : ∀ acc, Valid acc (ws.map fun w => (⟨[], w, fun d => { d with count := d.count + 1 }⟩ : Use Int Data)) := by
  induction ws with
  | nil => intro _; trivial
  | cons w ws ih => intro acc; exact ⟨Or.inl rfl, ih _⟩

theorem adds_tot (ws : List (List Int)) (hok : ∀ w ∈ ws, ∀ c ∈ w, okc σ off c) :
    Tot (forEach ws (make σ) (add σ off)) fun s => ∃ lab, (∃ ch, Rep ch lab) ∧ (∀ w ∈ ws, w ∈ lab) ∧ (∀ x c, x ++ [c] ∈ lab → okc σ off c) ∧
      Ok lab ws σ off (fun _ _ => False) [] s.nodes := by
  obtain ⟨nodes, hn, h1, lab, h2, h3, h4, h5⟩ := uses_tot (ArrayTrie.lawful σ off (⟨0, 0⟩ : Data))
    (ws.map fun w => (⟨[], w, fun d => { d with count := d.count + 1 }⟩ : Use Int Data)) (valid_nil ws [])
    (by simpa using hok)
  refine ⟨_, adds_eq ws (make σ) nodes hn, lab, ⟨_, h2⟩, ?_, ?_, h3, fun v y hy => ?_⟩
  · intro w hw
    rw [h4]
    exact Or.inr ⟨_, List.mem_map.2 ⟨w, hw, rfl⟩, by simp⟩
  · intro x c hx
    rcases (h4 _).1 hx with h | ⟨op, hop, hp⟩
    · simp at h
    · obtain ⟨w, hw, rfl⟩ := List.mem_map.1 hop
      exact hok w hw c (hp.subset (by simp))
  · have hv : v < nodes.size := by rw [show nodes.size = lab.length from h3]; exact (List.getElem?_eq_some_iff.1 hy).1
    have hg : nodes[v]? = some nodes[v] := Array.getElem?_eq_getElem hv
    refine ⟨nodes[v], hg, (h1 v _ hg).1, fun i hi => ⟨fun h => h.elim, fun _ => ?_⟩, fun h => by simp at h, fun _ => ?_⟩
    · have hco : okc σ off (off + (i : Int)) := ⟨by omega, by omega⟩
      obtain ⟨e, e1, e2, e3⟩ := entry h1 hv hco
      have hidx : (off + (i : Int) - off).toNat = i := by omega
      rw [hidx] at e1
      by_cases hm : e = -1
      · right
        rw [if_pos hm] at e3
        refine ⟨by rw [e1, hm], fun hin => ?_⟩
        obtain ⟨t, ht⟩ := List.getElem?_of_mem hin
        have h6 : ArrayTrie.ch off nodes v (off + (i : Int)) = some t := (h2.child v _ t).2 ⟨y, hy, ht⟩
        rw [e3] at h6
        cases h6
      · left
        rw [if_neg hm] at e3
        obtain ⟨y', g1, g2⟩ := (h2.child v _ _).1 e3
        rw [hy] at g1
        cases g1
        refine ⟨e.toNat, ?_, g2⟩
        rw [e1]
        congr 1
        omega
    · have h6 : (nodes[v]?.map (·.val)).getD ⟨0, 0⟩ = _ := h5 v y hy
      rw [hg, fold_count] at h6
      · have h7 := congrArg Data.count h6
        simp only [Option.map_some, Option.getD_some, Nat.zero_add] at h7
        rw [h7, List.count, List.countP_eq_length_filter, List.filter_map, List.length_map]
        congr 1
        apply List.filter_congr
        intro w _
        simp [beq_eq_decide]
      · intro o ho
        obtain ⟨w, hw, rfl⟩ := List.mem_map.1 (List.mem_filter.1 ho).1
        rfl

/-- After `build`. -/
structure Post (σ : Nat) (off : Int) (s : State) (ws lab : List (List Int)) : Prop where
  rep : ∃ ch, Rep ch lab
  mem : ∀ w ∈ ws, w ∈ lab
  ok : Ok lab ws σ off (fun _ _ => True) (List.range lab.length) s.nodes
  built : s.built = true

theorem build_tot {s : State} {ch : Nat → Int → Option Nat} (hrep : Rep ch lab) (hws : ∀ w ∈ ws, w ∈ lab) (hlet : ∀ x c, x ++ [c] ∈ lab → okc σ off c)
    (h : Ok lab ws σ off (fun _ _ => False) [] s.nodes) : Tot (build σ s) fun s' => Post σ off s' ws lab := by
  obtain ⟨nd, h1, h2, h3, h4⟩ := h.2 0 [] hrep.root
  have h0 : 0 < s.nodes.size := (Array.getElem?_eq_some_iff.1 h1).1
  rw [build, setVal, rd_some h1, ok_bind, wr_eq h0, ok_bind]
  have hok : Ok lab ws σ off (fun _ _ => False) [0] (s.nodes.setIfInBounds 0 { nd with val := { nd.val with failure := 0 } }) := by
    refine ⟨by simpa using h.1, fun v y hy => ?_⟩
    rw [Array.getElem?_setIfInBounds]
    by_cases hv : 0 = v
    · subst hv
      rw [hrep.root] at hy
      cases hy
      rw [if_pos rfl, if_pos h0]
      refine ⟨_, rfl, h2, h3, fun _ => ⟨fun hn => absurd rfl hn, ?_⟩, fun hn => absurd (by simp) hn⟩
      dsimp only
      rw [h4.2 (by simp), cnt, List.count]
      apply List.countP_congr
      simp
    · rw [if_neg hv]
      obtain ⟨nd', g1, g2, g3, g4⟩ := h.2 v y hy
      refine ⟨nd', g1, g2, g3, fun hin => ?_, fun _ => g4.2 (by simp)⟩
      rw [List.mem_singleton] at hin
      exact absurd hin.symm hv
  have hb := bfs_tot hrep hws hlet hok
  rw [Array.size_setIfInBounds] at hb
  exact Tot.bind hb fun r hr => Tot.pure ⟨⟨ch, hrep⟩, hws, hr, rfl⟩

theorem next_tot {s : State} (h : Post σ off s ws lab) {u : Nat} {w x : List Int} (hu : lab[u]? = some x) (hx : IsLS lab w x) {c : Int} (hc : okc σ off c) :
    Tot (nextState σ off s u c) fun t => ∃ z, lab[t]? = some z ∧ IsLS lab (w ++ [c]) z := by
  obtain ⟨ch, hrep⟩ := h.rep
  obtain ⟨nd, h1, h2, h3, h4⟩ := h.ok.2 u x hu
  have hi : (c - off).toNat < σ := by have := hc.1; have := hc.2; omega
  obtain ⟨t, z, e1, e2, e3⟩ := (h3 _ hi).1 trivial
  have hcc : off + ((c - off).toNat : Int) = c := by have := hc.1; omega
  rw [hcc] at e3
  rw [nextState, h.built, check_true, ok_bind, index_eq hc, ok_bind, child, rd_some h1, ok_bind, rd_some e1, ok_bind, nodeIndex, if_neg (by omega),
    Int.toNat_natCast]
  exact ⟨t, rfl, z, e2, IsLS.snoc (List.mem_of_getElem? hrep.root) hrep.closed hx e3⟩

theorem text_tot {s : State} (h : Post σ off s ws lab) (t : List Int) (ht : ∀ c ∈ t, okc σ off c) :
    Tot (forEach t 0 (nextState σ off s)) fun u => ∃ z, lab[u]? = some z ∧ IsLS lab t z := by
  obtain ⟨ch, hrep⟩ := h.rep
  refine Tot.forEach (P := fun pre u => ∃ z, lab[u]? = some z ∧ IsLS lab pre z) ⟨[], hrep.root, IsLS.of_mem (List.mem_of_getElem? hrep.root)⟩ ?_
  rintro pre c post u he ⟨z, h1, h2⟩
  exact next_tot h h1 h2 (ht c (by simp [he]))

theorem count_eq {s : State} (h : Post σ off s ws lab) {u : Nat} {w x : List Int} (hu : lab[u]? = some x) (hx : IsLS lab w x) :
    countSuffix s u = .ok (cnt ws w) := by
  obtain ⟨nd, h1, h2, h3, h4⟩ := h.ok.2 u x hu
  rw [countSuffix, h.built, check_true, ok_bind, rd_some h1, ok_bind,
    (h4.1 (List.mem_range.2 (List.getElem?_eq_some_iff.1 hu).1)).2, cnt_ls h.mem hx]
  rfl

end

theorem correct (σ : Nat) (off : Int) (ws : List (List Int)) (hok : ∀ w ∈ ws, ∀ c ∈ w, okc σ off c) :
    ∃ s s', forEach ws (make σ) (add σ off) = .ok s ∧ build σ s = .ok s' ∧
      ∀ t, (∀ c ∈ t, okc σ off c) → ∃ u, forEach t 0 (nextState σ off s') = .ok u ∧ countSuffix s' u = .ok (cnt ws t) := by
  obtain ⟨s, hs, lab, ⟨ch, hrep⟩, h1, h2, h3⟩ := adds_tot ws hok
  obtain ⟨s', hs', hq⟩ := build_tot hrep h1 h2 h3
  refine ⟨s, s', hs, hs', fun t ht => ?_⟩
  obtain ⟨u, hu, z, h1, h2⟩ := text_tot hq t ht
  exact ⟨u, hu, count_eq hq h1 h2⟩

end AhoCorasickArray
