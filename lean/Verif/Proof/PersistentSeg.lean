import Verif.Proof.PersistentLazy

/-! # Proofs for `persistent_segment_tree.hpp` -/

namespace PTree

/-- The only map of a class without pending maps does nothing. -/
@[reducible] def unitAct (T : Type) : MulAction Unit T := { smul := fun _ x => x, one_smul := fun _ => rfl, mul_smul := fun _ _ _ => rfl }

theorem segPrm_eq (T : Type) [Monoid T] : segPrm T = letI := unitAct T; prm T Unit := rfl

/-- Elements of a tree with products. -/
def segSem (T : Type) [Monoid T] (lf : Option Nat → Prop) : Sem T Unit T := letI := unitAct T; lazySem T Unit lf

end PTree

namespace PersistentSegmentTree
open Cxx PTree SegTree

variable {T : Type} [Monoid T]

theorem prodRec_lazy (h : Heap T Unit) (ql qr : Int) (f : Unit) : ∀ (k : Nat) (node : Option Nat) (tl tr : Nat),
    prodRec (segPrm T) h ql qr k node tl tr = PersistentLazySegmentTree.prodRec (segPrm T) h ql qr k node tl tr f := by
  intro k
  induction k with
  | zero => intros; rfl
  | succ k ih =>
    intro node tl tr
    unfold prodRec PersistentLazySegmentTree.prodRec
    simp only [ih]
    rfl

theorem maxRightRec_lazy (h : Heap T Unit) (l : Nat) (g : T → Bool) (f : Unit) : ∀ (k : Nat) (node : Option Nat) (tl tr : Nat) (sum : T),
    maxRightRec (segPrm T) h l g k node tl tr sum = PersistentLazySegmentTree.maxRightRec (segPrm T) h l g k node tl tr sum f := by
  intro k
  induction k with
  | zero => intros; rfl
  | succ k ih =>
    intro node tl tr sum
    unfold maxRightRec PersistentLazySegmentTree.maxRightRec
    simp only [ih]
    rfl

theorem minLeftRec_lazy (h : Heap T Unit) (r : Nat) (g : T → Bool) (f : Unit) : ∀ (k : Nat) (node : Option Nat) (tl tr : Nat) (sum : T),
    minLeftRec (segPrm T) h r g k node tl tr sum = PersistentLazySegmentTree.minLeftRec (segPrm T) h r g k node tl tr sum f := by
  intro k
  induction k with
  | zero => intros; rfl
  | succ k ih =>
    intro node tl tr sum
    unfold minLeftRec PersistentLazySegmentTree.minLeftRec
    simp only [ih]
    rfl

theorem get_lazy (h : Heap T Unit) (o : Obj) (i : Int) : get h o i = PersistentLazySegmentTree.get (segPrm T) h o i := by
  have key : ∀ (k : Nat) (s : Option Nat × Nat × Nat) (f : Unit), (loop (getStep h i.toNat) k s >>= fun s => load h s.1) =
      (loop (PersistentLazySegmentTree.getStep (segPrm T) h i.toNat) k (s.1, s.2.1, s.2.2, f) >>= fun s => load h s.1) := by
    intro k
    induction k with
    | zero =>
      rintro ⟨c, l, r⟩ f
      unfold loop getStep PersistentLazySegmentTree.getStep
      dsimp only
      by_cases c1 : r - l > 1
      · rw [if_pos c1, if_pos c1]
        cases load h c with
        | error e => rfl
        | ok x =>
          simp only [ok_bind]
          split <;> rfl
      · rw [if_neg c1, if_neg c1]
        rfl
    | succ k ih =>
      rintro ⟨c, l, r⟩ f
      unfold loop
      unfold getStep PersistentLazySegmentTree.getStep
      dsimp only
      by_cases c1 : r - l > 1
      · rw [if_pos c1, if_pos c1]
        cases load h c with
        | error e => rfl
        | ok x =>
          simp only [ok_bind]
          split
          · exact ih _ _
          · exact ih _ _
      · rw [if_neg c1, if_neg c1]
        rfl
  unfold get PersistentLazySegmentTree.get
  have := key o.n (o.root, 0, o.n) (segPrm T).id
  congr 1
  funext _
  have e := congrArg (fun m => m >>= fun x => (Except.ok x.dat : M T)) this
  simp only [bind_assoc] at e
  exact e

/-- The loop of `search_node<true>` from a new node on, with the updates of the nodes on the way back. -/
theorem walk_eq {lf : Option Nat → Prop} (g : T → T) (i : Nat) :
    ∀ (k : Nat) (h : Heap T Unit) (S : Nat → Prop) (cur : Nat) (t : PT T Unit) (v : Nat → T) (l r : Nat) (path : List Nat), r - l ≤ k → ¬ S cur → cur < h.top → Shallow h S cur t → (∀ i, S i → i < h.top) →
      Ok (segSem T lf) t v l r → l ≤ i → i < r → h.top + Nat.clog 2 (r - l) ≤ h.nodes.size →
      ∃ h' t', (loop (walkStep i) k ⟨h, cur, l, r, path⟩ >>= finish (segPrm T) g) = forEach path h' (fun h p => update (segPrm T) h p) ∧
        Fr (fun j => j = cur ∨ (h.top ≤ j ∧ j < h'.top)) h h' ∧ h'.top ≤ h.top + Nat.clog 2 (r - l) ∧
        Shallow h' (fun j => S j ∨ (h.top ≤ j ∧ j < h'.top)) cur t' ∧ Ok (segSem T lf) t' (Function.update v i (g (v i))) l r := by
  letI := unitAct T
  intro k
  induction k with
  | zero =>
    intro h S cur t v l r path hk _ _ _ _ ho
    have := ho.lt
    omega
  | succ k ih =>
    intro h S cur t v l r path hk hcur hct hs hS ho hil hir hc
    cases t with
    | leaf c0 c1 d f =>
      obtain ⟨rfl, h2, h3⟩ := ho
      obtain rfl : i = l := by omega
      have hs : h.nodes[cur]? = some ⟨c0, c1, d, f⟩ := hs
      rw [loop_none (s := (⟨h, cur, i, i + 1, path⟩ : Walk T)) (by unfold walkStep; rw [if_neg (by dsimp only; omega)]; rfl), ok_bind]
      unfold finish
      dsimp only
      rw [load_eq hs, ok_bind]
      obtain ⟨h', e', p'⟩ := setDat_tot hs (g d)
      rw [e', ok_bind]
      have t' := p'.top
      refine ⟨h', .leaf c0 c1 (g d) f, rfl, p'.fr.weaken (fun _ h => Or.inl h), by omega, p'.self, rfl, h2, ?_⟩
      rw [Function.update_self, h3]
      rfl
    | node d f a b =>
      obtain ⟨o1, o2, w, ow, oa, ob⟩ := ho
      have ow : ∀ j, l ≤ j → j < r → v j = w j := ow
      have hl := clog_left o1
      have hr := clog_right o1
      obtain ⟨pa, pb, e, ⟨ha, sa⟩, hb, sb⟩ := hs
      obtain ⟨m, hm⟩ : ∃ m, m = (l + r) / 2 := ⟨_, rfl⟩
      rw [← hm] at oa ob hl hr
      have hS' : ∀ j, S j → j ≠ cur := fun j hj c => hcur (c ▸ hj)
      have oa := Ok.congr (lazySem_congr lf) (v' := v) (fun j h1 h2 => (ow j h1 (by omega)).symm) oa
      have ob := Ok.congr (lazySem_congr lf) (v' := v) (fun j h1 h2 => (ow j (by omega) h2).symm) ob
      by_cases c : i < m
      · obtain ⟨x, hx, -, -⟩ := sa.nd
        obtain ⟨⟨h0, q⟩, e0, n0⟩ := clone_tot hx (by omega)
        have q0 := n0.addr
        have f0 := n0.fr
        have t0 := n0.top
        have s0 := n0.self
        dsimp only at q0 f0 t0 s0
        subst q0
        obtain ⟨h1, e1, p1⟩ := setC0_tot ((f0.same cur (by omega)).trans e) (some h.top)
        dsimp only at p1
        have t1 := p1.top
        have z1 := p1.size
        have z0 := f0.size
        have hsame : ∀ j, S j → h1.nodes[j]? = h.nodes[j]? := fun j hj => by
          have := hS j hj
          rw [p1.other _ (hS' j hj), f0.same _ (by omega)]
        have estep : walkStep i ⟨h, cur, l, r, path⟩ = .ok (some ⟨h1, h.top, l, m, cur :: path⟩) := by
          unfold walkStep
          dsimp only
          rw [if_pos (by omega), load_eq e, ok_bind, ← hm, if_pos c]
          dsimp only
          rw [e0, ok_bind]
          dsimp only
          rw [e1, ok_bind]
          rfl
        have sa1 : Shallow h1 S h.top a := by
          have hq : h1.nodes[h.top]? = some x := (p1.other _ (by omega)).trans s0
          cases a with
          | leaf c0 c1 d' g' =>
            have e' : h.nodes[pa]? = some ⟨c0, c1, d', g'⟩ := sa
            rw [hx] at e'
            cases e'
            exact hq
          | node d' g' a1 a2 =>
            obtain ⟨pa', pb', e', ⟨ha', sa'⟩, hb', sb'⟩ := sa
            rw [hx] at e'
            cases e'
            exact ⟨pa', pb', hq, ⟨ha', sa'.mono (fun _ h => h) hsame (hsame _ ha')⟩, hb', sb'.mono (fun _ h => h) hsame (hsame _ hb')⟩
        have sb1 : Shallow h1 S pb b := sb.mono (fun _ h => h) hsame (hsame _ hb)
        rw [loop_some estep]
        obtain ⟨h2, t2, e2, f2, b2, s2, ok2⟩ := ih h1 S h.top _ _ l m (cur :: path) (by omega) (fun hj => by have := hS _ hj; omega) (by omega) sa1 (fun j hj => by have := hS j hj; omega) oa hil c (by omega)
        have g2 := f2.top
        have s1' := (f2.same cur (by omega)).trans p1.self
        obtain ⟨na, hna, da, -⟩ := s2.nd
        have hbt := hS _ hb
        have sb2 : Shallow h2 S pb b := by
          refine sb1.mono (fun _ h => h) (fun j hj => ?_) ?_
          · have := hS j hj
            rw [f2.same _ (by omega)]
          · rw [f2.same _ (by omega)]
        obtain ⟨nb, hnb, db, -⟩ := sb2.nd
        obtain ⟨h3, e3, p3⟩ := update_tot (P := segPrm T) s1' hna hnb
        have t3 := p3.top
        have okb := Ok.congr (lazySem_congr lf) (v' := Function.update v i (g (v i))) (fun j h1 h2 => by rw [Function.update_of_ne (by omega)]) ob
        refine ⟨h3, .node (na.dat * nb.dat) f t2 b, ?_, (((f0.trans p1.fr).trans f2).trans p3.fr).weaken (fun j hj => by omega), by omega, ⟨h.top, pb, p3.self, ⟨Or.inr (by omega), ?_⟩, Or.inl hb, ?_⟩, o1, ?_, _, fun _ _ _ => rfl, ?_, ?_⟩
        · rw [e2]
          show (update (segPrm T) h2 cur >>= fun h => forEach path h _) = _
          rw [e3, ok_bind]
        · refine s2.mono (fun j hj => ?_) (fun j hj => ?_) ?_
          · rcases hj with hj | hj
            · exact Or.inl hj
            · right; omega
          · refine p3.other _ ?_
            rcases hj with hj | hj
            · exact hS' j hj
            · omega
          · exact p3.other _ (by omega)
        · refine sb2.mono (fun j hj => Or.inl hj) (fun j hj => p3.other _ (hS' j hj)) (p3.other _ (hS' _ hb))
        · show na.dat * nb.dat = P _ l r
          rw [P_append _ (show l ≤ m by omega) (show m ≤ r by omega), da, db, Ok.dat ok2, Ok.dat okb]
        · rw [← hm]
          exact ok2
        · rw [← hm]
          exact okb
      · obtain ⟨x, hx, -, -⟩ := sb.nd
        obtain ⟨⟨h0, q⟩, e0, n0⟩ := clone_tot hx (by omega)
        have q0 := n0.addr
        have f0 := n0.fr
        have t0 := n0.top
        have s0 := n0.self
        dsimp only at q0 f0 t0 s0
        subst q0
        obtain ⟨h1, e1, p1⟩ := setC1_tot ((f0.same cur (by omega)).trans e) (some h.top)
        dsimp only at p1
        have t1 := p1.top
        have z1 := p1.size
        have z0 := f0.size
        have hsame : ∀ j, S j → h1.nodes[j]? = h.nodes[j]? := fun j hj => by
          have := hS j hj
          rw [p1.other _ (hS' j hj), f0.same _ (by omega)]
        have estep : walkStep i ⟨h, cur, l, r, path⟩ = .ok (some ⟨h1, h.top, m, r, cur :: path⟩) := by
          unfold walkStep
          dsimp only
          rw [if_pos (by omega), load_eq e, ok_bind, ← hm, if_neg c]
          dsimp only
          rw [e0, ok_bind]
          dsimp only
          rw [e1, ok_bind]
          rfl
        have sb1 : Shallow h1 S h.top b := by
          have hq : h1.nodes[h.top]? = some x := (p1.other _ (by omega)).trans s0
          cases b with
          | leaf c0 c1 d' g' =>
            have e' : h.nodes[pb]? = some ⟨c0, c1, d', g'⟩ := sb
            rw [hx] at e'
            cases e'
            exact hq
          | node d' g' a1 a2 =>
            obtain ⟨pa', pb', e', ⟨ha', sa'⟩, hb', sb'⟩ := sb
            rw [hx] at e'
            cases e'
            exact ⟨pa', pb', hq, ⟨ha', sa'.mono (fun _ h => h) hsame (hsame _ ha')⟩, hb', sb'.mono (fun _ h => h) hsame (hsame _ hb')⟩
        have sa1 : Shallow h1 S pa a := sa.mono (fun _ h => h) hsame (hsame _ ha)
        rw [loop_some estep]
        obtain ⟨h2, t2, e2, f2, b2, s2, ok2⟩ := ih h1 S h.top _ _ m r (cur :: path) (by omega) (fun hj => by have := hS _ hj; omega) (by omega) sb1 (fun j hj => by have := hS j hj; omega) ob (by omega) hir (by omega)
        have g2 := f2.top
        have s1' := (f2.same cur (by omega)).trans p1.self
        obtain ⟨nb, hnb, db, -⟩ := s2.nd
        have hat := hS _ ha
        have sa2 : Shallow h2 S pa a := by
          refine sa1.mono (fun _ h => h) (fun j hj => ?_) ?_
          · have := hS j hj
            rw [f2.same _ (by omega)]
          · rw [f2.same _ (by omega)]
        obtain ⟨na, hna, da, -⟩ := sa2.nd
        obtain ⟨h3, e3, p3⟩ := update_tot (P := segPrm T) s1' hna hnb
        have t3 := p3.top
        have oka := Ok.congr (lazySem_congr lf) (v' := Function.update v i (g (v i))) (fun j h1 h2 => by rw [Function.update_of_ne (by omega)]) oa
        refine ⟨h3, .node (na.dat * nb.dat) f a t2, ?_, (((f0.trans p1.fr).trans f2).trans p3.fr).weaken (fun j hj => by omega), by omega, ⟨pa, h.top, p3.self, ⟨Or.inl ha, ?_⟩, Or.inr (by omega), ?_⟩, o1, ?_, _, fun _ _ _ => rfl, ?_, ?_⟩
        · rw [e2]
          show (update (segPrm T) h2 cur >>= fun h => forEach path h _) = _
          rw [e3, ok_bind]
        · refine sa2.mono (fun j hj => Or.inl hj) (fun j hj => p3.other _ (hS' j hj)) (p3.other _ (hS' _ ha))
        · refine s2.mono (fun j hj => ?_) (fun j hj => ?_) ?_
          · rcases hj with hj | hj
            · exact Or.inl hj
            · right; omega
          · refine p3.other _ ?_
            rcases hj with hj | hj
            · exact hS' j hj
            · omega
          · exact p3.other _ (by omega)
        · show na.dat * nb.dat = P _ l r
          rw [P_append _ (show l ≤ m by omega) (show m ≤ r by omega), da, db, Ok.dat oka, Ok.dat ok2]
        · rw [← hm]
          exact oka
        · rw [← hm]
          exact ok2

theorem dumpRec_eq {h : Heap T Unit} {S : Nat → Prop} {t : PT T Unit} :
    ∀ {k p : Nat} {v : Nat → T} {l r : Nat}, r - l ≤ k → Shallow h S p t → Ok (segSem T (· = none)) t v l r → dumpRec h k (some p) = .ok ((List.range' l (r - l)).map v) := by
  induction t with
  | leaf c0 c1 d f =>
    intro k p v l r hk hs ho
    obtain ⟨k, rfl⟩ : ∃ k', k = k' + 1 := ⟨k - 1, by have := ho.lt; omega⟩
    have hs : h.nodes[p]? = some ⟨c0, c1, d, f⟩ := hs
    obtain ⟨rfl, h2, h3⟩ := ho
    have h2 : c0 = none := h2
    have h3 : v l = d := h3
    unfold dumpRec
    rw [load_eq hs, ok_bind, if_pos h2, Nat.add_sub_cancel_left, List.range'_one, List.map_singleton, h3]
    rfl
  | node d f a b iha ihb =>
    intro k p v l r hk hs ho
    obtain ⟨k, rfl⟩ : ∃ k', k = k' + 1 := ⟨k - 1, by have := ho.lt; omega⟩
    obtain ⟨pa, pb, e, ⟨ha, sa⟩, hb, sb⟩ := hs
    obtain ⟨o1, o2, w, ow, oa, ob⟩ := ho
    have ow : ∀ j, l ≤ j → j < r → v j = w j := ow
    obtain ⟨m, hm⟩ : ∃ m, m = (l + r) / 2 := ⟨_, rfl⟩
    rw [← hm] at oa ob
    unfold dumpRec
    rw [load_eq e, ok_bind, if_neg (by simp)]
    dsimp only
    rw [iha (by omega) sa oa, ok_bind, ihb (by omega) sb ob, ok_bind]
    show Except.ok _ = _
    congr 1
    rw [← List.map_append]
    have := List.range'_append (s := l) (m := m - l) (n := r - m) (step := 1)
    rw [show l + 1 * (m - l) = m by omega, show m - l + (r - m) = r - l by omega] at this
    rw [this]
    apply List.map_congr_left
    intro j hj
    rw [List.mem_range'_1] at hj
    exact (ow j (by omega) (by omega)).symm

end PersistentSegmentTree
