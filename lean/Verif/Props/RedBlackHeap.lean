import Verif.Spec.RedBlackHeap
import Verif.Proof.RedBlackHeap

/-!
# Properties of the persistent red-black trees

C84: an operation does not change the sequences of the versions obtained before it.
-/

namespace RedBlackHeapProps
open Cxx RedBlackHeap

variable {T : Type}

theorem ver_in {L : Nat → Prop} {vs : List (Option Nat)} (h : ∀ t ∈ vs, In L t) (i : Nat) : In L (ver vs i) := by
  rw [ver, List.getD_eq_getElem?_getD]
  cases hi : vs[i]? with
  | none => exact In.none
  | some t => exact h t (List.mem_of_getElem? hi)

theorem add_in {L L' : Nat → Prop} {vs ws : List (Option Nat)} (h : ∀ t ∈ vs, In L t) (hl : ∀ p, L p → L' p) (hw : ∀ t ∈ ws, In L' t) : ∀ t ∈ vs ++ ws, In L' t := by
  intro t ht
  rcases List.mem_append.1 ht with ht | ht
  · exact (h t ht).mono hl
  · exact hw t ht

theorem step_keeps (C : Cls T) (hc : C.clones = true) (fuel : Nat) {L0 L : Nat → Prop} {s0 : Pool T} (vs : List (Option Nat)) (hsub : ∀ q, L0 q → L q) (hv : ∀ t ∈ vs, In L t) (c : Call T) :
    Keeps L0 s0 L (step C fuel vs c) (fun L' ws => (∀ t ∈ ws, In L' t) ∧ ∃ xs, ws = vs ++ xs) := by
  have hi := ver_in hv
  cases c with
  | leaf v => exact (createLeaf_keeps v).bind fun L1 t l1 ht => Keeps.pure ⟨add_in hv l1 (by simpa using ht.1), _, rfl⟩
  | merge l r => exact (mergeF_keeps C hc fuel L true _ _ hsub (hi l) (hi r)).bind fun L1 t l1 ht => Keeps.pure ⟨add_in hv l1 (by simpa using ht), _, rfl⟩
  | split t k => exact (splitF_keeps C hc fuel L _ k hsub (hi t)).bind fun L1 a l1 ha => Keeps.pure ⟨add_in hv l1 (by simpa using ha), _, rfl⟩
  | splitRange t l r => exact (splitRange_keeps C hc fuel _ l r hsub (hi t)).bind fun L1 a l1 ha => Keeps.pure ⟨add_in hv l1 (by simpa using ha), _, rfl⟩
  | insert t k v => exact (insert_keeps C hc fuel _ k v hsub (hi t)).bind fun L1 a l1 ha => Keeps.pure ⟨add_in hv l1 (by simpa using ha), _, rfl⟩
  | get t k => exact (get_keeps C hc fuel _ k hsub (hi t)).bind fun L1 a l1 ha => Keeps.pure ⟨add_in hv l1 (by simpa using ha), _, rfl⟩
  | prod t l r => exact (prod_keeps C hc fuel _ l r hsub (hi t)).bind fun L1 a l1 ha => Keeps.pure ⟨add_in hv l1 (by simpa using ha), _, rfl⟩
  | swap t1 l1 r1 t2 l2 r2 => exact (swap_keeps C hc fuel _ _ _ _ _ _ hsub (hi t1) (hi t2)).bind fun L1 a l1 ha => Keeps.pure ⟨add_in hv l1 (by simpa using ha), _, rfl⟩
  | cut t l r => exact (cut_keeps C hc fuel _ l r hsub (hi t)).bind fun L1 a l1 ha => Keeps.pure ⟨add_in hv l1 (by simpa using ha), _, rfl⟩
  | replace a b l r => exact (replace_keeps C hc fuel _ _ l r hsub (hi a) (hi b)).bind fun L1 a l1 ha => Keeps.pure ⟨add_in hv l1 (by simpa using ha), _, rfl⟩

theorem run_keeps (C : Cls T) (hc : C.clones = true) (fuel : Nat) (cs : List (Call T)) : ∀ {L0 L : Nat → Prop} {s0 : Pool T} (vs : List (Option Nat)), (∀ q, L0 q → L q) → (∀ t ∈ vs, In L t) →
    Keeps L0 s0 L (run C fuel cs vs) (fun L' ws => (∀ t ∈ ws, In L' t) ∧ ∃ xs, ws = vs ++ xs) := by
  induction cs with
  | nil => intro L0 L s0 vs _ hv; exact Keeps.pure ⟨hv, [], by simp⟩
  | cons c cs ih =>
    intro L0 L s0 vs hsub hv
    refine (step_keeps C hc fuel vs hsub hv c).bind fun L1 ws l1 ⟨hw, xs, hx⟩ => ?_
    refine (ih ws (fun q hq => l1 _ (hsub q hq)) hw).mono fun L2 us l2 ⟨hu, ys, hy⟩ => ⟨hu, xs ++ ys, ?_⟩
    rw [hy, hx, List.append_assoc]

theorem initPool_free (C : Cls T) (n : Nat) : Free (fun _ => False) (initPool C n) := by
  refine ⟨fun _ _ _ _ => id, fun j k p _ hjk hj hk => ?_⟩
  have hj : (Array.ofFn (n := n) fun i => i.val)[j]? = some p := hj
  have hk : (Array.ofFn (n := n) fun i => i.val)[k]? = some p := hk
  rw [Array.getElem?_ofFn] at hj hk
  split at hj
  · split at hk
    · simp only [Option.some.injEq] at hj hk; omega
    · exact nomatch hk
  · exact nomatch hj

/-- C84 (the class whose `push` clones — the lazy segment tree): split a history anywhere; what `dump` writes for any version of the first part is the same at the end of the second part.
Missing: `erase` and `update_value`, for which it is false (`persistent_update_value_writes`, `persistent_erase_frees`); range updates are not modelled; the classes without a cloning `push`, for which it is false (`persistent_plain_push_back`, `persistent_plain_split`). -/
theorem persistent_versions_partial (C : Cls T) (hc : C.clones = true) (n fuel : Nat) (cs ds : List (Call T)) (vs ws : List (Option Nat)) (s1 s2 : Pool T)
    (h1 : run C fuel cs [] (initPool C n) = .ok (vs, s1)) (h2 : run C fuel ds vs s1 = .ok (ws, s2)) (t : Option Nat) (ht : t ∈ vs) (f : Nat) (xs : List T) (u : Pool T)
    (hd : dump f t s1 = .ok (xs, u)) : t ∈ ws ∧ dump f t s2 = .ok (xs, s2) := by
  obtain ⟨L, _, g, hv, _⟩ := run_keeps C hc fuel cs (L0 := fun _ => False) (L := fun _ => False) (s0 := initPool C n) [] (fun _ h => h) (by simp) (initPool C n)
    ⟨fun _ h => h, fun _ _ h => h.elim, initPool_free C n, Same.refl _ _⟩ vs s1 h1
  obtain ⟨L', _, g', hv', xs', hx⟩ := run_keeps C hc fuel ds (L0 := L) (L := L) (s0 := s1) vs (fun _ h => h) hv s1 ⟨fun _ h => h, g.closed, g.free, Same.refl _ _⟩ ws s2 h2
  exact ⟨by rw [hx]; exact List.mem_append_left _ ht, dump_same f L s1 s2 t xs u g.closed g'.same (hv t ht) hd⟩

/-- The plain persistent tree of numbers: `push` does not clone. -/
def plainC : Cls Nat := ⟨false, false, fun x _ => x, 0, 0⟩

/-- The persistent lazy segment tree with sums: `push` clones. -/
def lazyC : Cls Nat := ⟨true, true, (· + ·), 0, 0⟩

/-- The result of a computation that starts with an empty pool of 30 nodes. -/
def result (C : Cls Nat) {α : Type} (m : H Nat α) : M α := (m (initPool C 30)).map Prod.fst

/-- A history whose versions are shared: two leaves, merged; split; inserted into; and merged with itself. -/
example : result lazyC (do
    let vs ← run lazyC 10 [.leaf 1, .leaf 2, .merge 0 1, .split 2 1, .insert 2 1 7, .merge 5 2] []
    let a ← dump 10 (ver vs 2)
    let b ← dump 10 (ver vs 5)
    let c ← dump 10 (ver vs 6)
    return (a, b, c)) = .ok ([1, 2], [1, 7, 2], [1, 7, 2, 1, 2]) := by decide +kernel

/-- C84 fails in the plain persistent tree (and in the persistent segment tree, which has the same `push`): `push_back` on `[1, 2]` appends to the version itself. -/
theorem persistent_plain_push_back : result plainC (do
    let vs ← run plainC 10 [.leaf 1, .leaf 2, .merge 0 1] []
    let a ← dump 10 (ver vs 2)
    let _ ← pushBack plainC 10 (ver vs 2) 3
    let b ← dump 10 (ver vs 2)
    return (a, b)) = .ok ([1, 2], [1, 2, 3]) := by decide +kernel

/-- C84 fails in the plain persistent tree: `split` destroys the version. -/
theorem persistent_plain_split : result plainC (do
    let vs ← run plainC 10 [.leaf 1, .leaf 2, .merge 0 1] []
    let a ← dump 10 (ver vs 2)
    let _ ← splitF plainC 10 (ver vs 2) 1
    let b ← dump 10 (ver vs 2)
    return (a, b)) = .ok ([1, 2], [0]) := by decide +kernel

/-- C84 fails for `update_value` in the lazy class: the leaf that it writes is shared. -/
theorem persistent_update_value_writes : result lazyC (do
    let vs ← run lazyC 10 [.leaf 1, .leaf 2, .merge 0 1] []
    let a ← dump 10 (ver vs 2)
    let r ← updateValue lazyC 10 (ver vs 2) 1 (fun _ => 9)
    let b ← dump 10 (ver vs 2)
    let c ← dump 10 r
    return (a, b, c)) = .ok ([1, 2], [1, 9], [1, 9]) := by decide +kernel

/-- C84 fails for `erase` in the lazy class: the erased leaf is shared, and its memory is given to the next new node. -/
theorem persistent_erase_frees : result lazyC (do
    let vs ← run lazyC 10 [.leaf 1, .leaf 2, .merge 0 1] []
    let a ← dump 10 (ver vs 2)
    let _ ← erase lazyC 10 (ver vs 2) 1
    let _ ← createLeaf 5
    let b ← dump 10 (ver vs 2)
    return (a, b)) = .ok ([1, 2], [1, 5]) := by decide +kernel

end RedBlackHeapProps
