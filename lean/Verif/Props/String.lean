import Verif.Proof.MorrisPratt
import Verif.Proof.Manacher
import Verif.Proof.AhoCorasickArray

/-!
# C42–C44, C70, C71: Morris-Pratt, Manacher, tries, Aho-Corasick
-/

namespace StringProps
open Cxx

/-! ## C42 -/

section MP
variable {α : Type} [DecidableEq α]

/-- The prefix of length `k` is a proper border of the prefix of length `j`. -/
def Border (s : Array α) (j k : Nat) : Prop := k < j ∧ ∀ q < k, s[q]? = s[j - k + q]?

/-- The pattern `s` occurs in `t` at position `p`. -/
def Occurs (s t : Array α) (p : Nat) : Prop := p + s.size ≤ t.size ∧ ∀ q < s.size, t[p + q]? = s[q]?

instance (s t : Array α) (p : Nat) : Decidable (Occurs s t p) := by unfold Occurs; infer_instance

/-- `p` is a period of `s`. -/
def IsPeriod (s : Array α) (p : Nat) : Prop := 1 ≤ p ∧ p ≤ s.size ∧ ∀ i, i + p < s.size → s[i]? = s[i + p]?

/-- C42: the table has `-1` at 0 and the length of the longest proper border of each prefix elsewhere. -/
theorem mp_table (s : Array α) : ∃ mp, MorrisPratt.table s = .ok mp ∧ mp.size = s.size + 1 ∧ mp[0]? = some (-1) ∧
    ∀ j, 1 ≤ j → j ≤ s.size → ∃ k : Nat, mp[j]? = some (k : Int) ∧ IsGreatest {k | Border s j k} k := by
  obtain ⟨mp, h1, h2, h3, h4⟩ := MorrisPratt.table_tot s
  refine ⟨mp, h1, h2, h3, fun j hj1 hj2 => ?_⟩
  obtain ⟨k, g1, g2, g3, g4⟩ := h4 j hj1 hj2
  exact ⟨k, g1, ⟨g2, g3.2⟩, fun k' hk' => g4 k' hk'.1 ⟨Nat.le_of_lt hk'.1, hk'.2⟩⟩

example : MorrisPratt.table #[1, 2, 1, 2, 3] = .ok #[-1, 0, 0, 1, 2, 0] := by decide +kernel

/-- C42: for a nonempty `std::string` pattern and a text without the terminating character, the matcher returns the start positions of all
occurrences in increasing order. -/
theorem mp_matcher_string (z : α) (s t : Array α) (hs : 1 ≤ s.size) (hz : z ∉ t) :
    ∃ res, MorrisPratt.matchAll (some z) s t = .ok res ∧
      res.toList = ((List.range (t.size + 1)).filter fun p => decide (Occurs s t p)).map fun (p : Nat) => (p : Int) := by
  obtain ⟨res, h1, h2⟩ := MorrisPratt.match_tot (some z) s t hs fun i hi _ _ => ⟨z, rfl, fun h => hz (Array.mem_of_getElem? h)⟩
  refine ⟨res, h1, ?_⟩
  rw [h2]
  congr 1
  have hsplit : List.range (t.size + 1) = List.range (t.size + 1 - s.size) ++ (List.range' (t.size + 1 - s.size) (t.size + 1 - (t.size + 1 - s.size))) := by
    have := List.range'_append_1 (s := 0) (m := t.size + 1 - s.size) (n := t.size + 1 - (t.size + 1 - s.size))
    rw [Nat.zero_add, Nat.add_sub_cancel' (by omega)] at this
    rw [List.range_eq_range', List.range_eq_range', this]
  rw [hsplit, List.filter_append]
  have hnil : (List.range' (t.size + 1 - s.size) (t.size + 1 - (t.size + 1 - s.size))).filter (fun p => decide (Occurs s t p)) = [] := by
    rw [List.filter_eq_nil_iff]
    intro p hp ho
    rw [List.mem_range'_1] at hp
    have : Occurs s t p := by simpa using ho
    have := this.1
    omega
  rw [hnil, List.append_nil]
  apply List.filter_congr
  intro p _
  rfl

example : MorrisPratt.matchAll (some 0) #[1, 2, 1] #[1, 2, 1, 2, 1] = .ok #[0, 2] := by decide +kernel

/-- The same for a `std::vector` pattern when the pattern does not occur in the text before its end. Missing: texts with an occurrence followed by
another element, for which the code reads outside the vector. -/
theorem mp_matcher_vector_partial (s t : Array α) (hs : 1 ≤ s.size) (h : ∀ p, p + s.size < t.size → ¬ Occurs s t p) :
    ∃ res, MorrisPratt.matchAll none s t = .ok res ∧
      ∀ x : Int, x ∈ res.toList ↔ ∃ p : Nat, x = p ∧ Occurs s t p := by
  obtain ⟨res, h1, h2⟩ := MorrisPratt.match_tot none s t hs fun i hi ho hle => absurd ho (h (i - s.size) (by omega))
  refine ⟨res, h1, fun x => ?_⟩
  rw [h2, List.mem_map]
  constructor
  · rintro ⟨p, hp, rfl⟩
    exact ⟨p, rfl, of_decide_eq_true (List.mem_filter.1 hp).2⟩
  · rintro ⟨p, rfl, hp⟩
    exact ⟨p, List.mem_filter.2 ⟨List.mem_range.2 (by have := hp.1; omega), decide_eq_true (show MorrisPratt.occ s t p from hp)⟩, rfl⟩

example : MorrisPratt.matchAll none #[1, 2] #[1, 1, 2] = .ok #[1] := by decide +kernel

/-- Finding: with a `std::vector` pattern, an occurrence that is followed by another element makes the matcher read past the end of the pattern. -/
theorem mp_matcher_vector_finding : MorrisPratt.matchAll none #[1] #[1, 1] = .error .ub := by decide +kernel

/-- Finding: a text that contains the terminating character after an occurrence leads to a read past the terminator. -/
theorem mp_matcher_nul_finding : MorrisPratt.matchAll (some 0) #[1] #[1, 0, 1] = .error .ub := by decide +kernel

/-- Finding: the empty pattern is reported at `1, …, m`, and not at all in an empty text, instead of at `0, …, m` (here the text has no terminator). -/
theorem mp_matcher_empty_finding : MorrisPratt.matchAll (some 0) #[] #[1, 1] = .ok #[1, 2] ∧ MorrisPratt.matchAll (some 0) #[] #[] = .ok #[] := by
  decide +kernel

/-- C42: `all_periods` returns exactly the periods (or those dividing the length), in increasing order. -/
theorem mp_all_periods (s : Array α) (acc : Bool) :
    ∃ res, MorrisPratt.allPeriods s acc = .ok res ∧ res.toList.Pairwise (· < ·) ∧
      ∀ x : Int, x ∈ res.toList ↔ ∃ p : Nat, x = p ∧ IsPeriod s p ∧ (acc = true ∨ s.size % p = 0) := by
  obtain ⟨res, h1, l, h2, h3, h4⟩ := MorrisPratt.allPeriods_tot s acc
  refine ⟨res, h1, ?_, fun x => ?_⟩
  · rw [h2, List.pairwise_map]
    exact h3.imp fun h => by omega
  · rw [h2, List.mem_map]
    constructor
    · rintro ⟨p, hp, rfl⟩
      exact ⟨p, rfl, (h4 p).1 hp⟩
    · rintro ⟨p, rfl, hp⟩
      exact ⟨p, (h4 p).2 hp, rfl⟩

example : MorrisPratt.allPeriods #[1, 2, 1, 2, 1] true = .ok #[2, 4, 5] := by decide +kernel

/-- C42: `min_period` of a nonempty sequence is its prefix of the length of the least period (dividing the length). -/
theorem mp_min_period (s : Array α) (acc : Bool) (hs : 1 ≤ s.size) :
    ∃ p, IsLeast {p | IsPeriod s p ∧ (acc = true ∨ s.size % p = 0)} p ∧ MorrisPratt.minPeriod s acc = .ok (s.extract 0 p) := by
  obtain ⟨res, h1, l, h2, h3, h4⟩ := MorrisPratt.allPeriods_tot s acc
  have hmem : s.size ∈ l := (h4 s.size).2 ⟨⟨hs, Nat.le_refl _, fun i hi => by omega⟩, Or.inr (Nat.mod_self _)⟩
  cases l with
  | nil => simp at hmem
  | cons p l =>
    obtain ⟨hp1, hp2⟩ := (h4 p).1 (by simp)
    refine ⟨p, ⟨⟨hp1, hp2⟩, fun p' hp' => ?_⟩, ?_⟩
    · rcases List.mem_cons.1 ((h4 p').2 hp') with rfl | hq
      · exact Nat.le_refl _
      · exact Nat.le_of_lt ((List.pairwise_cons.1 h3).1 p' hq)
    · have h0 : res[0]? = some (p : Int) := by rw [← Array.getElem?_toList, h2]; rfl
      rw [MorrisPratt.minPeriod, h1, ok_bind, rd_some h0, ok_bind, Int.toNat_natCast]
      have ht : Tot (forUp 0 p (#[] : Array α) fun i r => do let c ← rd s i; return r.push c) fun r => r = s.extract 0 p := by
        refine (Tot.forUp (P := fun i (r : Array α) => r = s.extract 0 i) (Nat.zero_le _) (by simp) ?_)
        rintro i r - hi rfl
        have hil : i < s.size := by have := hp1.2.1; omega
        rw [rd_eq hil, ok_bind]
        refine Tot.pure ?_
        rw [Array.push_extract_getElem]
        simp
      exact tot_eq.1 ht

example : MorrisPratt.minPeriod #[1, 2, 1, 2, 1] true = .ok #[1, 2] ∧ MorrisPratt.minPeriod #[1, 2, 1, 2, 1] false = .ok #[1, 2, 1, 2, 1] := by
  decide +kernel

end MP

/-! ## C43 -/

section Man
variable {α : Type} [DecidableEq α]

/-- `s[l, l + L)` is a palindrome. -/
def Palindrome (s : Array α) (l L : Nat) : Prop := l + L ≤ s.size ∧ ∀ a < L, s[l + a]? = s[l + L - 1 - a]?

/-- C43: whatever the dummy is, entry `k` is the length of the longest palindrome with centre `k / 2`, that is with `2 l + L = k`; `odd_length(i)` is the
longest palindrome centred at character `i` and `even_length(i)` the longest one centred before it. -/
theorem manacher_correct (s : Array α) (d : α) :
    ∃ r, Manacher.make s d = .ok r ∧
      (∀ k ≤ 2 * s.size, ∃ L : Nat, Manacher.get r k = .ok (L : Int) ∧ IsGreatest {L | ∃ l, 2 * l + L = k ∧ Palindrome s l L} L) ∧
      (∀ i < s.size, ∃ h : Nat, Manacher.oddLength r i = .ok (2 * h + 1 : Int) ∧
        IsGreatest {h | h ≤ i ∧ Palindrome s (i - h) (2 * h + 1)} h) ∧
      (∀ i ≤ s.size, ∃ h : Nat, Manacher.evenLength r i = .ok (2 * h : Int) ∧
        IsGreatest {h | h ≤ i ∧ Palindrome s (i - h) (2 * h)} h) := by
  obtain ⟨r, h1, h2, h3⟩ := Manacher.make_tot s d
  refine ⟨r, h1, fun k hk => ?_, fun i hi => ?_, fun i hi => ?_⟩
  · obtain ⟨L, g1, g2⟩ := h3 k hk
    exact ⟨L, rd_some g1, g2⟩
  · obtain ⟨L, g1, ⟨l, e1, e2, e3⟩, g3⟩ := h3 (2 * i + 1) (by omega)
    refine ⟨i - l, ?_, ⟨by omega, ?_⟩, ?_⟩
    · rw [Manacher.oddLength, rd_some g1]
      congr 1
      omega
    · have a1 : i - (i - l) = l := by omega
      have a2 : 2 * (i - l) + 1 = L := by omega
      rw [a1, a2]
      exact ⟨e2, e3⟩
    · rintro h ⟨b1, b2⟩
      have := g3 (show 2 * h + 1 ∈ _ from ⟨i - h, by omega, b2.1, b2.2⟩)
      omega
  · obtain ⟨L, g1, ⟨l, e1, e2, e3⟩, g3⟩ := h3 (2 * i) (by omega)
    refine ⟨i - l, ?_, ⟨by omega, ?_⟩, ?_⟩
    · rw [Manacher.evenLength, rd_some g1]
      congr 1
      omega
    · have a1 : i - (i - l) = l := by omega
      have a2 : 2 * (i - l) = L := by omega
      rw [a1, a2]
      exact ⟨e2, e3⟩
    · rintro h ⟨b1, b2⟩
      have := g3 (show 2 * h ∈ _ from ⟨i - h, by omega, b2.1, b2.2⟩)
      omega

example : Manacher.make #[1, 1, 2, 1] 0 = .ok #[0, 1, 2, 1, 0, 3, 0, 1, 0] := by decide +kernel

end Man

/-! ## C44 -/

section Tries

/-- C44 (`trie_map.hpp`): uses of the trie, each adding a word `w` below the node of an already present word `p` and changing the data of the node that
is returned. Afterwards a word can be followed from the root iff it is empty or a prefix of an added word `p ++ w`; the node it leads to carries exactly
the changes made for that word; different words lead to different nodes. -/
theorem trie_map {κ P : Type} [DecidableEq κ] (d : P) (ops : List (Trie.Use κ P)) (hv : Trie.Valid [] ops) :
    ∃ s, forEach ops (MapTrie.make d) (Trie.use (MapTrie.ops κ P d)) = .ok s ∧
      (∀ x, ∃ r, Trie.walk (MapTrie.ops κ P d) s x 0 = .ok r ∧ (r ≠ none ↔ x = [] ∨ ∃ op ∈ ops, x <+: op.p ++ op.w) ∧
        ∀ u, r = some u → MapTrie.getVal s u = .ok ((ops.filter fun op => decide (op.p ++ op.w = x)).foldl (fun a op => op.f a) d)) ∧
      ∀ x y u, Trie.walk (MapTrie.ops κ P d) s x 0 = .ok (some u) → Trie.walk (MapTrie.ops κ P d) s y 0 = .ok (some u) → x = y := by
  obtain ⟨s, h1, h2, h3⟩ := Trie.trie_tot (MapTrie.lawful d) ops hv fun _ _ _ _ => trivial
  exact ⟨s, h1, fun x => h2 x fun _ _ => trivial, fun x y u => h3 x y u (fun _ _ => trivial) fun _ _ => trivial⟩

/-- C44 (`trie_array.hpp`): the same for words over the letters `off, …, off + σ - 1`. -/
theorem trie_array {P : Type} (σ : Nat) (off : Int) (d : P) (ops : List (Trie.Use Int P)) (hv : Trie.Valid [] ops)
    (hlet : ∀ op ∈ ops, ∀ c ∈ op.p ++ op.w, off ≤ c ∧ c < off + σ) :
    ∃ s, forEach ops (ArrayTrie.make σ d) (Trie.use (ArrayTrie.ops σ off d)) = .ok s ∧
      (∀ x, (∀ c ∈ x, off ≤ c ∧ c < off + σ) → ∃ r, Trie.walk (ArrayTrie.ops σ off d) s x 0 = .ok r ∧
        (r ≠ none ↔ x = [] ∨ ∃ op ∈ ops, x <+: op.p ++ op.w) ∧
        ∀ u, r = some u → ArrayTrie.getVal s u = .ok ((ops.filter fun op => decide (op.p ++ op.w = x)).foldl (fun a op => op.f a) d)) ∧
      ∀ x y u, (∀ c ∈ x, off ≤ c ∧ c < off + σ) → (∀ c ∈ y, off ≤ c ∧ c < off + σ) →
        Trie.walk (ArrayTrie.ops σ off d) s x 0 = .ok (some u) → Trie.walk (ArrayTrie.ops σ off d) s y 0 = .ok (some u) → x = y :=
  Trie.trie_tot (ArrayTrie.lawful σ off d) ops hv hlet

/-- An example of uses: count the words "ab", "ac" (below "a"), "ab" (below "ab" with the empty word). -/
def exampleUses : List (Trie.Use Int Nat) := [⟨[], [97, 98], (· + 1)⟩, ⟨[97], [99], (· + 1)⟩, ⟨[97, 98], [], (· + 1)⟩]

example : Trie.Valid [] exampleUses ∧ ∀ op ∈ exampleUses, ∀ c ∈ op.p ++ op.w, (97 : Int) ≤ c ∧ c < 97 + (26 : Nat) := by
  refine ⟨⟨Or.inl rfl, Or.inr ⟨[97, 98], by simp, by decide⟩, Or.inr ⟨[97, 98], by simp, by decide⟩, trivial⟩, by decide⟩

/-- Finding: reading a missing child through the non-constant `operator[]` of `trie_map.hpp` stores `-1`, and a later `add` along it uses `nodes[-1]`. -/
theorem trie_map_ref_finding :
    (do let s := (#[(MapTrie.getRef (⟨[], 0⟩ : MapTrie.Node Nat Nat) 5).1] : Array (MapTrie.Node Nat Nat))
        let r ← MapTrie.add 0 s [5] 0
        return r.2 : M Nat) = .error .ub := by decide +kernel

end Tries

/-! ## C70 -/

section AC
variable {κ : Type} [DecidableEq κ]

/-- Number of words (with multiplicity) that are suffixes of the text. -/
def suffixCount (ws : List (List κ)) (t : List κ) : Nat := ws.countP fun w => decide (w <:+ t)

/-- C70: after adding any nonempty words and one `build`, for every text the state reached by `next_state` from the initial state has
`count_suffix_matching` equal to the number of added words that are suffixes of the text. `order` is the iteration order of the maps. -/
theorem aho_corasick (ws : List (List κ)) (hne : [] ∉ ws) (order : List (κ × Nat) → List (κ × Nat)) (ho : ∀ l, (order l).Perm l) :
    ∃ s s', forEach ws (AhoCorasick.make : AhoCorasick.State κ) AhoCorasick.add = .ok s ∧ AhoCorasick.build order s = .ok s' ∧
      ∀ t, ∃ u, forEach t 0 (AhoCorasick.nextState s') = .ok u ∧ AhoCorasick.countSuffix s' u = .ok (suffixCount ws t) :=
  AhoCorasick.correct ws hne order ho

/-- C70: after an `add`, and before the next `build`, the queries fail their assertion. -/
theorem aho_corasick_needs_build (s s' : AhoCorasick.State κ) (w : List κ) (h : AhoCorasick.add s w = .ok s') (u : Nat) (c : κ) :
    AhoCorasick.nextState s' u c = .error .assertion ∧ AhoCorasick.countSuffix s' u = .error .assertion := by
  rw [AhoCorasick.add] at h
  cases hf : forEach w (s.next, 0) AhoCorasick.addStep with
  | error e => rw [hf] at h; cases h
  | ok r =>
    rw [hf] at h
    cases h
    exact ⟨rfl, rfl⟩

example : ∃ s', AhoCorasick.add (AhoCorasick.make : AhoCorasick.State Nat) [1, 2] = .ok s' := ⟨_, rfl⟩

/-- Using the automaton: words, number of `build`s, text. -/
def acCount (ws : List (List Nat)) (builds : Nat) (t : List Nat) : M Nat := do
  let s ← forEach ws (AhoCorasick.make : AhoCorasick.State Nat) AhoCorasick.add
  let s ← forUp 0 builds s fun _ s => AhoCorasick.build id s
  let u ← forEach t 0 (AhoCorasick.nextState s)
  AhoCorasick.countSuffix s u

example : acCount [[1, 2], [2], [2], [1]] 1 [2, 1, 2] = .ok 3 ∧ suffixCount [[1, 2], [2], [2], [1]] [2, 1, 2] = 3 := by decide +kernel

/-- Finding: the empty word is counted at the root and below depth one, but not at depth one. -/
theorem aho_corasick_empty_word_finding :
    acCount [[], [1]] 1 [1] = .ok 1 ∧ suffixCount [[], [1]] [1] = 2 := by decide +kernel

/-- Finding: building twice counts the words twice (so `add`, `build`, `add`, `build` does not work either). -/
theorem aho_corasick_build_twice_finding : acCount [[1]] 2 [1] = .ok 2 ∧ suffixCount [[1]] [1] = 1 := by decide +kernel

end AC

/-! ## C71 -/

/-- C71: the array version, for words over the letters `off, …, off + σ - 1`, empty words included. -/
theorem aho_corasick_array (σ : Nat) (off : Int) (ws : List (List Int)) (hlet : ∀ w ∈ ws, ∀ c ∈ w, off ≤ c ∧ c < off + σ) :
    ∃ s s', forEach ws (AhoCorasickArray.make σ) (AhoCorasickArray.add σ off) = .ok s ∧ AhoCorasickArray.build σ s = .ok s' ∧
      ∀ t, (∀ c ∈ t, off ≤ c ∧ c < off + σ) →
        ∃ u, forEach t 0 (AhoCorasickArray.nextState σ off s') = .ok u ∧ AhoCorasickArray.countSuffix s' u = .ok (suffixCount ws t) :=
  AhoCorasickArray.correct σ off ws hlet

/-- Using the automaton: words, number of `build`s, text. -/
def acArrayCount (σ : Nat) (ws : List (List Int)) (builds : Nat) (t : List Int) : M Nat := do
  let s ← forEach ws (AhoCorasickArray.make σ) (AhoCorasickArray.add σ 0)
  let s ← forUp 0 builds s fun _ s => AhoCorasickArray.build σ s
  let u ← forEach t 0 (AhoCorasickArray.nextState σ 0 s)
  AhoCorasickArray.countSuffix s u

example : acArrayCount 2 [[0, 1], [1], [1], [], [0]] 1 [1, 0, 1] = .ok 4 ∧ suffixCount [[0, 1], [1], [1], [], [0]] [1, 0, 1] = 4 := by decide +kernel

/-- Finding: a second `build` does not terminate (the first one turned the missing transitions into links to the root, which are then taken for
children): whatever the number of iterations, the loop goes on. Here with one letter and no word. -/
theorem aho_corasick_array_build_twice_finding :
    ∃ s, AhoCorasickArray.build 1 (AhoCorasickArray.make 1) = .ok s ∧
      ∀ fuel, loop (AhoCorasickArray.bfsStep 1) fuel ([0], s.nodes) = .error .diverge := by
  refine ⟨⟨#[⟨#[0], ⟨0, 0⟩⟩], true⟩, rfl, fun fuel => ?_⟩
  have h : AhoCorasickArray.bfsStep 1 ([0], #[⟨#[0], ⟨0, 0⟩⟩]) = .ok (some ([0], #[⟨#[0], ⟨0, 0⟩⟩])) := rfl
  induction fuel with
  | zero => rw [loop, h]; rfl
  | succ k ih => rw [loop, h]; exact ih

end StringProps
