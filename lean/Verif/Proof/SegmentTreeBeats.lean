import Verif.Model.SegmentTreeBeats
import Verif.Proof.LazySegmentTree

/-! # SegmentTreeBeats: helper lemmas -/

namespace Beats
open Cxx SegTree
open LazySegmentTree (div_pow_pos div_pow_lt forDown_empty forUp_empty str_left str_right not_str S S_up ctz_ok ctz_big Ch ch_up)

/-- What the template parameters have to satisfy.  `Desc x vs`: the summary `x` describes the values `vs`; `act f`: the map of one
value that `f` stands for; `In`: the admissible values; `Ok`: the admissible maps. -/
structure Law {T F V : Type} (p : Params T F) (In : V → Prop) (act : F → V → V) (Ok : F → Prop) (Desc : T → List V → Prop) : Prop where
  e : Desc p.e []
  op : ∀ {x y xs ys}, (∀ v ∈ xs, In v) → (∀ v ∈ ys, In v) → Desc x xs → Desc y ys → Desc (p.op x y) (xs ++ ys)
  map : ∀ {f x xs}, Ok f → (∀ v ∈ xs, In v) → (∀ v ∈ xs, In (act f v)) → Desc x xs →
    Tot (p.mapping f x) fun y => (p.fail y = false ∧ Desc y (xs.map (act f))) ∨ (p.fail y = true ∧ 2 ≤ xs.length ∧ f ≠ p.id)
  comp : ∀ {f g}, Ok f → Ok g → Tot (p.composition f g) fun h => Ok h ∧ ∀ v, In v → In (act g v) → act h v = act f (act g v)
  compId : p.composition p.id p.id = .ok p.id
  okId : Ok p.id
  actId : ∀ {v}, In v → act p.id v = v

variable {T F V : Type} {p : Params T F} {In : V → Prop} {act : F → V → V} {Ok : F → Prop} {Desc : T → List V → Prop}

/-- Values of the leaves below node `k` of height `t`; leaf `x` holds `g x`, leaves from `N` on are empty. -/
def vals (N : Nat) (g : Nat → V) (k t : Nat) : List V := ((List.range' (k * 2 ^ t) (2 ^ t)).filter (· < N)).map g

theorem mem_vals {N : Nat} {g : Nat → V} {k t : Nat} {v : V} : v ∈ vals N g k t ↔ ∃ x, x / 2 ^ t = k ∧ x < N ∧ g x = v := by
  unfold vals
  simp only [List.mem_map, List.mem_filter, List.mem_range'_1, decide_eq_true_eq]
  constructor
  · rintro ⟨x, ⟨⟨h1, h2⟩, h3⟩, rfl⟩
    exact ⟨x, div_eq_iff.2 ⟨h1, by rw [Nat.add_mul, one_mul]; exact h2⟩, h3, rfl⟩
  · rintro ⟨x, h1, h2, rfl⟩
    obtain ⟨a, b⟩ := div_eq_iff.1 h1
    rw [Nat.add_mul, one_mul] at b
    exact ⟨x, ⟨⟨a, b⟩, h2⟩, rfl⟩

theorem vals_congr {N : Nat} {g g' : Nat → V} {k t : Nat} (h : ∀ x, x / 2 ^ t = k → x < N → g x = g' x) : vals N g k t = vals N g' k t := by
  unfold vals
  refine List.map_congr_left fun x hx => ?_
  simp only [List.mem_filter, List.mem_range'_1, decide_eq_true_eq] at hx
  exact h x (div_eq_iff.2 ⟨hx.1.1, by rw [Nat.add_mul, one_mul]; exact hx.1.2⟩) hx.2

theorem vals_succ (N : Nat) (g : Nat → V) (k t : Nat) : vals N g k (t + 1) = vals N g (2 * k) t ++ vals N g (2 * k + 1) t := by
  unfold vals
  rw [← List.map_append, ← List.filter_append]
  congr 2
  have := List.range'_append (s := 2 * k * 2 ^ t) (m := 2 ^ t) (n := 2 ^ t) (step := 1)
  rw [show (2 * k + 1) * 2 ^ t = 2 * k * 2 ^ t + 1 * 2 ^ t by ring, this, show k * 2 ^ (t + 1) = 2 * k * 2 ^ t by ring,
    show 2 ^ (t + 1) = 2 ^ t + 2 ^ t by ring]

theorem vals_map (N : Nat) (g : Nat → V) (φ : V → V) (k t : Nat) : (vals N g k t).map φ = vals N (fun x => φ (g x)) k t := by
  unfold vals
  rw [List.map_map]; rfl

theorem vals_length (N : Nat) (g : Nat → V) (k : Nat) : (vals N g k 0).length ≤ 1 := by
  unfold vals
  rw [List.length_map]
  exact (List.length_filter_le _ _).trans (by simp)

/-- `x` is in the subtree of `k`. -/
def Sub (k x : Nat) : Prop := ∃ d, x / 2 ^ d = k

theorem sub_self (k : Nat) : Sub k k := ⟨0, by simp⟩

theorem sub_trans {k k' x d : Nat} (h : Sub k' x) (hd : k' / 2 ^ d = k) : Sub k x := by
  obtain ⟨e, rfl⟩ := h
  exact ⟨e + d, by rw [pow_add, ← Nat.div_div_eq_div_mul, hd]⟩

theorem sub_le {k x : Nat} (h : Sub k x) : k ≤ x := by
  obtain ⟨e, rfl⟩ := h
  exact Nat.div_le_self _ _

theorem sub_left {k x : Nat} (h : Sub (2 * k) x) : Sub k x := sub_trans (d := 1) h (by omega)
theorem sub_right {k x : Nat} (h : Sub (2 * k + 1) x) : Sub k x := sub_trans (d := 1) h (by omega)

/-- Two different children of one node have disjoint subtrees. -/
theorem sub_disj {a b x : Nat} (h : a / 2 = b / 2) (h1 : 1 ≤ a / 2) (hne : a ≠ b) (ha : Sub a x) (hb : Sub b x) : False := by
  obtain ⟨d, rfl⟩ := ha
  obtain ⟨e, rfl⟩ := hb
  rcases Nat.lt_trichotomy d e with hlt | rfl | hlt
  · obtain ⟨c, rfl⟩ := Nat.exists_eq_add_of_lt hlt
    have : x / 2 ^ (d + c + 1) = x / 2 ^ d / 2 / 2 ^ c := by
      rw [Nat.div_div_eq_div_mul, Nat.div_div_eq_div_mul]
      congr 1; ring
    rw [this] at h
    have := Nat.div_le_self (x / 2 ^ d / 2) (2 ^ c)
    omega
  · exact hne rfl
  · obtain ⟨c, rfl⟩ := Nat.exists_eq_add_of_lt hlt
    have : x / 2 ^ (e + c + 1) = x / 2 ^ e / 2 / 2 ^ c := by
      rw [Nat.div_div_eq_div_mul, Nat.div_div_eq_div_mul]
      congr 1; ring
    rw [this] at h h1
    have := Nat.div_le_self (x / 2 ^ e / 2) (2 ^ c)
    omega

/-- Views of a state. -/
abbrev dat (p : Params T F) (s : State T F) : Nat → T := at' p.e s.data
abbrev laz (p : Params T F) (s : State T F) : Nat → F := at' p.id s.lazy

variable (p In act Ok Desc) in
/-- The subtree of `k` (height `t`) represents the values `g`: every node not in `B` has the right summary. -/
def Loc (N : Nat) (B : Nat → Prop) (s : State T F) : Nat → Nat → (Nat → V) → Prop
  | 0, k, g => (∀ x, x / 2 ^ 0 = k → x < N → In (g x)) ∧ (¬ B k → Desc (dat p s k) (vals N g k 0))
  | t + 1, k, g => (∀ x, x / 2 ^ (t + 1) = k → x < N → In (g x)) ∧ (¬ B k → Desc (dat p s k) (vals N g k (t + 1))) ∧ Ok (laz p s k) ∧
      ∃ h, Loc N B s t (2 * k) h ∧ Loc N B s t (2 * k + 1) h ∧ ∀ x, x / 2 ^ (t + 1) = k → x < N → g x = act (laz p s k) (h x)

variable {N : Nat} {B B' : Nat → Prop} {s s' : State T F} {t k : Nat} {g g' : Nat → V}

theorem Loc.inr (h : Loc p In act Ok Desc N B s t k g) : ∀ x, x / 2 ^ t = k → x < N → In (g x) := by
  cases t <;> exact h.1

theorem Loc.desc (h : Loc p In act Ok Desc N B s t k g) (hB : ¬ B k) : Desc (dat p s k) (vals N g k t) := by
  cases t
  · exact h.2 hB
  · exact h.2.1 hB

theorem Loc.congr (h : Loc p In act Ok Desc N B s t k g) (hg : ∀ x, x / 2 ^ t = k → x < N → g x = g' x) : Loc p In act Ok Desc N B s t k g' := by
  cases t with
  | zero => exact ⟨fun x a b => hg x a b ▸ h.1 x a b, fun hB => vals_congr hg ▸ h.2 hB⟩
  | succ t =>
    obtain ⟨h1, h2, h3, h', h4, h5, h6⟩ := h
    exact ⟨fun x a b => hg x a b ▸ h1 x a b, fun hB => vals_congr hg ▸ h2 hB, h3, h', h4, h5, fun x a b => by rw [← hg x a b]; exact h6 x a b⟩

theorem Loc.frame (h : Loc p In act Ok Desc N B s t k g)
    (hs : ∀ x, Sub k x → dat p s' x = dat p s x ∧ laz p s' x = laz p s x ∧ (B x → B' x)) : Loc p In act Ok Desc N B' s' t k g := by
  induction t generalizing k g with
  | zero =>
    obtain ⟨a, -, c⟩ := hs k (sub_self k)
    exact ⟨h.1, fun hB => by rw [a]; exact h.2 (mt c hB)⟩
  | succ t ih =>
    obtain ⟨h1, h2, h3, h', h4, h5, h6⟩ := h
    obtain ⟨a, b, c⟩ := hs k (sub_self k)
    refine ⟨h1, fun hB => by rw [a]; exact h2 (mt c hB), by rw [b]; exact h3, h', ih h4 fun x hx => hs x (sub_left hx), ih h5 fun x hx => hs x (sub_right hx), ?_⟩
    rw [b]; exact h6

/-- Sizes of the vectors. -/
structure Sz (n m lg : Nat) (s : State T F) : Prop where
  hn : s.n = n
  hsm : s.m = m
  hlg : s.lg = lg
  hsz : s.data.size = 2 * m
  hlz : s.lazy.size = m

/-- Nothing outside of the subtree of `k` has changed. -/
def Same (p : Params T F) (k : Nat) (s s' : State T F) : Prop := ∀ x, ¬ Sub k x → dat p s' x = dat p s x ∧ laz p s' x = laz p s x

variable {n m lg : Nat}

theorem update_eq (h : Sz n m lg s) {k : Nat} (hk : k < m) : ∃ s', update p s k = .ok s' ∧ Sz n m lg s' ∧
    (∀ x, dat p s' x = if k = x then p.op (dat p s (2 * k)) (dat p s (2 * k + 1)) else dat p s x) ∧ laz p s' = laz p s := by
  have hz := h.hsz
  unfold update SegmentTree.update
  rw [rd_at p.e (by omega), ok_bind, rd_at p.e (by omega), ok_bind, wr_eq (by omega), ok_bind]
  refine ⟨_, rfl, ⟨h.hn, h.hsm, h.hlg, by simpa using hz, h.hlz⟩, fun x => ?_, rfl⟩
  rw [mul_comm 2 k]
  exact at_set p.e (by omega) _ _

/-- `push`, given the effect of `all_apply` on the children. -/
theorem pushWith_tot (L : Law p In act Ok Desc) {app : State T F → Nat → F → M (State T F)}
    (happ : ∀ {s k g f}, Sz n m lg s → m ≤ k * 2 ^ t → (k + 1) * 2 ^ t ≤ 2 * m → (∀ x, Sub k x → ¬ B x) → Ok f → Loc p In act Ok Desc N B s t k g →
      (∀ x, x / 2 ^ t = k → x < N → In (act f (g x))) →
      Tot (app s k f) fun s' => Sz n m lg s' ∧ Loc p In act Ok Desc N B s' t k (fun x => act f (g x)) ∧ Same p k s s' ∧
        (f = p.id → ∀ x, laz p s x = p.id → laz p s' x = p.id))
    (hz : Sz n m lg s) (hk : 1 ≤ k) (h1 : m ≤ k * 2 ^ (t + 1)) (h2 : (k + 1) * 2 ^ (t + 1) ≤ 2 * m) (hkm : k < m)
    (hB : ∀ x, Sub k x → x ≠ k → ¬ B x) {h : Nat → V}
    (hl : Loc p In act Ok Desc N B s t (2 * k) h) (hr : Loc p In act Ok Desc N B s t (2 * k + 1) h) (ok : Ok (laz p s k))
    (hin : ∀ x, x / 2 ^ (t + 1) = k → x < N → In (act (laz p s k) (h x))) :
    Tot (pushWith p app s k) fun s' => Sz n m lg s' ∧ Loc p In act Ok Desc N B s' t (2 * k) (fun x => act (laz p s k) (h x)) ∧
      Loc p In act Ok Desc N B s' t (2 * k + 1) (fun x => act (laz p s k) (h x)) ∧ laz p s' k = p.id ∧ dat p s' k = dat p s k ∧
      Same p k s s' ∧ (laz p s k = p.id → ∀ x, laz p s x = p.id → laz p s' x = p.id) := by
  have hzl := hz.hlz
  have nl : ∀ {x}, Sub (2 * k) x → x ≠ k := fun hx e => by have := sub_le hx; omega
  have nr : ∀ {x}, Sub (2 * k + 1) x → x ≠ k := fun hx e => by have := sub_le hx; omega
  have eA : 2 * k * 2 ^ t = k * 2 ^ (t + 1) := by ring
  have eB : (2 * k + 1) * 2 ^ t = k * 2 ^ (t + 1) + 2 ^ t := by ring
  have eC : 2 ^ (t + 1) = 2 * 2 ^ t := by ring
  have eD : (k + 1) * 2 ^ (t + 1) = k * 2 ^ (t + 1) + 2 * 2 ^ t := by ring
  have eE : (2 * k + 1 + 1) * 2 ^ t = k * 2 ^ (t + 1) + 2 * 2 ^ t := by ring
  unfold pushWith
  rw [rd_at p.id (by omega), ok_bind]
  have half : ∀ {x j}, x / 2 ^ t = j → j / 2 = k → x / 2 ^ (t + 1) = k := by
    intro x j a b
    rw [pow_succ, ← Nat.div_div_eq_div_mul, a, b]
  refine Tot.bind (happ hz (by omega) (by omega) (fun x hx => hB x (sub_left hx) (nl hx)) ok hl fun x a b => hin x (half a (by omega)) b) ?_
  rintro s1 ⟨z1, l1, m1, i1⟩
  have nk : ¬ Sub (2 * k) k := fun hx => nl hx rfl
  have nk' : ¬ Sub (2 * k + 1) k := fun hx => nr hx rfl
  have hz1 := z1.hlz
  rw [rd_at p.id (by omega), ok_bind]
  have e1 : at' p.id s1.lazy k = at' p.id s.lazy k := (m1 k nk).2
  rw [e1]
  have disj : ∀ x, Sub (2 * k + 1) x → ¬ Sub (2 * k) x := fun x a b => sub_disj (by omega) (by omega) (by omega) a b
  refine Tot.bind (happ z1 (by omega) (by omega) (fun x hx => hB x (sub_right hx) (nr hx)) ok
    (hr.frame fun x hx => ⟨(m1 x (disj x hx)).1, (m1 x (disj x hx)).2, id⟩) fun x a b => hin x (half a (by omega)) b) ?_
  rintro s2 ⟨z2, l2, m2, i2⟩
  have hz2 := z2.hlz
  rw [wr_eq (by omega), ok_bind]
  have hlaz : ∀ x, at' p.id (s2.lazy.setIfInBounds k p.id) x = if k = x then p.id else laz p s2 x := fun x => at_set p.id (by omega) _ _
  refine Tot.pure ⟨⟨z2.hn, z2.hsm, z2.hlg, z2.hsz, by simpa using hz2⟩, ?_, ?_, ?_, ?_, ?_, ?_⟩
  · refine l1.frame fun x hx => ⟨(m2 x fun hx' => disj x hx' hx).1, ?_, id⟩
    show at' p.id (s2.lazy.setIfInBounds k p.id) x = _
    rw [hlaz, if_neg (nl hx).symm]
    exact (m2 x fun hx' => disj x hx' hx).2
  · refine l2.frame fun x hx => ⟨rfl, ?_, id⟩
    show at' p.id (s2.lazy.setIfInBounds k p.id) x = _
    rw [hlaz, if_neg (nr hx).symm]
  · show at' p.id (s2.lazy.setIfInBounds k p.id) k = _
    rw [hlaz, if_pos rfl]
  · show dat p s2 k = _
    rw [(m2 k nk').1, (m1 k nk).1]
  · intro x hx
    have a := m1 x fun h => hx (sub_left h)
    have b := m2 x fun h => hx (sub_right h)
    refine ⟨b.1.trans a.1, ?_⟩
    show at' p.id (s2.lazy.setIfInBounds k p.id) x = _
    rw [hlaz, if_neg (by rintro rfl; exact hx (sub_self _))]
    exact b.2.trans a.2
  · intro e x hx
    show at' p.id (s2.lazy.setIfInBounds k p.id) x = _
    rw [hlaz]
    split
    · rfl
    · exact i2 e x (i1 e x hx)

theorem allApply_tot (L : Law p In act Ok Desc) {fuel : Nat} (hf : t + 1 ≤ fuel) {f : F} (hz : Sz n m lg s) (hm1 : 1 ≤ m) (h1 : m ≤ k * 2 ^ t)
    (h2 : (k + 1) * 2 ^ t ≤ 2 * m) (hB : ∀ x, Sub k x → ¬ B x) (ok : Ok f) (hl : Loc p In act Ok Desc N B s t k g)
    (hin : ∀ x, x / 2 ^ t = k → x < N → In (act f (g x))) :
    Tot (allApply p fuel s k f) fun s' => Sz n m lg s' ∧ Loc p In act Ok Desc N B s' t k (fun x => act f (g x)) ∧ Same p k s s' ∧
        (f = p.id → ∀ x, laz p s x = p.id → laz p s' x = p.id) := by
  induction t generalizing fuel s k g f with
  | zero =>
    obtain ⟨fuel, rfl⟩ := Nat.exists_eq_add_of_le' hf
    simp only [pow_zero, mul_one] at h1 h2
    have hsz := hz.hsz
    unfold allApply
    rw [rd_at p.e (by omega), ok_bind]
    refine Tot.bind (L.map ok ?_ ?_ (hl.desc (hB k (sub_self k)))) ?_
    · intro v hv
      obtain ⟨x, a, b, rfl⟩ := mem_vals.1 hv
      exact hl.inr x a b
    · intro v hv
      obtain ⟨x, a, b, rfl⟩ := mem_vals.1 hv
      exact hin x a b
    rintro y (⟨-, hy⟩ | ⟨-, hy, -⟩)
    swap
    · have := vals_length N g k
      omega
    rw [wr_eq (by omega), ok_bind, hz.hsm]
    dsimp only
    rw [if_neg (by omega)]
    have ha : ∀ x, at' p.e (s.data.setIfInBounds k y) x = if k = x then y else dat p s x := fun x => at_set p.e (by omega) _ _
    refine Tot.pure ⟨⟨hz.hn, rfl, hz.hlg, by simpa using hsz, hz.hlz⟩, ⟨hin, fun _ => ?_⟩, fun x hx => ⟨?_, rfl⟩, fun _ x hx => hx⟩
    · show Desc (at' p.e (s.data.setIfInBounds k y) k) _
      rw [ha, if_pos rfl, ← vals_map]
      exact hy
    · show at' p.e (s.data.setIfInBounds k y) x = _
      rw [ha, if_neg (by rintro rfl; exact hx (sub_self _))]
  | succ t ih =>
    obtain ⟨fuel, rfl⟩ := Nat.exists_eq_add_of_le' (show 1 ≤ fuel by omega)
    have hsz := hz.hsz
    have hlz := hz.hlz
    have hpt := pow_pos' t
    have eC : 2 ^ (t + 1) = 2 * 2 ^ t := by ring
    have eD : (k + 1) * 2 ^ (t + 1) = 2 * ((k + 1) * 2 ^ t) := by ring
    have hkm' : (k + 1) * 1 ≤ (k + 1) * 2 ^ t := Nat.mul_le_mul_left _ hpt
    have hkm : k < m := by omega
    have hk : 1 ≤ k := by
      rcases Nat.eq_zero_or_pos k with rfl | h
      · omega
      · exact h
    have hdesc := hl.desc (hB k (sub_self k))
    have hinr := hl.inr
    obtain ⟨-, -, okz, h, ll, lr, hg⟩ := hl
    unfold allApply
    rw [rd_at p.e (by omega), ok_bind]
    refine Tot.bind (L.map ok ?_ ?_ hdesc) ?_
    · intro v hv
      obtain ⟨x, a, b, rfl⟩ := mem_vals.1 hv
      exact hinr x a b
    · intro v hv
      obtain ⟨x, a, b, rfl⟩ := mem_vals.1 hv
      exact hin x a b
    intro y hy
    rw [wr_eq (by omega), ok_bind, hz.hsm]
    dsimp only
    rw [if_pos hkm, rd_at p.id (by omega), ok_bind]
    obtain ⟨z, ez, okz', hact⟩ := L.comp ok okz
    rw [ez, ok_bind, wr_eq (by omega), ok_bind]
    have ha : ∀ x, at' p.e (s.data.setIfInBounds k y) x = if k = x then y else dat p s x := fun x => at_set p.e (by omega) _ _
    have hb : ∀ x, at' p.id (s.lazy.setIfInBounds k z) x = if k = x then z else laz p s x := fun x => at_set p.id (by omega) _ _
    have hsz1 : (s.data.setIfInBounds k y).size = 2 * m := by simpa using hsz
    have hlz1 : (s.lazy.setIfInBounds k z).size = m := by simpa using hlz
    obtain ⟨s1, hs1⟩ : ∃ s1 : State T F, s1 = ⟨s.n, m, s.lg, s.data.setIfInBounds k y, s.lazy.setIfInBounds k z⟩ := ⟨_, rfl⟩
    have d1 : ∀ x, dat p s1 x = if k = x then y else dat p s x := by rw [hs1]; exact ha
    have b1 : ∀ x, laz p s1 x = if k = x then z else laz p s x := by rw [hs1]; exact hb
    have z1 : Sz n m lg s1 := by rw [hs1]; exact ⟨hz.hn, rfl, hz.hlg, hsz1, hlz1⟩
    rw [rd_at p.e (by omega), ok_bind, ha, if_pos rfl, ← hs1]
    have nl : ∀ {x}, Sub (2 * k) x → k ≠ x := fun hx e => by have := sub_le hx; omega
    have nr : ∀ {x}, Sub (2 * k + 1) x → k ≠ x := fun hx e => by have := sub_le hx; omega
    have half : ∀ {x j}, x / 2 ^ t = j → j / 2 = k → x / 2 ^ (t + 1) = k := by
      intro x j a b
      rw [pow_succ, ← Nat.div_div_eq_div_mul, a, b]
    have half' : ∀ {x}, x / 2 ^ (t + 1) = k → x / 2 ^ t = 2 * k ∨ x / 2 ^ t = 2 * k + 1 := by
      intro x a
      rw [pow_succ, ← Nat.div_div_eq_div_mul] at a
      omega
    have hhin : ∀ x, x / 2 ^ (t + 1) = k → x < N → In (h x) := by
      intro x a b
      rcases half' a with a' | a'
      · exact ll.inr x a' b
      · exact lr.inr x a' b
    have l1 := ll.frame (s' := s1) (B' := B) fun x hx => ⟨by rw [d1, if_neg (nl hx)], by rw [b1, if_neg (nl hx)], id⟩
    have r1 := lr.frame (s' := s1) (B' := B) fun x hx => ⟨by rw [d1, if_neg (nr hx)], by rw [b1, if_neg (nr hx)], id⟩
    have hz' : ∀ x, x / 2 ^ (t + 1) = k → x < N → act z (h x) = act f (g x) := by
      intro x a b
      rw [hact (h x) (hhin x a b) (by have := hg x a b; rw [← this]; exact hinr x a b)]
      rw [hg x a b]
    have hsame : Same p k s s1 := fun x hx => by
      have : k ≠ x := by rintro rfl; exact hx (sub_self _)
      exact ⟨by rw [d1, if_neg this], by rw [b1, if_neg this]⟩
    rcases hy with ⟨hy1, hy2⟩ | ⟨hy1, -, hy3⟩
    · rw [hy1]
      refine Tot.pure ⟨z1, ⟨hin, fun _ => ?_, by rw [b1, if_pos rfl]; exact okz', h, l1, r1, fun x a b => ?_⟩, hsame, fun e x hx => ?_⟩
      · rw [d1, if_pos rfl, ← vals_map]; exact hy2
      · rw [b1, if_pos rfl, hz' x a b]
      · rw [b1]
        split
        next e' =>
          subst e'
          rw [e, hx, L.compId] at ez
          exact (Except.ok.inj ez).symm
        next => exact hx
    · rw [hy1, if_pos rfl]
      have bk : laz p s1 k = z := by rw [b1, if_pos rfl]
      refine Tot.bind (pushWith_tot L (t := t) (B := B) (N := N) (fun {s k g f} a b c d e f' g' => ih (by omega) a b c d e f' g') z1 hk h1 h2 hkm
        (fun x hx _ => hB x hx) l1 r1 (by rw [bk]; exact okz') (fun x a b => by rw [bk, hz' x a b]; exact hin x a b)) ?_
      rintro s2 ⟨z2, l2, r2, k2, -, m2, -⟩
      rw [bk] at l2 r2
      obtain ⟨s3, e3, z3, d3, b3⟩ := update_eq (p := p) z2 hkm
      refine Tot.of_eq e3 ⟨z3, ⟨hin, fun _ => ?_, ?_, fun x => act z (h x), l2.frame ?_, r2.frame ?_, fun x a b => ?_⟩, ?_, fun e => absurd e hy3⟩
      · rw [d3, if_pos rfl, vals_succ]
        have e1 : vals N (fun x => act f (g x)) (2 * k) t = vals N (fun x => act z (h x)) (2 * k) t :=
          vals_congr fun x a b => (hz' x (half a (by omega)) b).symm
        have e2 : vals N (fun x => act f (g x)) (2 * k + 1) t = vals N (fun x => act z (h x)) (2 * k + 1) t :=
          vals_congr fun x a b => (hz' x (half a (by omega)) b).symm
        rw [e1, e2]
        refine L.op ?_ ?_ (l2.desc (hB _ ⟨1, by omega⟩)) (r2.desc (hB _ ⟨1, by omega⟩))
        · intro v hv
          obtain ⟨x, a, b, rfl⟩ := mem_vals.1 hv
          exact l2.inr x a b
        · intro v hv
          obtain ⟨x, a, b, rfl⟩ := mem_vals.1 hv
          exact r2.inr x a b
      · rw [b3, k2]; exact L.okId
      · intro x hx
        exact ⟨by rw [d3, if_neg (nl hx)], by rw [b3], id⟩
      · intro x hx
        exact ⟨by rw [d3, if_neg (nr hx)], by rw [b3], id⟩
      · dsimp only
        rw [b3, k2, hz' x a b, L.actId (hin x a b)]
      · intro x hx
        have : k ≠ x := by rintro rfl; exact hx (sub_self _)
        exact ⟨by rw [d3, if_neg this, (m2 x hx).1, (hsame x hx).1], by rw [b3, (m2 x hx).2, (hsame x hx).2]⟩

/-- Changing the subtree of `k` inside a larger tree with root `K`. -/
theorem zoom (L : Law p In act Ok Desc) {d K : Nat} (hK : 1 ≤ K) (hk : k / 2 ^ d = K) (hl : Loc p In act Ok Desc N B s (t + d) K g) :
    ∃ h, Loc p In act Ok Desc N B s t k h ∧
      ((∀ j, 1 ≤ j → j ≤ d → laz p s (k / 2 ^ j) = p.id) → ∀ x, x / 2 ^ t = k → x < N → h x = g x) ∧
      ∀ (B' : Nat → Prop) (s' : State T F) (h' : Nat → V), Loc p In act Ok Desc N B' s' t k h' → Same p k s s' → (∀ x, ¬ Sub k x → B x → B' x) →
        ((∀ x, x / 2 ^ t = k → x < N → h' x = h x) → Loc p In act Ok Desc N B' s' (t + d) K g) ∧
        ((∀ j, 1 ≤ j → j ≤ d → laz p s (k / 2 ^ j) = p.id ∧ B' (k / 2 ^ j)) →
          Loc p In act Ok Desc N B' s' (t + d) K (fun x => if x / 2 ^ t = k then h' x else g x)) := by
  induction d generalizing K g with
  | zero =>
    simp only [pow_zero, Nat.div_one] at hk
    subst hk
    refine ⟨g, hl, fun _ x _ _ => rfl, fun B' s' h' hl' _ _ => ⟨fun e => hl'.congr e, fun _ => hl'.congr fun x a _ => by rw [if_pos a]⟩⟩
  | succ d ih =>
    obtain ⟨g1, g2, g3, h0, ll, lr, g4⟩ := hl
    have hk' : k / 2 ^ d / 2 = K := by rw [Nat.div_div_eq_div_mul, ← pow_succ]; exact hk
    have hkK : 2 * K ≤ k := by
      have := Nat.div_le_self k (2 ^ d)
      omega
    have nK : ¬ Sub k K := fun h => by have := sub_le h; omega
    have key : ∀ c, c = k / 2 ^ d → ∀ c', c / 2 = c' / 2 → c ≠ c' → Loc p In act Ok Desc N B s (t + d) c h0 → Loc p In act Ok Desc N B s (t + d) c' h0 →
        ∃ h, Loc p In act Ok Desc N B s t k h ∧
        ((∀ j, 1 ≤ j → j ≤ d → laz p s (k / 2 ^ j) = p.id) → ∀ x, x / 2 ^ t = k → x < N → h x = h0 x) ∧
        ∀ (B' : Nat → Prop) (s' : State T F) (h' : Nat → V), Loc p In act Ok Desc N B' s' t k h' → Same p k s s' → (∀ x, ¬ Sub k x → B x → B' x) →
        ((∀ x, x / 2 ^ t = k → x < N → h' x = h x) → Loc p In act Ok Desc N B' s' (t + d) c h0 ∧ Loc p In act Ok Desc N B' s' (t + d) c' h0) ∧
        ((∀ j, 1 ≤ j → j ≤ d → laz p s (k / 2 ^ j) = p.id ∧ B' (k / 2 ^ j)) →
          Loc p In act Ok Desc N B' s' (t + d) c (fun x => if x / 2 ^ t = k then h' x else h0 x) ∧
          Loc p In act Ok Desc N B' s' (t + d) c' (fun x => if x / 2 ^ t = k then h' x else h0 x)) := by
      intro c hc c' hcc hne lc lc'
      obtain ⟨h, a1, a2, a3⟩ := ih (K := c) (by omega) hc.symm lc
      refine ⟨h, a1, a2, fun B' s' h' b1 b2 b3 => ?_⟩
      obtain ⟨a4, a5⟩ := a3 B' s' h' b1 b2 b3
      have dj : ∀ x, Sub c' x → ¬ Sub k x := fun x hx hx' =>
        sub_disj hcc (by omega) hne (sub_trans hx' hc.symm) hx
      have lc'' : Loc p In act Ok Desc N B' s' (t + d) c' h0 :=
        lc'.frame fun x hx => ⟨(b2 x (dj x hx)).1, (b2 x (dj x hx)).2, b3 x (dj x hx)⟩
      refine ⟨fun e => ⟨a4 e, lc''⟩, fun e => ⟨a5 e, lc''.congr fun x hx _ => ?_⟩⟩
      rw [if_neg]
      rintro rfl
      apply hne
      rw [hc, ← hx, pow_add, ← Nat.div_div_eq_div_mul]
    have fin : ∃ h, Loc p In act Ok Desc N B s t k h ∧
        ((∀ j, 1 ≤ j → j ≤ d → laz p s (k / 2 ^ j) = p.id) → ∀ x, x / 2 ^ t = k → x < N → h x = h0 x) ∧
        ∀ (B' : Nat → Prop) (s' : State T F) (h' : Nat → V), Loc p In act Ok Desc N B' s' t k h' → Same p k s s' → (∀ x, ¬ Sub k x → B x → B' x) →
        ((∀ x, x / 2 ^ t = k → x < N → h' x = h x) → Loc p In act Ok Desc N B' s' (t + d) (2 * K) h0 ∧ Loc p In act Ok Desc N B' s' (t + d) (2 * K + 1) h0) ∧
        ((∀ j, 1 ≤ j → j ≤ d → laz p s (k / 2 ^ j) = p.id ∧ B' (k / 2 ^ j)) →
          Loc p In act Ok Desc N B' s' (t + d) (2 * K) (fun x => if x / 2 ^ t = k then h' x else h0 x) ∧
          Loc p In act Ok Desc N B' s' (t + d) (2 * K + 1) (fun x => if x / 2 ^ t = k then h' x else h0 x)) := by
      rcases (show k / 2 ^ d = 2 * K ∨ k / 2 ^ d = 2 * K + 1 by omega) with hc | hc
      · exact key _ hc.symm (2 * K + 1) (by omega) (by omega) ll lr
      · obtain ⟨h, a1, a2, a3⟩ := key _ hc.symm (2 * K) (by omega) (by omega) lr ll
        refine ⟨h, a1, a2, fun B' s' h' b1 b2 b3 => ?_⟩
        obtain ⟨a4, a5⟩ := a3 B' s' h' b1 b2 b3
        exact ⟨fun e => (a4 e).symm, fun e => (a5 e).symm⟩
    obtain ⟨h, a1, a2, a3⟩ := fin
    have up : ∀ {x}, x / 2 ^ t = k → x / 2 ^ (t + d + 1) = K := by
      rintro x rfl
      rw [← hk, Nat.div_div_eq_div_mul, ← pow_add]; congr 1
    have half' : ∀ {x}, x / 2 ^ (t + d + 1) = K → x / 2 ^ (t + d) = 2 * K ∨ x / 2 ^ (t + d) = 2 * K + 1 := by
      intro x a
      rw [pow_succ, ← Nat.div_div_eq_div_mul] at a
      omega
    have h0in : ∀ x, x / 2 ^ (t + d + 1) = K → x < N → In (h0 x) := by
      intro x a b
      rcases half' a with a' | a'
      · exact ll.inr x a' b
      · exact lr.inr x a' b
    refine ⟨h, a1, fun e x hx hN => ?_, fun B' s' h' b1 b2 b3 => ?_⟩
    · rw [a2 (fun j j1 j2 => e j j1 (by omega)) x hx hN, g4 x (up hx) hN]
      have := e (d + 1) (by omega) le_rfl
      rw [hk] at this
      rw [this, L.actId (h0in x (up hx) hN)]
    · obtain ⟨a4, a5⟩ := a3 B' s' h' b1 b2 b3
      obtain ⟨k1, k2⟩ := b2 K nK
      constructor
      · intro e
        exact ⟨g1, fun hB => by rw [k1]; exact g2 (mt (b3 K nK) hB), by rw [k2]; exact g3, h0, (a4 e).1, (a4 e).2, by rw [k2]; exact g4⟩
      · intro e
        obtain ⟨e1, e2⟩ := e (d + 1) (by omega) le_rfl
        rw [hk] at e1 e2
        obtain ⟨c1, c2⟩ := a5 fun j j1 j2 => e j j1 (by omega)
        refine ⟨fun x hx hN => ?_, fun hB => absurd e2 hB, by rw [k2]; exact g3, _, c1, c2, fun x hx hN => ?_⟩
        · dsimp only
          split
          next c => exact b1.inr x c hN
          next c => exact g1 x hx hN
        · dsimp only
          rw [k2, e1]
          split
          next c => rw [L.actId (b1.inr x c hN)]
          next c =>
            have := g4 x hx hN
            rw [e1] at this
            exact this

/-- Recomputing node `k` from its children. -/
theorem update_loc (L : Law p In act Ok Desc) {d K : Nat} (hK : 1 ≤ K) (hk : k / 2 ^ d = K) (hl : Loc p In act Ok Desc N B s (t + 1 + d) K g)
    {s' : State T F} (hk2 : ¬ B' k → laz p s k = p.id ∧ ¬ B (2 * k) ∧ ¬ B (2 * k + 1)) (hB' : ∀ x, x ≠ k → B x → B' x)
    (hd : ∀ x, dat p s' x = if k = x then p.op (dat p s (2 * k)) (dat p s (2 * k + 1)) else dat p s x) (hlz : laz p s' = laz p s) :
    Loc p In act Ok Desc N B' s' (t + 1 + d) K g := by
  have hk1 : 1 ≤ k := by
    rcases Nat.eq_zero_or_pos k with rfl | h
    · rw [Nat.zero_div] at hk; omega
    · exact h
  obtain ⟨h, a1, -, a3⟩ := zoom L hK hk hl
  have nl : ∀ {x}, Sub (2 * k) x → k ≠ x := fun hx e => by have := sub_le hx; omega
  have nr : ∀ {x}, Sub (2 * k + 1) x → k ≠ x := fun hx e => by have := sub_le hx; omega
  have hne : ∀ x, ¬ Sub k x → k ≠ x := by rintro x hx rfl; exact hx (sub_self _)
  refine (a3 B' s' h ?_ (fun x hx => ⟨by rw [hd, if_neg (hne x hx)], by rw [hlz]⟩) fun x hx => hB' x (hne x hx).symm).1 fun _ _ _ => rfl
  obtain ⟨g1, -, g3, h0, ll, lr, g4⟩ := a1
  refine ⟨g1, fun hBk => ?_, by rw [hlz]; exact g3, h0, ll.frame fun x hx => ?_, lr.frame fun x hx => ?_, by rw [hlz]; exact g4⟩
  · obtain ⟨hz, hB1, hB2⟩ := hk2 hBk
    rw [hd, if_pos rfl, vals_succ]
    have half : ∀ {x j}, x / 2 ^ t = j → j / 2 = k → x / 2 ^ (t + 1) = k := by
      intro x j a b
      rw [pow_succ, ← Nat.div_div_eq_div_mul, a, b]
    have e1 : vals N h (2 * k) t = vals N h0 (2 * k) t :=
      vals_congr fun x a b => by rw [g4 x (half a (by omega)) b, hz, L.actId (ll.inr x a b)]
    have e2 : vals N h (2 * k + 1) t = vals N h0 (2 * k + 1) t :=
      vals_congr fun x a b => by rw [g4 x (half a (by omega)) b, hz, L.actId (lr.inr x a b)]
    rw [e1, e2]
    refine L.op ?_ ?_ (ll.desc hB1) (lr.desc hB2)
    · intro v hv
      obtain ⟨x, a, b, rfl⟩ := mem_vals.1 hv
      exact ll.inr x a b
    · intro v hv
      obtain ⟨x, a, b, rfl⟩ := mem_vals.1 hv
      exact lr.inr x a b
  · exact ⟨by rw [hd, if_neg (nl hx)], by rw [hlz], hB' x (nl hx).symm⟩
  · exact ⟨by rw [hd, if_neg (nr hx)], by rw [hlz], hB' x (nr hx).symm⟩

end Beats
