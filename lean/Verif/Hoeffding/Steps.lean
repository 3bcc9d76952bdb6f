import Verif.Hoeffding.Leaf

/-!
The shape of the tree: it has one leaf, or it has been split once and then never again.
-/

namespace Orp.Hoeffding

set_option linter.unusedSectionVars false

variable {K : Type} [Field K] [LinearOrder K] {L : Nat}

/-- The tree before its split, trained with `h l` points of label `l` -/
structure OneLeaf (p : Params K) (h : Fin L → Nat) (s : Tree K L) : Prop where
  node : ∃ n, s.nodes = [n] ∧ n.split = -1 ∧ n.lbox = List.replicate p.sizes.length .ninf ∧ n.ubox = List.replicate p.sizes.length .pinf
  preset : s.preset = p.maxSize
  mem : p.nodeSize + p.total L ≤ p.maxSize
  block : Good p h (s.blocks 0)

/-- The tree after its split, trained with `h l` points of label `l` since -/
structure Split (p : Params K) (h : Fin L → Nat) (s : Tree K L) : Prop where
  node : ∃ root right left v, s.nodes = [root, right, left] ∧ (∃ f : Nat, root.split = f ∧ f < p.sizes.length) ∧ root.value = some v ∧ root.left = 2 ∧ root.right = 1 ∧
    right.split = -1 ∧ left.split = -1
  preset : s.preset = p.maxSize
  mem : 3 * p.nodeSize + p.total L ≤ p.maxSize
  block : Frozen p h (s.blocks 0)

/-- a new leaf -/
def freshNode (p : Params K) : Node K :=
  { split := -1, value := none, lbox := List.replicate p.sizes.length .ninf, ubox := List.replicate p.sizes.length .pinf, left := -1, right := -1 }

theorem total_pos (p : Params K) (L : Nat) : 0 < p.total L := by simp only [Params.total]; omega

theorem alloc_eq {p : Params K} {s : Tree K L} (hs : s.preset = p.maxSize) (n : Node K) :
    alloc p s n = if (s.nodes.length + 1) * p.nodeSize + p.total L ≤ p.maxSize then .ok { s with nodes := s.nodes ++ [n] } else .error .ub := by
  have e : (s.nodes.length + 1) * p.nodeSize = s.nodes.length * p.nodeSize + p.nodeSize := by ring
  simp only [alloc, hs, e]
  generalize s.nodes.length * p.nodeSize = a
  by_cases c : a + p.nodeSize + p.total L ≤ p.maxSize
  · rw [if_neg (by omega), if_pos c]
  · rw [if_pos (by omega), if_neg c]

theorem setBlock_leaf {p : Params K} {s : Tree K L} (hm : s.nodes.length * p.nodeSize + p.total L ≤ p.maxSize) (blk : Block K L) :
    setBlock p s (-1) blk = .ok { s with blocks := Function.update s.blocks 0 blk } := by
  simp only [setBlock, blockOf_leaf hm, bind, Except.bind, pure, Except.pure]

theorem getBlock_leaf {p : Params K} {s : Tree K L} (hm : s.nodes.length * p.nodeSize + p.total L ≤ p.maxSize) :
    getBlock p s (-1) = .ok (s.blocks 0) := by
  simp only [getBlock, blockOf_leaf hm, bind, Except.bind, pure, Except.pure]

theorem newNode_eq {p : Params K} {s : Tree K L} (hs : s.preset = p.maxSize) :
    newNode p s = if (s.nodes.length + 1) * p.nodeSize + p.total L ≤ p.maxSize then
      .ok { s with nodes := s.nodes ++ [freshNode p], blocks := Function.update s.blocks 0 (zeroBlock p) } else .error .ub := by
  have hq : - (((p.maxSize : Int) - (s.preset - (p.total L : Int))) / (p.total L : Int)) = -1 := by
    rw [hs]
    have : (p.maxSize : Int) - ((p.maxSize : Int) - (p.total L : Int)) = (p.total L : Int) := by ring
    rw [this, Int.ediv_self (by have := total_pos p L; omega)]
  simp only [newNode, hq, bind, Except.bind]
  rw [alloc_eq hs]
  by_cases c : (s.nodes.length + 1) * p.nodeSize + p.total L ≤ p.maxSize
  · rw [if_pos c, if_pos c]
    simp only []
    rw [setBlock_leaf (by simpa using c)]
    rfl
  · rw [if_neg c, if_neg c]

theorem copyNode_eq {p : Params K} {s : Tree K L} (hs : s.preset = p.maxSize) {n : Node K} (hn : n.split = -1) :
    copyNode p s n = if (s.nodes.length + 1) * p.nodeSize + p.total L ≤ p.maxSize then
      .ok { s with nodes := s.nodes ++ [{ n with value := none, left := -1, right := -1 }], blocks := Function.update s.blocks 0 (zeroBlock p) } else .error .ub := by
  simp only [copyNode, bind, Except.bind]
  rw [alloc_eq hs]
  by_cases c : (s.nodes.length + 1) * p.nodeSize + p.total L ≤ p.maxSize
  · rw [if_pos c, if_pos c]
    simp only []
    rw [hn, setBlock_leaf (by simpa using c)]
  · rw [if_neg c, if_neg c]

/-! ### Limits after a split -/

section limits
variable [IsStrictOrderedRing K]

theorem limit_nan (u : Dbl K) {sz i : Nat} (_hs : 1 ≤ sz) (hi : 1 ≤ i) :
    Dbl.add .ninf (Dbl.mul (.fin (i : K)) (Dbl.div (Dbl.sub u .ninf) (.fin (sz : K)))) = .nan := by
  have h1 : ¬ (sz : K) < 0 := not_lt.mpr (Nat.cast_nonneg sz)
  have h2 : (0 : K) < (i : K) := by exact_mod_cast hi
  cases u <;> simp [Dbl.sub, Dbl.neg, Dbl.add, Dbl.div, Dbl.mul, Dbl.infOf, h1, h2]

theorem featureLimits_nan (u : Dbl K) {sz : Nat} (hs : 1 ≤ sz) : ∀ (k i : Nat), 1 ≤ i → featureLimits .ninf u sz i k = List.replicate k .nan := by
  intro k
  induction k with
  | zero => intro i _; simp [featureLimits]
  | succ k ih => intro i hi; simp only [featureLimits, limit_nan u hs hi, ih (i + 1) (by omega), List.replicate_succ]

theorem newLimits_nan : ∀ (sizes : List Nat) (us : List (Dbl K)), us.length = sizes.length → (∀ sz ∈ sizes, 1 ≤ sz) →
    newLimits (List.replicate sizes.length .ninf) us sizes = (sizes.map (fun sz => List.replicate (sz - 1) .nan)).flatten := by
  intro sizes
  induction sizes with
  | nil => intro us _ _; cases us <;> simp [newLimits]
  | cons s rest ih =>
      intro us hu hpos
      match us, hu with
      | u :: us, hu =>
        simp only [List.length_cons, List.replicate_succ, newLimits, List.map_cons, List.flatten_cons]
        rw [featureLimits_nan u (hpos s (by simp)) _ _ (Nat.le_refl 1), ih us (by simpa using hu) (fun z hz => hpos z (by simp [hz]))]

theorem zero_bins (sizes : List Nat) (hpos : ∀ sz ∈ sizes, 1 ≤ sz) :
    List.replicate sizes.sum (fun _ : Fin L => 0) = (sizes.map (lastOnly (fun _ => 0))).flatten := by
  induction sizes with
  | nil => simp
  | cons s rest ih =>
      have h1 := hpos s (by simp)
      have h2 : lastOnly (fun _ : Fin L => 0) s = List.replicate s (fun _ => 0) := by
        obtain ⟨k, rfl⟩ : ∃ k, s = k + 1 := ⟨s - 1, by omega⟩
        simp [lastOnly, List.replicate_succ']
      simp only [List.map_cons, List.flatten_cons, List.sum_cons, h2, ← ih (fun z hz => hpos z (by simp [hz])), List.replicate_append_replicate]

/-- The split of the only leaf: it needs memory for two more nodes. -/
theorem splitNode_eq {p : Params K} (hp : p.Ok) {h : Fin L → Nat} {s : Tree K L} (hs : OneLeaf p h s) {f : Nat} (hf : f < p.sizes.length) (v : Dbl K) :
    (3 * p.nodeSize + p.total L ≤ p.maxSize → ∃ s', splitNode p s 0 f v = .ok s' ∧ Split p (fun _ => 0) s' ∧
      ∃ root right left, s'.nodes = [root, right, left] ∧ root.split = f ∧ root.value = some v) ∧
    (¬ 3 * p.nodeSize + p.total L ≤ p.maxSize → splitNode p s 0 f v = .error .ub) := by
  obtain ⟨⟨n, hn, hsp, hlb, hub⟩, hpre, hmem, hblk⟩ := hs
  have hfl : f < n.lbox.length := by rw [hlb]; simpa using hf
  have hfu : f < n.ubox.length := by rw [hub]; simpa using hf
  constructor
  · intro c3
    have c2 : (s.nodes.length + 1) * p.nodeSize + p.total L ≤ p.maxSize := by rw [hn]; simp only [List.length_cons, List.length_nil]; omega
    have h1 := newNode_eq (p := p) hpre
    rw [if_pos c2] at h1
    simp only [splitNode, h1, bind, Except.bind, hn, List.cons_append, List.nil_append]
    rw [rd_ok (by simp)]
    simp only [List.getElem_cons_zero]
    have h2 := copyNode_eq (p := p) (s := { s with nodes := [n, freshNode p], blocks := Function.update s.blocks 0 (zeroBlock p) }) hpre hsp
    rw [if_pos (by simp only [List.length_cons, List.length_nil]; omega)] at h2
    rw [h2]
    simp only [List.cons_append, List.nil_append, List.length_cons, List.length_nil]
    rw [wr_ok _ (by simp)]
    simp only [List.set_cons_zero]
    rw [rd_ok (by simp)]
    simp only [List.getElem_cons_succ, List.getElem_cons_zero]
    rw [wr_ok _ hfl]
    simp only []
    rw [wr_ok _ (by simp)]
    simp only [List.set_cons_zero, List.set_cons_succ]
    rw [rd_ok (by simp)]
    simp only [List.getElem_cons_succ, List.getElem_cons_zero]
    rw [wr_ok _ (by simpa using hfu)]
    simp only []
    rw [wr_ok _ (by simp)]
    simp only [List.set_cons_zero, List.set_cons_succ, selectSplitValues, bind, Except.bind]
    rw [rd_ok (by simp)]
    simp only [List.getElem_cons_succ, List.getElem_cons_zero, freshNode]
    rw [getBlock_leaf (by simp only [List.length_cons, List.length_nil]; omega)]
    simp only []
    rw [setBlock_leaf (by simp only [List.length_cons, List.length_nil]; omega)]
    simp only []
    rw [rd_ok (by simp)]
    simp only [List.getElem_cons_succ, List.getElem_cons_zero, hsp]
    rw [getBlock_leaf (by simp only [List.length_cons, List.length_nil]; omega)]
    simp only []
    rw [setBlock_leaf (by simp only [List.length_cons, List.length_nil]; omega)]
    refine ⟨_, rfl, ⟨⟨_, _, _, _, rfl, ⟨f, rfl, hf⟩, rfl, rfl, rfl, rfl, rfl⟩, hpre, c3, ?_⟩, ⟨_, _, _, rfl, rfl, rfl⟩⟩
    simp only [Function.update_self]
    refine ⟨by simp [zeroBlock], ?_, by simp [zeroBlock], ?_⟩
    · rw [hlb, newLimits_nan _ _ (by rw [hub]; simp) hp.pos, replicate_flatten _ _ hp.pos]
      rfl
    · exact zero_bins p.sizes hp.pos
  · intro c3
    have h1 := newNode_eq (p := p) hpre
    by_cases c2 : (s.nodes.length + 1) * p.nodeSize + p.total L ≤ p.maxSize
    · rw [if_pos c2] at h1
      simp only [splitNode, h1, bind, Except.bind, hn, List.cons_append, List.nil_append]
      rw [rd_ok (by simp)]
      simp only [List.getElem_cons_zero]
      have h2 := copyNode_eq (p := p) (s := { s with nodes := [n, freshNode p], blocks := Function.update s.blocks 0 (zeroBlock p) }) hpre hsp
      rw [if_neg (by simp only [List.length_cons, List.length_nil]; omega)] at h2
      rw [h2]
    · rw [if_neg c2] at h1
      simp only [splitNode, h1, bind, Except.bind]

end limits

/-! ### Sorting -/

theorem sort_one {p : Params K} {h : Fin L → Nat} {s : Tree K L} (hs : OneLeaf p h s) (x : Nat → K) : sortInLeaf p s x = .ok 0 := by
  obtain ⟨⟨n, hn, hsp, _, _⟩, _, _, _⟩ := hs
  simp only [sortInLeaf]
  cases p.maxSize / p.nodeSize with
  | zero => rfl
  | succ k =>
      simp only [sortLoop, hn, bind, Except.bind]
      rw [rd_ok (by simp)]
      simp [hsp, pure, Except.pure]

theorem sort_split {p : Params K} (hp : p.Ok) {h : Fin L → Nat} {s : Tree K L} (hs : Split p h s) (x : Nat → K) :
    ∃ id n, sortInLeaf p s x = .ok id ∧ (id = 1 ∨ id = 2) ∧ s.nodes[id]? = some n ∧ n.split = -1 := by
  obtain ⟨⟨root, right, left, v, hn, ⟨f, hf1, hf2⟩, hv, hl, hr, hrs, hls⟩, _, hm, _⟩ := hs
  have hk : 3 ≤ p.maxSize / p.nodeSize := by
    rw [Nat.le_div_iff_mul_le hp.node]; omega
  obtain ⟨k, hk⟩ : ∃ k, p.maxSize / p.nodeSize = k + 2 := ⟨p.maxSize / p.nodeSize - 2, by omega⟩
  have h0 : rd s.nodes 0 = .ok root := by rw [hn]; rfl
  have h1 : rd s.nodes 1 = .ok right := by rw [hn]; rfl
  have h2 : rd s.nodes 2 = .ok left := by rw [hn]; rfl
  simp only [sortInLeaf, hk, sortLoop, h0, bind, Except.bind, hf1, hv]
  rw [if_neg (by omega), Int.toNat_natCast, if_neg (by omega)]
  by_cases c : Dbl.le (.fin (x f)) v = true
  · rw [if_pos c, hl]
    rw [if_neg (by omega)]
    have : (2 : Int).toNat = 2 := rfl
    rw [this, h2]
    simp only [hls]
    exact ⟨2, left, rfl, Or.inr rfl, by rw [hn]; rfl, hls⟩
  · rw [if_neg c, hr]
    rw [if_neg (by omega)]
    have : (1 : Int).toNat = 1 := rfl
    rw [this, h1]
    simp only [hrs]
    exact ⟨1, right, rfl, Or.inl rfl, by rw [hn]; rfl, hrs⟩

/-! ### Boxes of the root stay infinite -/

theorem growUpper_inf (x : Nat → K) : ∀ (k f : Nat), growUpper x f (List.replicate k .pinf) = List.replicate k .pinf := by
  intro k
  induction k with
  | zero => intro f; simp [growUpper]
  | succ k ih => intro f; simp [List.replicate_succ, growUpper, ih, Dbl.lt]

theorem growLower_inf (x : Nat → K) : ∀ (k f : Nat), growLower x f (List.replicate k .ninf) = List.replicate k .ninf := by
  intro k
  induction k with
  | zero => intro f; simp [growLower]
  | succ k ih => intro f; simp [List.replicate_succ, growLower, ih, Dbl.lt]

/-! ### Limits given by the user -/

theorem split_limits (sizes : List Nat) : ∀ (lims : List (Dbl K)), (∀ sz ∈ sizes, 1 ≤ sz) → lims.length = sizes.sum - sizes.length →
    ∃ lgs : List (List (Dbl K)), lims = lgs.flatten ∧ lgs.map (fun g => g.length + 1) = sizes := by
  induction sizes with
  | nil => intro lims _ h; exact ⟨[], by simpa using h, rfl⟩
  | cons s rest ih =>
      intro lims hpos h
      have h1 := hpos s (by simp)
      have h2 := sum_ge_length rest (fun z hz => hpos z (by simp [hz]))
      simp only [List.sum_cons, List.length_cons] at h
      obtain ⟨lgs, e1, e2⟩ := ih (lims.drop (s - 1)) (fun z hz => hpos z (by simp [hz])) (by simp; omega)
      refine ⟨lims.take (s - 1) :: lgs, ?_, ?_⟩
      · rw [List.flatten_cons, ← e1, List.take_append_drop]
      · simp only [List.map_cons, e2, List.length_take]
        congr 1
        omega

theorem Good.setLimits {p : Params K} (hp : p.Ok) {h : Fin L → Nat} {b : Block K L} (hb : Good p h b) (lims : List (Dbl K)) (hl : lims.length = p.limitCount) :
    Good p h { b with limits := lims } := by
  obtain ⟨gs, _, e1, _, e3, _, e5⟩ := hb.parts
  obtain ⟨lgs, f1, f2⟩ := split_limits p.sizes lims hp.pos (by rw [hl]; rfl)
  exact ⟨hb.count, hb.info, gs, lgs, e1, f1, e3, f2, e5⟩

end Orp.Hoeffding
