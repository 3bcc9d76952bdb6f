import Verif.Hoeffding.Pure

/-!
Training a leaf: the counters stay consistent, the suggested split is one of the best cuts, and a leaf whose limits are all NaN never suggests a split.
-/

namespace Orp.Hoeffding

set_option linter.unusedSectionVars false

variable {K : Type} [Field K] [LinearOrder K] {L : Nat}

/-- Parameters for which a tree can be trained: every feature has a bin, and there are at least two cuts -/
structure Params.Ok (p : Params K) : Prop where
  pos : ∀ sz ∈ p.sizes, 1 ≤ sz
  two : 2 ≤ p.limitCount
  node : 0 < p.nodeSize

theorem sum_ge_length : ∀ (sizes : List Nat), (∀ sz ∈ sizes, 1 ≤ sz) → sizes.length ≤ sizes.sum := by
  intro sizes
  induction sizes with
  | nil => intro _; simp
  | cons a l ih =>
      intro h
      have h1 := ih (fun z hz => h z (by simp [hz]))
      have h2 := h a (by simp)
      simp only [List.length_cons, List.sum_cons]
      omega

theorem Params.Ok.limits {p : Params K} (hp : p.Ok) : p.limitCount + p.sizes.length = p.sizes.sum := by
  have := sum_ge_length p.sizes hp.pos
  simp only [Params.limitCount, Params.sum]
  omega

theorem Params.Ok.ne {p : Params K} (hp : p.Ok) : p.sizes ≠ [] := by
  intro h
  have := hp.limits
  have := hp.two
  simp [h] at *
  omega

/-! ### The two best cuts -/

/-- The result of the loop over the cuts `done` -/
def BestOf (g : List K) (i : Nat) (g0 g1 : K) : Prop :=
  g[i]? = some g0 ∧ (∀ y ∈ g, y ≤ g0) ∧ (∀ j y, j ≠ i → g[j]? = some y → y ≤ g1) ∧ ∃ j, j ≠ i ∧ g[j]? = some g1

theorem bestLoop_spec : ∀ (rest done : List K) (i : Nat) (g0 g1 : K), BestOf done i g0 g1 →
    BestOf (done ++ rest) (bestLoop i g0 g1 done.length rest).1 (bestLoop i g0 g1 done.length rest).2.1 (bestLoop i g0 g1 done.length rest).2.2 := by
  intro rest
  induction rest with
  | nil => intro done i g0 g1 h; simpa [bestLoop] using h
  | cons x rest ih =>
      intro done i g0 g1 h
      have hi : i < done.length := by
        have := h.1
        exact (List.getElem?_eq_some_iff.mp this).1
      obtain ⟨h1, h2, h3, jj, hj1, hj2⟩ := h
      have hjj : jj < done.length := (List.getElem?_eq_some_iff.mp hj2).1
      have e : done ++ x :: rest = (done ++ [x]) ++ rest := by simp
      have el : done.length + 1 = (done ++ [x]).length := by simp
      simp only [bestLoop]
      have get : ∀ j y, (done ++ [x])[j]? = some y → done[j]? = some y ∨ (j = done.length ∧ y = x) := by
        intro j y hy
        by_cases hj : j < done.length
        · left; rw [List.getElem?_append_left hj] at hy; exact hy
        · right
          rw [List.getElem?_append_right (by omega)] at hy
          have hjl : j - done.length = 0 := by
            have := (List.getElem?_eq_some_iff.mp hy).1
            simp at this; omega
          rw [hjl] at hy
          simp at hy
          exact ⟨by omega, hy.symm⟩
      by_cases c1 : g0 < x
      · rw [if_pos c1, e, el]
        refine ih (done ++ [x]) done.length x g0 ⟨by simp, ?_, ?_, ⟨i, by omega, ?_⟩⟩
        · intro y hy
          rcases List.mem_append.mp hy with hy | hy
          · exact le_of_lt (lt_of_le_of_lt (h2 y hy) c1)
          · simp at hy; exact le_of_eq hy
        · intro j y hj hy
          rcases get j y hy with hy | ⟨hy, _⟩
          · exact h2 y (List.mem_of_getElem? hy)
          · exact absurd hy hj
        · rw [List.getElem?_append_left hi]; exact h1
      · rw [if_neg c1]
        by_cases c2 : g1 < x
        · rw [if_pos c2, e, el]
          refine ih (done ++ [x]) i g0 x ⟨?_, ?_, ?_, ⟨done.length, by omega, by simp⟩⟩
          · rw [List.getElem?_append_left hi]; exact h1
          · intro y hy
            rcases List.mem_append.mp hy with hy | hy
            · exact h2 y hy
            · simp at hy; rw [hy]; exact le_of_not_gt c1
          · intro j y hj hy
            rcases get j y hy with hy | ⟨_, hy⟩
            · exact le_of_lt (lt_of_le_of_lt (h3 j y hj hy) c2)
            · exact le_of_eq hy
        · rw [if_neg c2, e, el]
          refine ih (done ++ [x]) i g0 g1 ⟨?_, ?_, ?_, ⟨jj, hj1, ?_⟩⟩
          · rw [List.getElem?_append_left hi]; exact h1
          · intro y hy
            rcases List.mem_append.mp hy with hy | hy
            · exact h2 y hy
            · simp at hy; rw [hy]; exact le_of_not_gt c1
          · intro j y hj hy
            rcases get j y hy with hy | ⟨_, hy⟩
            · exact h3 j y hj hy
            · rw [hy]; exact le_of_not_gt c2
          · rw [List.getElem?_append_left hjj]; exact hj2

/-- With at least two cuts, `bestTwo` finds the best and the second best. -/
theorem bestTwo_spec {g : List K} (h : 2 ≤ g.length) : ∃ i g0 g1, bestTwo g = .ok (i, g0, g1) ∧ BestOf g i g0 g1 := by
  match g, h with
  | a :: b :: rest, _ =>
    simp only [bestTwo]
    by_cases c : a < b
    · rw [if_pos c]
      have := bestLoop_spec rest [a, b] 1 b a ⟨by simp, by simp [le_of_lt c], by
        intro j y hj hy
        have := (List.getElem?_eq_some_iff.mp hy).1
        have hj0 : j = 0 := by simp at this; omega
        subst hj0; simp at hy; exact le_of_eq hy.symm, ⟨0, by omega, by simp⟩⟩
      exact ⟨_, _, _, rfl, this⟩
    · rw [if_neg c]
      have := bestLoop_spec rest [a, b] 0 a b ⟨by simp, by simp [le_of_not_gt c], by
        intro j y hj hy
        have := (List.getElem?_eq_some_iff.mp hy).1
        have hj0 : j = 1 := by simp at this; omega
        subst hj0; simp at hy; exact le_of_eq hy.symm, ⟨1, by omega, by simp⟩⟩
      exact ⟨_, _, _, rfl, this⟩

theorem bestTwo_few {g : List K} (h : g.length < 2) : bestTwo g = .error .ub := by
  match g, h with
  | [], _ => rfl
  | [_], _ => rfl

/-! ### The block of a leaf -/

/-- The counters of a leaf trained with `h l` points of each label -/
structure Good (p : Params K) (h : Fin L → Nat) (b : Block K L) : Prop where
  count : b.count = ∑ l, h l
  info : b.infoSum.length = p.limitCount
  parts : ∃ (gs : List (List (Fin L → Nat))) (lgs : List (List (Dbl K))), b.bins = gs.flatten ∧ b.limits = lgs.flatten ∧ gs.map List.length = p.sizes ∧
    lgs.map (fun g => g.length + 1) = p.sizes ∧ ∀ g ∈ gs, tally g = h

theorem length_flatten_limits : ∀ (lgs : List (List (Dbl K))), lgs.flatten.length + lgs.length = (lgs.map (fun g => g.length + 1)).sum := by
  intro lgs
  induction lgs with
  | nil => simp
  | cons g lgs ih => simp at ih ⊢; omega

theorem Good.limits_length {p : Params K} (hp : p.Ok) {h : Fin L → Nat} {b : Block K L} (hb : Good p h b) : b.limits.length = p.limitCount := by
  obtain ⟨gs, lgs, _, e2, _, e4, _⟩ := hb.parts
  have h1 := length_flatten_limits lgs
  have h2 := hp.limits
  have h3 : lgs.length = p.sizes.length := by rw [← e4]; simp
  rw [e4] at h1
  rw [e2]
  omega

/-- The best average information gain of a block, with the cut it belongs to: what the block suggests -/
def Suggests (p : Params K) (b : Block K L) (f : Nat) (v : Dbl K) : Prop :=
  ∃ best g0, b.limits[best]? = some v ∧ f = decode p.sizes best ∧ (b.infoSum.map (fun a => a / (b.count : K)))[best]? = some g0 ∧ 0 < g0 ∧
    ∀ y ∈ b.infoSum.map (fun a => a / (b.count : K)), y ≤ g0

theorem decodeLoop_lt (i : Nat) : ∀ (rest : List Nat) (f acc : Nat), decodeLoop i f acc rest < f + rest.length + 1 := by
  intro rest
  induction rest with
  | nil => intro f acc; simp [decodeLoop]
  | cons a rest ih =>
      intro f acc
      simp only [decodeLoop]
      split
      · omega
      · have := ih (f + 1) (acc + a)
        simp only [List.length_cons]; omega

theorem decode_lt {sizes : List Nat} (h : sizes ≠ []) (i : Nat) : decode sizes i < sizes.length := by
  match sizes, h with
  | a :: rest, _ =>
    have := decodeLoop_lt i rest 0 a
    simp only [decode, List.length_cons]; omega

/-- the node after the update of its box -/
def grown (x : Nat → K) (n : Node K) : Node K := { n with lbox := growLower x 0 n.lbox, ubox := growUpper x 0 n.ubox }

/-- the block after the counters and the information gains are updated -/
def filled (b : Block K L) (bins : List (Fin L → Nat)) (g : List K) : Block K L :=
  { b with count := b.count + 1, infoSum := List.zipWith (· + ·) b.infoSum g, bins := bins }

theorem blockOf_leaf {p : Params K} {s : Tree K L} (hm : s.nodes.length * p.nodeSize + p.total L ≤ p.maxSize) : blockOf p s (-1) = .ok 0 := by
  have h : ((s.nodes.length * p.nodeSize : Nat) : Int) ≤ (p.maxSize : Int) + (-1) * (p.total L : Int) := by
    have : ((s.nodes.length * p.nodeSize + p.total L : Nat) : Int) ≤ (p.maxSize : Int) := by exact_mod_cast hm
    push_cast at this ⊢
    linarith
  simp only [blockOf]
  rw [if_pos ⟨by omega, h⟩]
  rfl

/-- the state after a leaf has been trained -/
def trained (s : Tree K L) (id : Nat) (n : Node K) (b : Block K L) : Tree K L :=
  { s with nodes := s.nodes.set id n, blocks := Function.update s.blocks 0 b }

/-- `trainNode` on a leaf, in terms of the steps that can fail -/
theorem trainNode_eq {p : Params K} {s : Tree K L} {id : Nat} {n : Node K} {x : Nat → K} {label : Fin L} {bins : List (Fin L → Nat)} {g : List K}
    (hn : s.nodes[id]? = some n) (hl : n.split = -1) (hm : s.nodes.length * p.nodeSize + p.total L ≤ p.maxSize)
    (hb : fillBins (s.blocks 0).limits x label 0 0 p.sizes (s.blocks 0).bins = .ok bins) (hg : gains p ((s.blocks 0).count + 1) bins = .ok g) :
    trainNode p s id x label =
      (do let r ← bestTwo ((filled (s.blocks 0) bins g).infoSum.map (fun a => a / (((s.blocks 0).count + 1 : Nat) : K)))
          if 4 * p.log (1 / p.delta) / (2 * (((s.blocks 0).count + 1 : Nat) : K)) < (r.2.1 - r.2.2) * (r.2.1 - r.2.2) ∧ 0 < r.2.1 then do
            let v ← rd (s.blocks 0).limits r.1
            return (trained s id (grown x n) (filled (s.blocks 0) bins g), some (decode p.sizes r.1, v))
          else return (trained s id (grown x n) (filled (s.blocks 0) bins g), none)) := by
  have h1 : rd s.nodes id = .ok n := rd_eq_ok_iff.mpr hn
  have hid : id < s.nodes.length := (List.getElem?_eq_some_iff.mp hn).1
  have h2 : getBlock p s (-1) = .ok (s.blocks 0) := by simp only [getBlock, blockOf_leaf hm, bind, Except.bind, pure, Except.pure]
  have h3 : ∀ (ns : List (Node K)), ns.length = s.nodes.length → ∀ blk : Block K L, setBlock p { s with nodes := ns } (-1) blk
      = .ok { s with nodes := ns, blocks := Function.update s.blocks 0 blk } := by
    intro ns hns blk
    have hm' : ({ s with nodes := ns } : Tree K L).nodes.length * p.nodeSize + p.total L ≤ p.maxSize := by simpa [hns] using hm
    simp only [setBlock, blockOf_leaf hm', bind, Except.bind, pure, Except.pure]
  simp only [trainNode, h1, hl, h2, wr_ok _ hid, hb, hg, bind, Except.bind]
  rw [h3 _ (by simp)]
  simp only [trained, grown, filled, hl, pure, Except.pure]

theorem zipWith_len {a b : List K} (h : a.length = b.length) : (List.zipWith (· + ·) a b).length = a.length := by simp [h]

/-- Training a leaf whose counters are consistent keeps them consistent; the suggested split, if any, belongs to a best cut. -/
theorem trainNode_good {p : Params K} (hp : p.Ok) {s : Tree K L} {id : Nat} {n : Node K} {h : Fin L → Nat} (x : Nat → K) (label : Fin L)
    (hn : s.nodes[id]? = some n) (hl : n.split = -1) (hm : s.nodes.length * p.nodeSize + p.total L ≤ p.maxSize) (hb : Good p h (s.blocks 0)) :
    ∃ b' r, trainNode p s id x label = .ok (trained s id (grown x n) b', r) ∧ Good p (bump h label) b' ∧
      ∀ f v, r = some (f, v) → f < p.sizes.length ∧ Suggests p b' f v := by
  obtain ⟨gs, lgs, e1, e2, e3, e4, e5⟩ := hb.parts
  have hfill := fillBins_eq x label [] gs lgs 0 [] [] (by rw [e3, e4]) rfl
  simp only [List.nil_append, List.append_nil, List.length_nil] at hfill
  rw [e3, ← e1, ← e2] at hfill
  have hlen : (addPoint x label 0 gs lgs).map List.length = p.sizes := by rw [addPoint_lengths x label gs lgs 0 (by rw [e3, e4]), e3]
  have htal := addPoint_tally x label h gs lgs 0 (by rw [e3, e4]) e5
  have hne : addPoint x label 0 gs lgs ≠ [] := by
    intro h0; rw [h0] at hlen; exact hp.ne hlen.symm
  have hg := gains_eq p ((s.blocks 0).count + 1) (addPoint x label 0 gs lgs) (bump h label) hlen hne htal
  have hpos : ∀ g ∈ addPoint x label 0 gs lgs, 1 ≤ g.length := by
    intro g hgm
    apply hp.pos
    rw [← hlen]
    exact List.mem_map_of_mem hgm
  have hglen := length_flatMap_gains p ((s.blocks 0).count + 1) (bump h label) _ hpos
  have hgl : (addPoint x label 0 gs lgs).length = p.sizes.length := by rw [← hlen]; simp
  rw [hlen, hgl] at hglen
  have hlims := hp.limits
  have hinfo : (List.zipWith (· + ·) (s.blocks 0).infoSum ((addPoint x label 0 gs lgs).flatMap (gainsOf p ((s.blocks 0).count + 1) (bump h label)))).length = p.limitCount := by
    rw [zipWith_len (by rw [hb.info]; omega), hb.info]
  have hgood : Good p (bump h label) (filled (s.blocks 0) (addPoint x label 0 gs lgs).flatten
      ((addPoint x label 0 gs lgs).flatMap (gainsOf p ((s.blocks 0).count + 1) (bump h label)))) := by
    refine ⟨?_, hinfo, addPoint x label 0 gs lgs, lgs, rfl, e2, hlen, e4, htal⟩
    rw [sum_bump, ← hb.count]
    rfl
  have heq := trainNode_eq (n := n) hn hl hm hfill hg
  obtain ⟨i, g0, g1, hbt, hbo⟩ := bestTwo_spec (g := (filled (s.blocks 0) (addPoint x label 0 gs lgs).flatten
      ((addPoint x label 0 gs lgs).flatMap (gainsOf p ((s.blocks 0).count + 1) (bump h label)))).infoSum.map (fun a => a / (((s.blocks 0).count + 1 : Nat) : K)))
      (by simp only [List.length_map]; rw [hgood.info]; exact hp.two)
  rw [heq, hbt]
  simp only [bind, Except.bind, pure, Except.pure]
  by_cases c : 4 * p.log (1 / p.delta) / (2 * (((s.blocks 0).count + 1 : Nat) : K)) < (g0 - g1) * (g0 - g1) ∧ 0 < g0
  · rw [if_pos c]
    have hi : i < (s.blocks 0).limits.length := by
      have := (List.getElem?_eq_some_iff.mp hbo.1).1
      simp only [List.length_map, hgood.info] at this
      rw [hb.limits_length hp]; exact this
    rw [rd_ok hi]
    refine ⟨_, _, rfl, hgood, ?_⟩
    rintro f v hfv
    simp only [Option.some.injEq, Prod.mk.injEq] at hfv
    obtain ⟨rfl, rfl⟩ := hfv
    refine ⟨decode_lt hp.ne _, i, g0, ?_, rfl, hbo.1, c.2, hbo.2.1⟩
    simp [filled, hi]
  · rw [if_neg c]
    exact ⟨_, _, rfl, hgood, by simp⟩

/-! ### Leaves whose limits are NaN -/

/-- The bins of one feature when all points are in the last one -/
def lastOnly (h : Fin L → Nat) (sz : Nat) : List (Fin L → Nat) := List.replicate (sz - 1) (fun _ => 0) ++ [h]

/-- The block of a leaf created by a split -/
structure Frozen (p : Params K) (h : Fin L → Nat) (b : Block K L) : Prop where
  count : b.count = ∑ l, h l
  limits : b.limits = List.replicate p.limitCount .nan
  info : b.infoSum = List.replicate p.limitCount 0
  bins : b.bins = (p.sizes.map (lastOnly h)).flatten

theorem replicate_flatten {α : Type} (a : α) : ∀ (sizes : List Nat), (∀ sz ∈ sizes, 1 ≤ sz) →
    (sizes.map (fun sz => List.replicate (sz - 1) a)).flatten = List.replicate (sizes.sum - sizes.length) a := by
  intro sizes
  induction sizes with
  | nil => intro _; simp
  | cons s rest ih =>
      intro h
      have h1 := h s (by simp)
      have h2 := sum_ge_length rest (fun z hz => h z (by simp [hz]))
      simp only [List.map_cons, List.flatten_cons, ih (fun z hz => h z (by simp [hz])), List.sum_cons, List.length_cons, List.replicate_append_replicate]
      congr 1
      omega

theorem tally_replicate_zero (n : Nat) : tally (List.replicate n (fun _ : Fin L => 0)) = fun _ => 0 := by
  funext l; simp [tally]

theorem tally_lastOnly (h : Fin L → Nat) (sz : Nat) : tally (lastOnly h sz) = h := by
  funext l
  rw [lastOnly, tally_append, tally_replicate_zero]
  simp [tally]

theorem length_lastOnly (h : Fin L → Nat) {sz : Nat} (hs : 1 ≤ sz) : (lastOnly h sz).length = sz := by
  simp [lastOnly]; omega

theorem lengths_lastOnly (h : Fin L → Nat) {sizes : List Nat} (hs : ∀ sz ∈ sizes, 1 ≤ sz) : (sizes.map (lastOnly h)).map List.length = sizes := by
  rw [List.map_map]
  conv_rhs => rw [← List.map_id sizes]
  apply List.map_congr_left
  intro sz hsz
  simp [length_lastOnly h (hs sz hsz)]

theorem lengths_nan {sizes : List Nat} (hs : ∀ sz ∈ sizes, 1 ≤ sz) :
    (sizes.map (fun sz => List.replicate (sz - 1) (Dbl.nan : Dbl K))).map (fun g => g.length + 1) = sizes := by
  rw [List.map_map]
  conv_rhs => rw [← List.map_id sizes]
  apply List.map_congr_left
  intro sz hsz
  have := hs sz hsz
  simp
  omega

theorem Frozen.good {p : Params K} (hp : p.Ok) {h : Fin L → Nat} {b : Block K L} (hb : Frozen p h b) : Good p h b := by
  refine ⟨hb.count, by rw [hb.info]; simp, p.sizes.map (lastOnly h), p.sizes.map (fun sz => List.replicate (sz - 1) .nan), hb.bins, ?_, lengths_lastOnly h hp.pos,
    lengths_nan hp.pos, ?_⟩
  · rw [hb.limits, replicate_flatten _ _ hp.pos]; rfl
  · intro g hg
    obtain ⟨sz, _, rfl⟩ := List.mem_map.mp hg
    exact tally_lastOnly h sz

theorem binOf_nan (n : Nat) (x : K) : binOf (List.replicate n (Dbl.nan : Dbl K)) x = n := by
  induction n with
  | zero => simp [binOf]
  | succ n ih =>
      simp only [binOf] at ih
      simp only [binOf, List.replicate_succ, List.findIdx_cons, Dbl.lt_nan_right, ih, cond_false]

theorem addTo_lastOnly (h : Fin L → Nat) (label : Fin L) (sz : Nat) : addTo (lastOnly h sz) (sz - 1) label = lastOnly (bump h label) sz := by
  simp only [addTo, lastOnly]
  generalize sz - 1 = n
  induction n with
  | zero => simp
  | succ n ih => simpa [List.replicate_succ] using ih

theorem addPoint_lastOnly (x : Nat → K) (h : Fin L → Nat) (label : Fin L) : ∀ (sizes : List Nat) (f : Nat),
    addPoint x label f (sizes.map (lastOnly h)) (sizes.map (fun sz => List.replicate (sz - 1) .nan)) = sizes.map (lastOnly (bump h label)) := by
  intro sizes
  induction sizes with
  | nil => intro f; simp [addPoint]
  | cons s rest ih => intro f; simp only [List.map_cons, addPoint, binOf_nan, addTo_lastOnly, ih]

variable [IsStrictOrderedRing K]

/-- A cut that leaves all points on one side gains nothing. -/
theorem gainAt_lastOnly (p : Params K) (h : Fin L → Nat) (hc : 0 < ∑ l, h l) {sz n : Nat} (hn : n ≤ sz - 1) : gainAt p (∑ l, h l) h (lastOnly h sz) n = 0 := by
  have e0 : tally ((lastOnly h sz).take n) = fun _ => 0 := by
    rw [lastOnly, List.take_append_of_le_length (by simpa using hn), List.take_replicate, tally_replicate_zero]
  have e1 : tally ((lastOnly h sz).drop n) = h := by
    have := tally_lastOnly h sz
    funext l
    have h1 := congrFun this l
    rw [← List.take_append_drop n (lastOnly h sz), tally_append, e0] at h1
    simpa using h1
  have hsum : (∑ l, (((h l : Nat) : Int) : K)) = (((∑ l, h l : Nat)) : K) := by push_cast; rfl
  have hne : (((∑ l, h l : Nat)) : K) ≠ 0 := by exact_mod_cast hc.ne'
  simp only [gainAt, leafEntropy, cutAt, cutEntropy, e0, e1, hsum]
  simp only [Nat.cast_zero, Int.cast_zero, Finset.sum_const_zero, zero_add]
  have r1 : ratio (((∑ l, h l : Nat)) : K) (((∑ l, h l : Nat)) : K) = 1 := by rw [ratio, if_neg hne, div_self hne]
  have r0 : ratio (0 : K) (((∑ l, h l : Nat)) : K) = 0 := by simp [ratio]
  rw [r1, r0]
  ring

theorem gains_lastOnly (p : Params K) (h : Fin L → Nat) (hc : 0 < ∑ l, h l) : ∀ (sizes : List Nat),
    (sizes.map (lastOnly h)).flatMap (gainsOf p (∑ l, h l) h) = List.replicate ((sizes.map (lastOnly h)).flatMap (gainsOf p (∑ l, h l) h)).length 0 := by
  intro sizes
  rw [List.eq_replicate_iff]
  refine ⟨rfl, ?_⟩
  intro y hy
  obtain ⟨g, hg, hy⟩ := List.mem_flatMap.mp hy
  obtain ⟨sz, _, rfl⟩ := List.mem_map.mp hg
  obtain ⟨v, hv, rfl⟩ := List.mem_map.mp hy
  have hv' := List.mem_range.mp hv
  apply gainAt_lastOnly p h hc
  simp [lastOnly] at hv'
  omega

/-- A leaf whose limits are NaN stays so, and never suggests a split. -/
theorem trainNode_frozen {p : Params K} (hp : p.Ok) {s : Tree K L} {id : Nat} {n : Node K} {h : Fin L → Nat} (x : Nat → K) (label : Fin L)
    (hn : s.nodes[id]? = some n) (hl : n.split = -1) (hm : s.nodes.length * p.nodeSize + p.total L ≤ p.maxSize) (hb : Frozen p h (s.blocks 0)) :
    ∃ b', trainNode p s id x label = .ok (trained s id (grown x n) b', none) ∧ Frozen p (bump h label) b' := by
  have hfill := fillBins_eq x label [] (p.sizes.map (lastOnly h)) (p.sizes.map (fun sz => List.replicate (sz - 1) .nan)) 0 [] []
    (by rw [lengths_lastOnly h hp.pos, lengths_nan hp.pos]) rfl
  simp only [List.nil_append, List.append_nil, List.length_nil] at hfill
  rw [lengths_lastOnly h hp.pos, addPoint_lastOnly, ← hb.bins, replicate_flatten _ _ hp.pos] at hfill
  have hfill' : fillBins (s.blocks 0).limits x label 0 0 p.sizes (s.blocks 0).bins = .ok (p.sizes.map (lastOnly (bump h label))).flatten := by
    rw [hb.limits]; exact hfill
  have hcount : (s.blocks 0).count + 1 = ∑ l, bump h label l := by rw [sum_bump, hb.count]
  have hg := gains_eq p ((s.blocks 0).count + 1) (p.sizes.map (lastOnly (bump h label))) (bump h label) (lengths_lastOnly _ hp.pos) (by simpa using hp.ne) (by
    intro g hg
    obtain ⟨sz, _, rfl⟩ := List.mem_map.mp hg
    exact tally_lastOnly _ sz)
  have hglen := length_flatMap_gains p ((s.blocks 0).count + 1) (bump h label) (p.sizes.map (lastOnly (bump h label))) (by
    intro g hg
    obtain ⟨sz, hsz, rfl⟩ := List.mem_map.mp hg
    rw [length_lastOnly _ (hp.pos sz hsz)]; exact hp.pos sz hsz)
  rw [lengths_lastOnly _ hp.pos, List.length_map] at hglen
  have hlims := hp.limits
  rw [hcount] at hg hglen
  rw [gains_lastOnly p (bump h label) (by rw [sum_bump]; omega)] at hg
  have hlen : ((p.sizes.map (lastOnly (bump h label))).flatMap (gainsOf p (∑ l, bump h label l) (bump h label))).length = p.limitCount := by omega
  rw [hlen, ← hcount] at hg
  have heq := trainNode_eq (n := n) hn hl hm hfill' hg
  have hinfo : (filled (s.blocks 0) (p.sizes.map (lastOnly (bump h label))).flatten (List.replicate p.limitCount 0)).infoSum = List.replicate p.limitCount 0 := by
    simp [filled, hb.info]
  obtain ⟨i, g0, g1, hbt, hbo⟩ := bestTwo_spec (g := (filled (s.blocks 0) (p.sizes.map (lastOnly (bump h label))).flatten
      (List.replicate p.limitCount 0)).infoSum.map (fun a => a / (((s.blocks 0).count + 1 : Nat) : K))) (by rw [hinfo]; simpa using hp.two)
  have hg0 : g0 = 0 := by
    have := List.mem_of_getElem? hbo.1
    rw [hinfo] at this
    simp at this
    exact this.2
  rw [heq, hbt]
  simp only [bind, Except.bind, pure, Except.pure]
  rw [if_neg (by rw [hg0]; simp)]
  refine ⟨_, rfl, hcount, hb.limits, hinfo, rfl⟩

end Orp.Hoeffding
