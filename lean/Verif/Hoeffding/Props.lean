import Verif.Hoeffding.Witness
import Verif.Hoeffding.Decode
import Verif.Utils.Props

/-!
Properties of the Hoeffding tree. `p.Ok` says: every feature has at least one bin, there are at least two limits in all, and a node has a positive size. A history is
a list of calls on the tree or on the root it exposes.
-/

namespace Orp.Hoeffding

set_option linter.unusedSectionVars false

variable {K : Type} [Field K] [LinearOrder K] [IsStrictOrderedRing K] {L : Nat}

/-! ### Scores -/

theorem argmaxLoop_eq : ∀ (ys : List K) (best i : Nat) (v : K), argmaxLoop best (.fin v) i (ys.map Dbl.fin) = Utils.indexMaxFrom best v i ys := by
  intro ys
  induction ys with
  | nil => intro best i v; rfl
  | cons y ys ih => intro best i v; simp [argmaxLoop, Utils.indexMaxFrom, Dbl.lt, ih]

theorem argmax_eq (ys : List K) : argmax (ys.map Dbl.fin) = Utils.indexMax ys := by
  cases ys with
  | nil => rfl
  | cons y ys => simp [argmax, Utils.indexMax, argmaxLoop_eq]

theorem scores_pos {h : Fin L → Nat} (hc : 0 < ∑ l, h l) :
    (scoresOf (fun l => (h l : Int)) : List (Dbl K)) = (List.ofFn (fun l => (h l : K) / ((∑ l, h l : Nat) : K))).map Dbl.fin := by
  have hne : ((∑ l, h l : Nat) : K) ≠ 0 := by exact_mod_cast hc.ne'
  have hs : (∑ k, (((h k : Nat) : Int) : K)) = ((∑ l, h l : Nat) : K) := by push_cast; rfl
  rw [List.map_ofFn]
  simp only [scoresOf, hs]
  congr 1
  funext l
  simp [Dbl.div, hne]
  intro h0
  exact absurd (by push_cast; exact h0) hne

theorem scores_zero : (scoresOf (fun _ : Fin L => ((0 : Nat) : Int)) : List (Dbl K)) = List.replicate L .nan := by
  simp [scoresOf, Dbl.div, Dbl.infOf]

theorem argmax_nan (n : Nat) : argmax (List.replicate n (.nan : Dbl K)) = 0 := by
  cases n with
  | zero => rfl
  | succ n =>
      simp only [List.replicate_succ, argmax]
      have : ∀ (k i : Nat), argmaxLoop 0 (.nan : Dbl K) i (List.replicate k .nan) = 0 := by
        intro k
        induction k with
        | zero => intro i; rfl
        | succ k ih => intro i; simp [List.replicate_succ, argmaxLoop, Dbl.lt, ih]
      exact this n 1

theorem majority {h : Fin L → Nat} (hc : 0 < ∑ l, h l) : IsMajority h (argmax (scoresOf (fun l => (h l : Int)) : List (Dbl K))) := by
  have hL : 0 < L := by
    rcases Nat.eq_zero_or_pos L with rfl | h0
    · simp at hc
    · exact h0
  have hpos : (0 : K) < ((∑ l, h l : Nat) : K) := by exact_mod_cast hc
  rw [scores_pos hc, argmax_eq]
  obtain ⟨hlt, hmax, hfirst⟩ := Utils.C32_index_max (l := List.ofFn (fun l => (h l : K) / ((∑ l, h l : Nat) : K))) (by
    intro h0
    have := congrArg List.length h0
    simp at this; omega)
  have hlt' : Utils.indexMax (List.ofFn (fun l => (h l : K) / ((∑ l, h l : Nat) : K))) < L := by simpa using hlt
  refine ⟨hlt', ?_, ?_⟩
  · intro j
    have := hmax ((h j : K) / ((∑ l, h l : Nat) : K)) (by simp [List.mem_ofFn])
    rw [List.getElem_ofFn, div_le_div_iff_of_pos_right hpos] at this
    exact_mod_cast this
  · intro j hj
    have := hfirst j.val (by simp) hj
    rw [List.getElem_ofFn, List.getElem_ofFn, div_lt_div_iff_of_pos_right hpos] at this
    exact_mod_cast this

/-! ### C48: predictions depend on the region of the point -/

/-- **C48** is violated, for every history: the prediction and the scores do not depend on the point. (All leaves share one block of counters.) -/
theorem C48_prediction_ignores_features {p : Params K} (hp : p.Ok) {ops : List (Op K L)} {s0 s : Tree K L} (h0 : new p = .ok s0) (hr : run p ops s0 = .ok s) (x y : Nat → K) :
    ∃ r, predict p s x = .ok r ∧ predict p s y = .ok r := by
  rcases run_cases hp h0 hr with h | ⟨k, _, h⟩
  · exact ⟨_, h.predict hp x, h.predict hp y⟩
  · exact ⟨_, h.predict hp x, h.predict hp y⟩

/-- **C48** What the tree predicts: the most frequent label among all training points, or, if the root has been split, among those from the call that split it on. -/
theorem C48_prediction_is_majority {p : Params K} (hp : p.Ok) {ops : List (Op K L)} {s0 s : Tree K L} (h0 : new p = .ok s0) (hr : run p ops s0 = .ok s) :
    ∃ k, (s.nodes.length = 1 → k = 0) ∧ ∀ x, ∃ label scores, predict p s x = .ok (label, scores) ∧
      (labels (ops.drop k) ≠ [] → IsMajority (hist (ops.drop k)) label) ∧ (labels (ops.drop k) = [] → label = 0) := by
  have fin : ∀ (t : List (Op K L)), (labels t ≠ [] → IsMajority (hist t) (argmax (scoresOf (fun l => (hist t l : Int)) : List (Dbl K)))) ∧
      (labels t = [] → argmax (scoresOf (fun l => (hist t l : Int)) : List (Dbl K)) = 0) := by
    intro t
    constructor
    · intro hne
      apply majority
      obtain ⟨a, ha⟩ := List.exists_mem_of_ne_nil _ hne
      have h1 : 0 < hist t a := List.count_pos_iff.mpr ha
      have h2 := Finset.single_le_sum (f := hist t) (fun i _ => Nat.zero_le _) (Finset.mem_univ a)
      omega
    · intro he
      have : hist t = fun _ => 0 := by funext l; simp [hist, he]
      rw [this]
      have h2 := scores_zero (K := K) (L := L)
      rw [h2, argmax_nan]
  rcases run_cases hp h0 hr with h | ⟨k, _, h⟩
  · exact ⟨0, fun _ => rfl, fun x => ⟨_, _, h.predict hp x, fin _⟩⟩
  · exact ⟨k, fun h1 => by rw [h.nodes_length] at h1; omega, fun x => ⟨_, _, h.predict hp x, fin _⟩⟩

/-! ### C49: the split feature -/

/-- **C49** is violated: with the real logarithms, two training points split the root on feature 0 at the value 5, which is the limit of feature 1. (The points agree on
feature 0.) -/
theorem C49_wrong_feature : ∃ s0 s root right left, new (Witness.params 284) = .ok s0 ∧ run (Witness.params 284) Witness.history s0 = .ok s ∧
    s.nodes = [root, right, left] ∧ root.split = 0 ∧ root.value = some (Witness.limits 2) ∧ featureOfLimit (Witness.params 284).sizes 2 = 1 := by
  obtain ⟨s0, s, root, right, left, h1, h2, h3, h4, h5⟩ := Witness.splits (size := 284) (le_refl _)
  exact ⟨s0, s, root, right, left, h1, h2, h3, h4, h5, rfl⟩

/-- **C49**, exactly: the suggested split value is a limit whose average information gain is largest; the suggested feature is the one it belongs to if and only if the
position of the limit among the limits of its feature is at least the number of the feature, and is a smaller one otherwise. -/
theorem C49_split_partial {p : Params K} (hp : p.Ok) {ops : List (Op K L)} {s0 s s' : Tree K L} (h0 : new p = .ok s0) (hr : run p ops s0 = .ok s)
    {x : Nat → K} {label : Fin L} {f : Nat} {v : Dbl K} (ht : trainNode p s 0 x label = .ok (s', some (f, v))) :
    ∃ best gain, (s'.blocks 0).limits[best]? = some v ∧ best < p.limitCount ∧
      ((s'.blocks 0).infoSum.map (fun a => a / ((s'.blocks 0).count : K)))[best]? = some gain ∧ 0 < gain ∧
      (∀ y ∈ (s'.blocks 0).infoSum.map (fun a => a / ((s'.blocks 0).count : K)), y ≤ gain) ∧
      (f = featureOfLimit p.sizes best ↔ featureOfLimit p.sizes best ≤ placeOfLimit p.sizes best) ∧ f ≤ featureOfLimit p.sizes best := by
  rcases run_cases hp h0 hr with h | ⟨k, _, h⟩
  · obtain ⟨s1, r, e1, e2, e3⟩ := h.trainNode hp x label
    rw [ht] at e1
    have := Except.ok.inj e1
    simp only [Prod.mk.injEq] at this
    obtain ⟨rfl, rfl⟩ := this
    obtain ⟨hf, best, g0, a1, a2, a3, a4, a5⟩ := e3 f v rfl
    have hb : best < p.limitCount := by
      rw [← e2.block.limits_length hp]
      exact (List.getElem?_eq_some_iff.mp a1).1
    have hb' : best < (p.sizes.map (fun z => z - 1)).sum := by
      have := sum_pred p.sizes hp.pos
      have := hp.limits
      omega
    refine ⟨best, g0, a1, hb, a3, a4, a5, ?_, ?_⟩
    · rw [a2]; exact decode_iff hp.pos hb'
    · rw [a2]; exact decode_le hp.pos hb'
  · rw [h.rootTrain] at ht; cases ht

/-- the hypotheses of `C49_split_partial` are met by the history of `C49_wrong_feature` without its last point -/
example : ∃ s0 s s' : Tree ℝ 2, new (Witness.params 284) = .ok s0 ∧ run (Witness.params 284) (Witness.history.take 2) s0 = .ok s ∧
    trainNode (Witness.params 284) s 0 Witness.pointB 1 = .ok (s', some (0, .fin 5)) := by
  obtain ⟨s0, s1, e0, e1, a1⟩ := Witness.start_at (size := 284) (by omega)
  obtain ⟨s2, e2, a2⟩ := Witness.node_a (by omega) a1
  obtain ⟨s3, e3, a3⟩ := Witness.node_b (by omega) a2
  obtain ⟨k1, o1, _⟩ := Witness.at_one (by omega) e0 e1 e2 e3
  have t1 : train (Witness.params 284) s1 Witness.pointA 0 = .ok s2 := by
    simp only [train, sort_one o1, e2, bind, Except.bind, pure, Except.pure]
  exact ⟨s0, s2, s3, e0, by simp only [Witness.history, List.take, run, exec, e1, t1, bind, Except.bind], e3⟩

/-! ### C50: navigation and memory -/

/-- **C50** After every history, sorting any point ends in a node of the tree that is a leaf, and nodes and counters fit in the buffer. -/
theorem C50_sort_reaches_leaf {p : Params K} (hp : p.Ok) {ops : List (Op K L)} {s0 s : Tree K L} (h0 : new p = .ok s0) (hr : run p ops s0 = .ok s) (x : Nat → K) :
    (∃ id n, sortInLeaf p s x = .ok id ∧ s.nodes[id]? = some n ∧ n.split < 0) ∧ s.nodes.length * p.nodeSize + p.total L ≤ p.maxSize := by
  rcases run_cases hp h0 hr with h | ⟨k, _, h⟩
  · obtain ⟨n, hn, hsp, _, _⟩ := h.node
    refine ⟨⟨0, n, sort_one h x, by rw [hn]; rfl, by omega⟩, ?_⟩
    rw [h.nodes_length, Nat.one_mul]; exact h.mem
  · obtain ⟨id, n, e1, _, e3, e4⟩ := sort_split hp h x
    refine ⟨⟨id, n, e1, e3, by omega⟩, ?_⟩
    rw [h.nodes_length]; exact h.mem

/-- **C50** is violated: when memory is exhausted `train` is undefined behaviour instead of failing. The same history as in `C49_wrong_feature` with memory for one node. -/
theorem C50_split_without_memory : ∃ s0, new (Witness.params 156) = .ok s0 ∧ run (Witness.params 156) Witness.history s0 = .error .ub :=
  Witness.splits_ub (le_refl _) (by omega)

/-- **C50** is violated: so is the constructor. -/
theorem C50_constructor_without_memory {p : Params K} (hp : p.Ok) (h : p.maxSize < p.nodeSize + p.total L) : (new p : Res (Tree K L)) = .error .ub :=
  (new_eq p hp).2 (by omega)

/-- **C50** With memory for three nodes and one block, `train` and `predict` are always defined, and the calls on the root are defined as long as it is a leaf. -/
theorem C50_no_ub_partial {p : Params K} (hp : p.Ok) (hm : 3 * p.nodeSize + p.total L ≤ p.maxSize) :
    ∃ s0 : Tree K L, new p = .ok s0 ∧ ∀ ops s, run p ops s0 = .ok s →
      (∀ op : Op K L, op.viaTree → ∃ s', exec p op s = .ok s') ∧
      (∀ op : Op K L, op.onRoot p.sizes.length → ((∃ s', exec p op s = .ok s') ↔ s.nodes.length = 1)) := by
  have hn := new_eq (L := L) p hp
  obtain ⟨s0, e0, _⟩ := hn.1 (by omega)
  refine ⟨s0, e0, ?_⟩
  intro ops s hr
  rcases run_cases hp e0 hr with h | ⟨k, _, h⟩
  · constructor
    · intro op hop
      cases op with
      | train x l =>
          rcases h.train hp x l with ⟨s1, e1, _⟩ | ⟨s1, e1, _⟩ | ⟨c, _⟩
          · exact ⟨s1, e1⟩
          · exact ⟨s1, e1⟩
          · exact absurd hm c
      | predict x => exact ⟨s, by simp only [exec, h.predict hp x, Except.map]⟩
      | rootTrain x l => exact absurd hop (by simp [Op.viaTree])
      | setLimits x => exact absurd hop (by simp [Op.viaTree])
      | rootSplit f v => exact absurd hop (by simp [Op.viaTree])
    · intro op hop
      refine ⟨fun _ => h.nodes_length, fun _ => ?_⟩
      cases op with
      | train x l => exact absurd hop (by simp [Op.onRoot])
      | predict x => exact absurd hop (by simp [Op.onRoot])
      | rootTrain x l =>
          obtain ⟨s1, r, e1, _, _⟩ := h.trainNode hp x l
          exact ⟨s1, by simp only [exec, e1, Except.map]⟩
      | setLimits x =>
          obtain ⟨s1, e1, _⟩ := h.setLimits hp x
          exact ⟨s1, e1⟩
      | rootSplit f v =>
          obtain ⟨s1, e1, _⟩ := (splitNode_eq hp h hop v).1 hm
          exact ⟨s1, e1⟩
  · constructor
    · intro op hop
      cases op with
      | train x l =>
          obtain ⟨s1, e1, _⟩ := h.train hp x l
          exact ⟨s1, e1⟩
      | predict x => exact ⟨s, by simp only [exec, h.predict hp x, Except.map]⟩
      | rootTrain x l => exact absurd hop (by simp [Op.viaTree])
      | setLimits x => exact absurd hop (by simp [Op.viaTree])
      | rootSplit f v => exact absurd hop (by simp [Op.viaTree])
    · intro op hop
      refine ⟨?_, fun h1 => by rw [h.nodes_length] at h1; omega⟩
      rintro ⟨s', hs'⟩
      cases op with
      | train x l => exact absurd hop (by simp [Op.onRoot])
      | predict x => exact absurd hop (by simp [Op.onRoot])
      | rootTrain x l => simp only [exec, h.rootTrain, Except.map] at hs'; cases hs'
      | setLimits x => simp only [exec, h.setLimits] at hs'; cases hs'
      | rootSplit f v => simp only [exec, h.rootSplit] at hs'; cases hs'

/-- **C50** is violated: with fewer than two limits the first training point reads past the end of an array. -/
theorem C50_one_limit_ub {p : Params K} (hpos : ∀ sz ∈ p.sizes, 1 ≤ sz) (hne : p.sizes ≠ []) (hfew : p.limitCount < 2) (hm : p.nodeSize + p.total L ≤ p.maxSize)
    (x : Nat → K) (label : Fin L) : ∃ s0 : Tree K L, new p = .ok s0 ∧ train p s0 x label = .error .ub := by
  have e := newNode_eq (p := p) (s := ({ nodes := [], blocks := fun _ => zeroBlock p, preset := p.maxSize } : Tree K L)) rfl
  rw [if_pos (by simpa using hm)] at e
  refine ⟨_, e, ?_⟩
  generalize hs0 : ({ nodes := [] ++ [freshNode p], blocks := Function.update (fun _ => zeroBlock p) 0 (zeroBlock p), preset := p.maxSize } : Tree K L) = s0
  have hn : s0.nodes = [freshNode p] := by rw [← hs0]; rfl
  have hb : s0.blocks 0 = zeroBlock p := by rw [← hs0]; simp
  have hsort : sortInLeaf p s0 x = .ok 0 := by
    simp only [sortInLeaf]
    cases p.maxSize / p.nodeSize with
    | zero => rfl
    | succ k =>
        simp only [sortLoop, hn, bind, Except.bind]
        rw [rd_ok (by simp)]
        simp [freshNode, pure, Except.pure]
  obtain ⟨lgs, f1, f2⟩ := split_limits p.sizes (List.replicate p.limitCount (.fin 0 : Dbl K)) hpos (by simp; rfl)
  have hfill := fillBins_eq x label [] (p.sizes.map (lastOnly fun _ : Fin L => 0)) lgs 0 [] [] (by rw [lengths_lastOnly _ hpos, f2]) rfl
  simp only [List.nil_append, List.append_nil, List.length_nil] at hfill
  rw [lengths_lastOnly _ hpos, ← f1, ← zero_bins p.sizes hpos] at hfill
  have hlen := addPoint_lengths x label (p.sizes.map (lastOnly fun _ : Fin L => 0)) lgs 0 (by rw [lengths_lastOnly _ hpos, f2])
  rw [lengths_lastOnly _ hpos] at hlen
  have hg := gains_eq p ((s0.blocks 0).count + 1) _ (bump (fun _ => 0) label) hlen (by
    intro h0; rw [h0] at hlen; exact hne hlen.symm) (addPoint_tally x label (fun _ => 0) _ lgs 0 (by rw [lengths_lastOnly _ hpos, f2]) (by
      intro g hg
      obtain ⟨sz, _, rfl⟩ := List.mem_map.mp hg
      exact tally_lastOnly _ sz))
  have heq := trainNode_eq (p := p) (s := s0) (id := 0) (n := freshNode p) (by rw [hn]; rfl) rfl (by rw [hn]; simpa using hm) (by rw [hb]; exact hfill) hg
  have hbt : bestTwo ((filled (s0.blocks 0) (addPoint x label 0 (p.sizes.map (lastOnly fun _ : Fin L => 0)) lgs).flatten
      ((addPoint x label 0 (p.sizes.map (lastOnly fun _ : Fin L => 0)) lgs).flatMap (gainsOf p ((s0.blocks 0).count + 1) (bump (fun _ => 0) label)))).infoSum.map
        (fun a => a / (((s0.blocks 0).count + 1 : Nat) : K))) = .error .ub := by
    apply bestTwo_few
    simp only [filled, List.length_map, List.length_zipWith, hb, zeroBlock, List.length_replicate]
    omega
  rw [hbt] at heq
  have heq' : trainNode p s0 0 x label = .error .ub := heq
  simp only [train, hsort, heq', bind, Except.bind]

example : (⟨[2], 1 / 10, 1000, 48, fun x => x, fun x => x⟩ : Params ℚ).limitCount < 2 := by decide

/-! ### C51: information gain and probabilities -/

/-- **C51** Over the real numbers the information gains of the root are defined, and between 0 and the entropy of its labels. -/
theorem C51_gain_bounds {p : Params ℝ} (hlog : p.log2 = Real.logb 2) (hp : p.Ok) {ops : List (Op ℝ L)} {s0 s : Tree ℝ L} (h0 : new p = .ok s0)
    (hr : run p ops s0 = .ok s) (h1 : s.nodes.length = 1) :
    ∃ g, rootGains p s = .ok g ∧ g.length = p.limitCount ∧
      ∀ y ∈ g, 0 ≤ y ∧ y ≤ - ∑ l, (if 0 < hist ops l then ((hist ops l : ℝ) / (∑ k, hist ops k : Nat)) * Real.logb 2 ((hist ops l : ℝ) / (∑ k, hist ops k : Nat)) else 0) := by
  rcases run_cases hp h0 hr with h | ⟨k, _, h⟩
  · obtain ⟨n, hn, hsp, _, _⟩ := h.node
    have hm : s.nodes.length * p.nodeSize + p.total L ≤ p.maxSize := by rw [h.nodes_length, Nat.one_mul]; exact h.mem
    have hn0 : rd s.nodes 0 = .ok n := by rw [hn]; rfl
    obtain ⟨g, e1, e2, e3⟩ := h.block.gains hlog hp
    refine ⟨g, by simp only [rootGains, hn0, hsp, getBlock_leaf hm, bind, Except.bind, e1], e2, ?_⟩
    intro y hy
    obtain ⟨a1, a2⟩ := e3 y hy
    refine ⟨a1, le_trans a2 (le_of_eq ?_)⟩
    simp only [leafEntropy, h.block.count]
    rw [mul_neg_one, neg_inj]
    apply Finset.sum_congr rfl
    intro l _
    by_cases c : 0 < hist ops l
    · have hc : 0 < ∑ k, hist ops k := Nat.lt_of_lt_of_le c (Finset.single_le_sum (f := hist ops) (fun i _ => Nat.zero_le _) (Finset.mem_univ l))
      have hc' : ((∑ k, hist ops k : Nat) : ℝ) ≠ 0 := by exact_mod_cast hc.ne'
      have hr : ratio ((((hist ops l : Nat) : Int)) : ℝ) ((∑ k, hist ops k : Nat) : ℝ) = (hist ops l : ℝ) / (∑ k, hist ops k : Nat) := by
        rw [ratio, if_neg hc']; simp
      rw [if_pos c, hr, xlog, if_pos (by positivity), hlog]
    · have h0 : hist ops l = 0 := by omega
      rw [if_neg c, h0]
      simp [ratio, xlog]
  · rw [h.nodes_length] at h1; omega

/-- **C51** for any consistent counters: the counters of each feature add up to the same number of points for each label. -/
theorem C51_gain_any_counters {p : Params ℝ} (hlog : p.log2 = Real.logb 2) (hp : p.Ok) (gs : List (List (Fin L → Nat))) (hs : gs.map List.length = p.sizes)
    (h : Fin L → Nat) (hh : ∀ g ∈ gs, ∀ l, (g.map (fun c => c l)).sum = h l) :
    ∃ g, gains p (∑ l, h l) gs.flatten = .ok g ∧ g.length = p.limitCount ∧ ∀ y ∈ g, 0 ≤ y := by
  obtain ⟨lgs, f1, f2⟩ := split_limits p.sizes (List.replicate p.limitCount (.fin 0 : Dbl ℝ)) hp.pos (by simp; rfl)
  obtain ⟨g, e1, e2, e3⟩ := Good.gains hlog hp (h := h)
    (b := { count := ∑ l, h l, limits := List.replicate p.limitCount (.fin 0), infoSum := List.replicate p.limitCount 0, bins := gs.flatten })
    ⟨rfl, by simp, gs, lgs, rfl, f1, hs, f2, fun g hg => by funext l; exact hh g hg l⟩
  exact ⟨g, e1, e2, fun y hy => (e3 y hy).1⟩

/-- **C51** Once a point has been trained through the tree, and if the user never splits the root by hand, the scores are probabilities: not negative, with sum 1. -/
theorem C51_probabilities {p : Params K} (hp : p.Ok) {ops : List (Op K L)} {s0 s : Tree K L} (h0 : new p = .ok s0) (hr : run p ops s0 = .ok s)
    (hne : labels ops ≠ []) (hsp : ∀ f v, Op.rootSplit f v ∉ ops) (x : Nat → K) :
    ∃ label q, predict p s x = .ok (label, (List.ofFn q).map Dbl.fin) ∧ (∀ l : Fin L, 0 ≤ q l) ∧ ∑ l, q l = 1 := by
  have fin : ∀ (t : List (Op K L)), labels t ≠ [] → ∃ q : Fin L → K, (scoresOf (fun l => (hist t l : Int)) : List (Dbl K)) = (List.ofFn q).map Dbl.fin ∧
      (∀ l, 0 ≤ q l) ∧ ∑ l, q l = 1 := by
    intro t ht
    obtain ⟨a, ha⟩ := List.exists_mem_of_ne_nil _ ht
    have h1 : 0 < hist t a := List.count_pos_iff.mpr ha
    have h2 := Finset.single_le_sum (f := hist t) (fun i _ => Nat.zero_le _) (Finset.mem_univ a)
    have hc : 0 < ∑ l, hist t l := by omega
    have hc' : ((∑ l, hist t l : Nat) : K) ≠ 0 := by exact_mod_cast hc.ne'
    refine ⟨_, scores_pos hc, ?_, ?_⟩
    · intro l; positivity
    · rw [← Finset.sum_div, ← Nat.cast_sum, div_self hc']
  rcases run_cases hp h0 hr with h | ⟨k, ⟨op, hop, hm⟩, h⟩
  · obtain ⟨q, e1, e2, e3⟩ := fin ops hne
    exact ⟨_, q, by rw [h.predict hp x, e1], e2, e3⟩
  · have hk : labels (ops.drop k) ≠ [] := by
      have hlt := (List.getElem?_eq_some_iff.mp hop).1
      have hd : ops.drop k = op :: ops.drop (k + 1) := by
        rw [List.drop_eq_getElem_cons hlt]
        congr 1
        rw [List.getElem?_eq_getElem hlt] at hop
        exact Option.some.inj hop
      rw [hd]
      cases op with
      | train x l => simp [labels]
      | predict x => exact absurd hm (by simp [Op.maySplit])
      | rootTrain x l => simp [labels]
      | setLimits l => exact absurd hm (by simp [Op.maySplit])
      | rootSplit f v => exact absurd (List.mem_of_getElem? hop) (hsp f v)
    obtain ⟨q, e1, e2, e3⟩ := fin (ops.drop k) hk
    exact ⟨_, q, by rw [h.predict hp x, e1], e2, e3⟩

/-- Before any training point the scores are NaN and the prediction is label 0. -/
theorem C51_untrained {p : Params K} (hp : p.Ok) {s0 : Tree K L} (h0 : new p = .ok s0) (x : Nat → K) : predict p s0 x = .ok (0, List.replicate L .nan) := by
  rcases run_cases hp (ops := []) h0 rfl with h | ⟨k, ⟨op, hop, _⟩, _⟩
  · have := h.predict hp x
    have e : (fun l => ((hist ([] : List (Op K L)) l : Nat) : Int)) = fun _ => ((0 : Nat) : Int) := rfl
    rw [this, e, scores_zero, argmax_nan]
  · simp at hop

/-! ### C73: the tree grows -/

/-- **C73** is violated, for every history: the tree never has more than one split, so never more than three nodes. (The limits of the leaves made by a split are NaN, so that
all points fall in the last bins and no limit ever gains information.) -/
theorem C73_at_most_one_split {p : Params K} (hp : p.Ok) {ops : List (Op K L)} {s0 s : Tree K L} (h0 : new p = .ok s0) (hr : run p ops s0 = .ok s) :
    s.nodes.length = 1 ∨ s.nodes.length = 3 ∧ ∀ l ∈ (s.blocks 0).limits, l = .nan := by
  rcases run_cases hp h0 hr with h | ⟨k, _, h⟩
  · exact Or.inl h.nodes_length
  · refine Or.inr ⟨h.nodes_length, ?_⟩
    rw [h.block.limits]
    intro l hl
    exact (List.mem_replicate.mp hl).2

/-- the bound is reached -/
example : ∃ s0 s : Tree ℝ 2, new (Witness.params 284) = .ok s0 ∧ run (Witness.params 284) Witness.history s0 = .ok s ∧ s.nodes.length = 3 := by
  obtain ⟨s0, s, root, right, left, h1, h2, h3, _⟩ := Witness.splits (size := 284) (le_refl _)
  exact ⟨s0, s, h1, h2, by simp [h3]⟩

/-- the hypotheses of the theorems above are met by these parameters -/
example : (Witness.params 284).Ok ∧ (Witness.params 284).log2 = Real.logb 2 := ⟨Witness.params_ok 284, rfl⟩

end Orp.Hoeffding
