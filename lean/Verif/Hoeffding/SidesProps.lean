import Verif.Hoeffding.Sides
import Verif.Hoeffding.EvidenceWitness

/-!
Property C143: the information gain reported for a limit, and the split made at the limit.
-/

namespace Orp.Hoeffding

set_option linter.unusedSectionVars false

variable {K : Type} [Field K] [LinearOrder K] [IsStrictOrderedRing K] {L : Nat}

/-- calls that train or predict -/
def Op.learns : Op K L → Prop
  | .setLimits _ => False
  | .rootSplit _ _ => False
  | _ => True

theorem Filled.run {p : Params K} (hp : p.Ok) {lims : Nat → K} : ∀ (ops : List (Op K L)) {pts : List ((Nat → K) × Fin L)} {s s' : Tree K L}, Filled p lims pts s →
    (∀ op ∈ ops, op.learns) → Hoeffding.run p ops s = .ok s' → s'.nodes.length = 1 → Filled p lims (pts ++ points ops) s' := by
  intro ops
  induction ops with
  | nil =>
      intro pts s s' hs _ he _
      obtain rfl := Except.ok.inj he
      simpa [points] using hs
  | cons op ops ih =>
      intro pts s s' hs hops he h1
      obtain ⟨h, hl⟩ := hs.leaf
      have hops' : ∀ op ∈ ops, op.learns := fun o ho => hops o (by simp [ho])
      simp only [Hoeffding.run, bind, Except.bind] at he
      cases op with
      | train x l =>
          obtain ⟨s1, r, g, e1, e2, e3, e4, e5, e6, e7, e8⟩ := hl.train_rule hp x l
          by_cases hd : Decides p (s1.blocks 0).count ((s1.blocks 0).infoSum.map (fun a => a / ((s1.blocks 0).count : K)))
          · exfalso
            simp only [exec] at he
            cases ht : Hoeffding.train p s x l with
            | error e => rw [ht] at he; cases he
            | ok s2 =>
                rw [ht] at he
                have := ((e8 hd s2 ht).run hp ops he).nodes_length
                omega
          · simp only [exec, e7 hd] at he
            have := ih (hs.train hp x l e1) hops' he h1
            simpa [points] using this
      | rootTrain x l =>
          obtain ⟨s1, r, e1, -⟩ := hl.trainNode hp x l
          simp only [exec, e1, bind, Except.bind, pure, Except.pure] at he
          have := ih (hs.train hp x l e1) hops' he h1
          simpa [points] using this
      | predict x =>
          have hq := hl.predict hp x
          simp only [exec, hq, bind, Except.bind, pure, Except.pure] at he
          have := ih hs hops' he h1
          simpa [points] using this
      | setLimits _ => exact absurd (hops _ List.mem_cons_self) (fun h => h)
      | rootSplit _ _ => exact absurd (hops _ List.mem_cons_self) (fun h => h)

/-! ### The two sides of a split -/

theorem sort_sides {p : Params K} (hp : p.Ok) {s : Tree K L} {root right left : Node K} {f : Nat} {v : Dbl K} (hn : s.nodes = [root, right, left]) (hf : f < p.sizes.length)
    (hf1 : root.split = f) (hv : root.value = some v) (hl : root.left = 2) (hr : root.right = 1) (hrs : right.split = -1) (hls : left.split = -1)
    (hm : 3 * p.nodeSize ≤ p.maxSize) (y : Nat → K) : sortInLeaf p s y = .ok (if Dbl.le (.fin (y f)) v then 2 else 1) := by
  have hk0 : 2 ≤ p.maxSize / p.nodeSize := by
    rw [Nat.le_div_iff_mul_le hp.node]; omega
  obtain ⟨k, hk⟩ : ∃ k, p.maxSize / p.nodeSize = k + 2 := ⟨p.maxSize / p.nodeSize - 2, by omega⟩
  have h0 : rd s.nodes 0 = .ok root := by rw [hn]; rfl
  have h1 : rd s.nodes 1 = .ok right := by rw [hn]; rfl
  have h2 : rd s.nodes 2 = .ok left := by rw [hn]; rfl
  simp only [sortInLeaf, hk, sortLoop, h0, bind, Except.bind, hf1, hv]
  rw [if_neg (by omega), Int.toNat_natCast, if_neg (by omega)]
  by_cases c : Dbl.le (.fin (y f)) v = true
  · rw [if_pos c, hl]
    rw [if_neg (by omega)]
    have : (2 : Int).toNat = 2 := rfl
    rw [this, h2]
    simp only [hls]
    rw [if_pos c]
    rfl
  · rw [if_neg c, hr]
    rw [if_neg (by omega)]
    have : (1 : Int).toNat = 1 := rfl
    rw [this, h1]
    simp only [hrs]
    rw [if_neg c]
    rfl

/-- The split made by a training point: which limit it belongs to and where the points go. -/
theorem OneLeaf.train_sides {p : Params K} (hp : p.Ok) {h : Fin L → Nat} {s s' : Tree K L} (hs : OneLeaf p h s) {x : Nat → K} {label : Fin L}
    (ht : Hoeffding.train p s x label = .ok s') (h3 : s'.nodes.length = 3) :
    ∃ s1 f v, Hoeffding.trainNode p s 0 x label = .ok (s1, some (f, v)) ∧ OneLeaf p (bump h label) s1 ∧ f < p.sizes.length ∧ Suggests p (s1.blocks 0) f v ∧
      ∀ y, sortInLeaf p s' y = .ok (if Dbl.le (.fin (y f)) v then 2 else 1) := by
  obtain ⟨s1, r, h1, h2, h4⟩ := hs.trainNode hp x label
  simp only [Hoeffding.train, sort_one hs, h1, bind, Except.bind] at ht
  match r, h4 with
  | none, _ =>
      obtain rfl := Except.ok.inj ht
      rw [h2.nodes_length] at h3
      omega
  | some (f, v), h4 =>
      obtain ⟨hf, hsug⟩ := h4 f v rfl
      refine ⟨s1, f, v, h1, h2, hf, hsug, ?_⟩
      have hsplit := splitNode_eq hp h2 hf v
      by_cases c : 3 * p.nodeSize + p.total L ≤ p.maxSize
      · obtain ⟨s2, e1, e2, root, right, left, e3, e4, e5⟩ := hsplit.1 c
        simp only [e1] at ht
        obtain ⟨root', right', left', v', hns, _, hv, hle, hri, hrs, hls⟩ := e2.node
        have hn' := hns
        rw [e3] at hn'
        simp only [List.cons.injEq, and_true] at hn'
        obtain ⟨rfl, rfl, rfl⟩ := hn'
        have hr0 : rd s2.nodes 0 = .ok root := by rw [hns]; rfl
        simp only [hr0] at ht
        have hm2 : s2.nodes.length * p.nodeSize + p.total L ≤ p.maxSize := by rw [e2.nodes_length]; exact c
        by_cases cx : Dbl.le (.fin (x f)) v = true
        · rw [if_pos cx, hle, if_neg (by omega)] at ht
          obtain ⟨b', g1, g2⟩ := trainNode_frozen hp (s := s2) (id := 2) (n := left) x label (by rw [hns]; rfl) hls hm2 e2.block
          have : (2 : Int).toNat = 2 := rfl
          rw [this, g1] at ht
          obtain rfl := Except.ok.inj ht
          exact sort_sides hp (root := root) (right := right) (left := grown x left) (by simp [trained, hns]) hf e4 e5 hle hri hrs hls (by omega)
        · rw [if_neg cx, hri, if_neg (by omega)] at ht
          obtain ⟨b', g1, g2⟩ := trainNode_frozen hp (s := s2) (id := 1) (n := right) x label (by rw [hns]; rfl) hrs hm2 e2.block
          have : (1 : Int).toNat = 1 := rfl
          rw [this, g1] at ht
          obtain rfl := Except.ok.inj ht
          exact sort_sides hp (root := root) (right := grown x right) (left := left) (by simp [trained, hns]) hf e4 e5 hle hri hrs hls (by omega)
      · simp only [hsplit.2 c] at ht
        cases ht

/-! ### C143 -/

/-- **C143** What the root reports. The user sets the limits, in increasing order for each feature, and then trains; the root is not split yet. The information gain
reported for a limit is that of dividing the training points into those below the limit and the others. -/
theorem C143_reported {p : Params K} (hp : p.Ok) {lims : Nat → K} (hl : SortedLimits p lims) {ops : List (Op K L)} (hops : ∀ op ∈ ops, op.learns) {s0 s : Tree K L}
    (h0 : new p = .ok s0) (hr : run p (.setLimits (fun i => .fin (lims i)) :: ops) s0 = .ok s) (h1 : s.nodes.length = 1) :
    ∃ g, rootGains p s = .ok g ∧ g.length = p.limitCount ∧
      ∀ i < p.limitCount, g[i]? = some (gainBy p.log2 (points ops) (fun x => decide (x (featureOfLimit p.sizes i) < lims i))) := by
  obtain ⟨s1, e1, e2⟩ := Filled.start hp h0 lims
  simp only [run, exec, e1, bind, Except.bind] at hr
  have hF := e2.run hp ops hops hr h1
  rw [List.nil_append] at hF
  obtain ⟨h, hl1⟩ := hF.leaf
  obtain ⟨n, hn, hsp, -, -⟩ := hl1.node
  have hm : s.nodes.length * p.nodeSize + p.total L ≤ p.maxSize := by rw [hl1.nodes_length, Nat.one_mul]; exact hl1.mem
  have hn0 : rd s.nodes 0 = .ok n := by rw [hn]; rfl
  obtain ⟨gs, lgs, c1, -, c3, -, c5⟩ := hl1.block.parts
  have hne : gs ≠ [] := by rintro rfl; exact hp.ne c3.symm
  have hg : rootGains p s = .ok (gs.flatMap (gainsOf p (s.blocks 0).count h)) := by
    simp only [Hoeffding.rootGains, hn0, hsp, getBlock_leaf hm, bind, Except.bind]
    rw [c1]
    exact gains_eq p _ gs h c3 hne c5
  exact ⟨_, hg, hF.gains hp hl hg⟩

/-- **C143**, the part that holds. A training point splits the root. Then the split belongs to a limit `i`; the points `y` with `y f ≤ limit` go to the left child (node 2)
and the others to the right child (node 1), where `f` is the feature of the split. If `f` is the feature of the limit (see C49) and no training point lies on the limit, the
information gain reported for the limit is that of dividing the training points as the split does. Missing: points on the limit, see `C143_violated`. -/
theorem C143_split_partial {p : Params K} (hp : p.Ok) {lims : Nat → K} (hl : SortedLimits p lims) {ops : List (Op K L)} (hops : ∀ op ∈ ops, op.learns) {s0 s s' : Tree K L}
    (h0 : new p = .ok s0) (hr : run p (.setLimits (fun i => .fin (lims i)) :: ops) s0 = .ok s) (h1 : s.nodes.length = 1) (x : Nat → K) (label : Fin L)
    (ht : train p s x label = .ok s') (h3 : s'.nodes.length = 3) :
    ∃ (s1 : Tree K L) (r : Option (Nat × Dbl K)) (g : List K) (i f : Nat), trainNode p s 0 x label = .ok (s1, r) ∧ rootGains p s1 = .ok g ∧ i < p.limitCount ∧
      f = decode p.sizes i ∧ (∀ y, sortInLeaf p s' y = .ok (if y f ≤ lims i then 2 else 1)) ∧
      (f = featureOfLimit p.sizes i → (∀ q ∈ points ops ++ [(x, label)], q.1 f ≠ lims i) →
        g[i]? = some (gainBy p.log2 (points ops ++ [(x, label)]) (fun y => decide (sortInLeaf p s' y = .ok 2)))) := by
  obtain ⟨s2, e1, e2⟩ := Filled.start hp h0 lims
  simp only [run, exec, e1, bind, Except.bind] at hr
  have hF := e2.run hp ops hops hr h1
  rw [List.nil_append] at hF
  obtain ⟨h, hl1⟩ := hF.leaf
  obtain ⟨s1, f, v, t1, t2, t3, ⟨i, g0, u1, u2, -⟩, t5⟩ := hl1.train_sides hp ht h3
  have hF1 := hF.train hp x label t1
  obtain ⟨n, r', g, w1, -, w3, -⟩ := hl1.rule_bins hp x label
  rw [t1] at w1
  obtain ⟨rfl, rfl⟩ := Prod.mk.inj (Except.ok.inj w1)
  have hi : i < p.limitCount := by
    have := (List.getElem?_eq_some_iff.mp u1).1
    rwa [t2.block.limits_length hp] at this
  have hv : v = .fin (lims i) := by
    rw [hF1.limits] at u1
    simp only [List.getElem?_map, List.getElem?_range hi, Option.map_some, Option.some.injEq] at u1
    exact u1.symm
  have hsort : ∀ y, sortInLeaf p s' y = .ok (if y f ≤ lims i then 2 else 1) := by
    intro y
    rw [t5 y, hv]
    simp [Dbl.le]
  refine ⟨s1, _, g, i, f, t1, w3, hi, u2, hsort, fun hf hne => ?_⟩
  rw [(hF1.gains hp hl w3).2 i hi, ← hf]
  congr 1
  have hside : ∀ q ∈ points ops ++ [(x, label)], decide (q.1 f < lims i) = decide (sortInLeaf p s' q.1 = .ok 2) := by
    intro q hq
    rw [hsort]
    have := hne q hq
    by_cases c : q.1 f ≤ lims i
    · rw [if_pos c]; simp [lt_of_le_of_ne c this]
    · rw [if_neg c]
      have : ¬ q.1 f < lims i := fun h => c h.le
      simp only [this, decide_false]
      symm
      rw [decide_eq_false_iff_not]
      intro h
      have := Except.ok.inj h
      omega
  simp only [gainBy]
  congr 1
  · funext l
    exact List.countP_congr fun q hq => by simp only [hside q hq]
  · funext l
    exact List.countP_congr fun q hq => by simp only [hside q hq]

namespace Five

/-- the second point lies on the first limit -/
def pointC : Nat → ℝ := fun _ => 1

theorem fill2_on : fillBins [.fin 1, .fin 2] pointC (1 : Fin 5) 0 0 [3] bins1 = .ok bins2 := by
  have h2 : (1 : ℝ) < 2 := by norm_num
  simp [fillBins, findBin, rd, wr, bind, Except.bind, pure, Except.pure, Dbl.lt, pointC, bump_b, bins1, bins2, h2]

theorem node_c {s : Tree ℝ 5} (hs : At s (block 1 [0, 0] bins1)) :
    ∃ s', trainNode params s 0 pointC 1 = .ok (s', some (0, .fin 1)) ∧ At s' (block 2 [1, 0] bins2) := by
  obtain ⟨h1, h3⟩ := hs
  have e := trainNode_eq (p := params) (s := s) (id := 0) (n := freshNode params) (x := pointC) (label := (1 : Fin 5)) (bins := bins2) (g := [1, 0])
    (by rw [h1]; rfl) rfl (by rw [h1, total_eq]; simp [params]) (by rw [h3]; exact fill2_on) (by rw [h3]; exact gains2)
  rw [e, h3]
  have hb : bestTwo ((filled (block 1 [0, 0] bins1) bins2 [1, 0]).infoSum.map (fun a => a / ((((block 1 [0, 0] bins1).count + 1 : Nat)) : ℝ)))
      = .ok (0, 1 / 2, 0) := by
    simp [block, filled, bestTwo, bestLoop]
  rw [hb]
  simp only [bind, Except.bind]
  rw [if_pos (by
    simp only [params, block]
    rw [log_eq]
    refine ⟨?_, by norm_num⟩
    push_cast
    norm_num)]
  refine ⟨_, rfl, ?_, ?_⟩
  · simp only [trained, h1, grown_fresh]; rfl
  · simp [trained, filled, block]

/-- the limits as numbers -/
def values : Nat → ℝ := fun i => if i = 0 then 1 else 2

theorem limits_eq : limits = fun i => .fin (values i) := by
  funext i
  simp only [limits, values]
  split <;> rfl

theorem sorted : SortedLimits params values := by
  intro i j hij hj _
  simp only [values]
  split <;> split <;> first | omega | norm_num

theorem splits_on : ∃ (s0 s s1 s' : Tree ℝ 5), s1.nodes.length = 1 ∧ new params = .ok s0 ∧ run params [.setLimits (fun i => .fin (values i)), .train pointA 0] s0 = .ok s ∧ s.nodes.length = 1 ∧
    trainNode params s 0 pointC 1 = .ok (s1, some (0, .fin 1)) ∧ rootGains params s1 = .ok [1, 0] ∧ train params s pointC 1 = .ok s' ∧ s'.nodes.length = 3 ∧
    ∀ y, sortInLeaf params s' y = .ok (if y 0 ≤ 1 then 2 else 1) := by
  have hp := params_ok
  obtain ⟨s0, s1, e0, e1, a1⟩ := start_at
  obtain ⟨s2, e2, a2⟩ := node_a a1
  obtain ⟨s3, e3, a3⟩ := node_c a2
  obtain ⟨f0, -, -⟩ := OneLeaf.zero_info hp e0
  obtain ⟨s1', e1', f1⟩ := f0.setLimits hp limits
  rw [e1] at e1'; have := Except.ok.inj e1'; subst this
  obtain ⟨s2', r2, e2', f2, _⟩ := f1.trainNode hp pointA 0
  rw [e2] at e2'
  obtain ⟨rfl, rfl⟩ := Prod.mk.inj (Except.ok.inj e2')
  obtain ⟨s3', r3, g3, e3', f3, q1, -, -, -, -, -, q2⟩ := f2.rule_bins hp pointC 1
  rw [e3] at e3'
  obtain ⟨rfl, rfl⟩ := Prod.mk.inj (Except.ok.inj e3')
  have t1 : train params s1 pointA 0 = .ok s2 := by
    simp only [train, sort_one f1, e2, bind, Except.bind, pure, Except.pure]
  have hg : rootGains params s3 = .ok [1, 0] := by
    have hm : s3.nodes.length * params.nodeSize + params.total 5 ≤ params.maxSize := by rw [f3.nodes_length, Nat.one_mul]; exact f3.mem
    have h0 : rd s3.nodes 0 = .ok (freshNode params) := by rw [a3.1]; rfl
    have hf : (freshNode params).split = -1 := rfl
    simp only [rootGains, h0, hf, getBlock_leaf hm, bind, Except.bind, a3.2, block, gains2]
  obtain ⟨s5, t2, t3⟩ : ∃ s5, train params s2 pointC 1 = .ok s5 ∧ s5.nodes.length = 3 := by
    have hF : Fits params 5 := by simp only [Fits, total_eq]; simp [params]
    obtain ⟨s6, r6, g6, k1, -, -, -, -, -, -, k8⟩ := f2.train_rule hp pointC 1
    rw [e3] at k1
    obtain ⟨rfl, rfl⟩ := Prod.mk.inj (Except.ok.inj k1)
    have hd := k8 (q2.1 rfl)
    rcases f2.train hp pointC 1 with ⟨s5, g1, -⟩ | ⟨s5, g1, g2⟩ | ⟨g1, -⟩
    · exact ⟨s5, g1, (hd s5 g1).nodes_length⟩
    · exact ⟨s5, g1, g2.nodes_length⟩
    · exact absurd hF g1
  obtain ⟨s6, f, v, k1, -, -, -, k5⟩ := f2.train_sides hp t2 t3
  rw [e3] at k1
  obtain ⟨-, k2⟩ := Prod.mk.inj (Except.ok.inj k1)
  obtain ⟨rfl, rfl⟩ := Prod.mk.inj (Option.some.inj k2)
  refine ⟨s0, s2, s3, s5, f3.nodes_length, e0, ?_, by rw [a2.1]; rfl, e3, hg, t2, t3, fun y => ?_⟩
  · rw [← limits_eq]
    simp only [run, exec, e1, t1, bind, Except.bind]
  · rw [k5 y]
    simp [Dbl.le]

/-- **C143** is violated: one feature with the limits 1 and 2; a point with value 0 and label 0, then one with value 1 and label 1. The gain reported for the limit 1 is one
bit, and the second point splits the root there. But both points satisfy `x ≤ 1` and belong to the left child: the gain of the division made by the split is zero. -/
theorem C143_violated : ∃ (p : Params ℝ) (lims : Nat → ℝ) (ops : List (Op ℝ 5)) (x : Nat → ℝ) (label : Fin 5) (s0 s s1 s' : Tree ℝ 5) (g : List ℝ) (r : Option (Nat × Dbl ℝ)),
    p.log = Real.log ∧ p.log2 = Real.logb 2 ∧ p.Ok ∧ SortedLimits p lims ∧ (∀ op ∈ ops, op.learns) ∧ new p = .ok s0 ∧
    run p (.setLimits (fun i => .fin (lims i)) :: ops) s0 = .ok s ∧ s.nodes.length = 1 ∧ trainNode p s 0 x label = .ok (s1, r) ∧ rootGains p s1 = .ok g ∧
    train p s x label = .ok s' ∧ s'.nodes.length = 3 ∧ (∀ y, sortInLeaf p s' y = .ok (if y 0 ≤ lims 0 then 2 else 1)) ∧ p.sizes.length = 1 ∧
    g[0]? = some 1 ∧ gainBy p.log2 (points ops ++ [(x, label)]) (fun y => decide (sortInLeaf p s' y = .ok 2)) = 0 := by
  obtain ⟨s0, s, s1, s', e8, e0, e1, e2, e3, e4, e5, e6, e7⟩ := splits_on
  refine ⟨params, values, [.train pointA 0], pointC, 1, s0, s, s1, s', [1, 0], _, rfl, rfl, params_ok, sorted, by simp [Op.learns], e0, e1, e2, e3, e4, e5, e6, e7, rfl, rfl, ?_⟩
  have hA : sortInLeaf params s' pointA = .ok 2 := by rw [e7]; simp [pointA]
  have hC : sortInLeaf params s' pointC = .ok 2 := by rw [e7]; simp [pointC]
  have c0 : countIf (points [.train pointA 0] ++ [(pointC, (1 : Fin 5))]) (fun y => decide (sortInLeaf params s' y = .ok 2)) = ![1, 1, 0, 0, 0] := by
    funext l
    simp only [countIf, points, List.cons_append, List.nil_append, List.countP_cons, List.countP_nil, hA, hC]
    fin_cases l <;> rfl
  have c1 : countIf (points [.train pointA 0] ++ [(pointC, (1 : Fin 5))]) (fun y => !decide (sortInLeaf params s' y = .ok 2)) = fun _ => 0 := by
    funext l
    simp [countIf, points, hA, hC]
  rw [gainBy, c0, c1]
  have hz : labelEntropy params.log2 (fun _ : Fin 5 => 0) = 0 := by simp [labelEntropy]
  have hN : ∑ l, (![1, 1, 0, 0, 0] : Fin 5 → Nat) l = 2 := by decide
  simp only [infoGain, Nat.add_zero, hz, hN]
  norm_num

/-- the hypotheses of `C143_reported` are met by the history of the witness -/
example : ∃ s0 s g, new params = .ok s0 ∧ run params (.setLimits (fun i => .fin (values i)) :: [.train pointA 0, .rootTrain pointC (1 : Fin 5)]) s0 = .ok s ∧
    rootGains params s = .ok g ∧ g[0]? = some (gainBy (Real.logb 2) [(pointA, (0 : Fin 5)), (pointC, 1)] (fun x => decide (x 0 < 1))) := by
  obtain ⟨s0, s, s1, s', e8, e0, e1, e2, e3, e4, e5, e6, e7⟩ := splits_on
  have hr : run params (.setLimits (fun i => .fin (values i)) :: [.train pointA 0, .rootTrain pointC (1 : Fin 5)]) s0 = .ok s1 := by
    simp only [run, bind, Except.bind] at e1 ⊢
    cases hx : exec params (.setLimits (fun i => .fin (values i))) s0 with
    | error e => rw [hx] at e1; cases e1
    | ok t =>
        rw [hx] at e1
        simp only at e1 ⊢
        cases hy : exec params (.train pointA 0) t with
        | error e => rw [hy] at e1; cases e1
        | ok u =>
            rw [hy] at e1
            obtain rfl := Except.ok.inj e1
            simp only [exec, e3, Except.map]
  obtain ⟨g, c1, c2, c3⟩ := C143_reported params_ok sorted (by simp [Op.learns]) e0 hr e8
  exact ⟨s0, s1, g, e0, hr, c1, c3 0 (by simp [params, Params.limitCount, Params.sum])⟩

/-- the hypotheses of `C143_split_partial` are met by the history of `Five.splits`, where the second point lies between the limits; the conclusion applies to it. -/
example : ∃ (s0 s s' s1 : Tree ℝ 5) (g : List ℝ), new params = .ok s0 ∧ run params (.setLimits (fun i => .fin (values i)) :: [.train pointA 0]) s0 = .ok s ∧
    train params s pointB 1 = .ok s' ∧ rootGains params s1 = .ok g ∧ ∃ i < 2,
      g[i]? = some (gainBy (Real.logb 2) [(pointA, (0 : Fin 5)), (pointB, 1)] (fun y => decide (sortInLeaf params s' y = .ok 2))) := by
  obtain ⟨s0, s, s', e0, e1, e2, e3, e4, -⟩ := splits
  have e1' : run params (.setLimits (fun i => .fin (values i)) :: [.train pointA 0]) s0 = .ok s := by rw [← limits_eq]; exact e1
  obtain ⟨s1, r, g, i, f, c1, c2, c3, c4, c5, c6⟩ := C143_split_partial params_ok sorted (by simp [Op.learns]) e0 e1' e2 pointB 1 e3 e4
  have hi : i < 2 := by simpa [params, Params.limitCount, Params.sum] using c3
  have hf : f = featureOfLimit params.sizes i := by
    rw [c4]
    have : i = 0 ∨ i = 1 := by omega
    rcases this with rfl | rfl <;> rfl
  refine ⟨s0, s, s', s1, g, e0, e1', e3, c2, i, hi, c6 hf ?_⟩
  intro q hq
  simp only [points, List.cons_append, List.nil_append, List.mem_cons, List.not_mem_nil, or_false] at hq
  rcases hq with rfl | rfl
  · simp only [pointA, values]; split <;> norm_num
  · simp only [pointB, values]; split <;> norm_num

end Five

end Orp.Hoeffding
