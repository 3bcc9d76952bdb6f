import Verif.Hoeffding.Steps
import Verif.Hoeffding.Spec

/-!
All histories of calls.
-/

namespace Orp.Hoeffding

set_option linter.unusedSectionVars false

variable {K : Type} [Field K] [LinearOrder K] [IsStrictOrderedRing K] {L : Nat}

/-- enough memory for one split -/
def Fits (p : Params K) (L : Nat) : Prop := 3 * p.nodeSize + p.total L ≤ p.maxSize

theorem zero_good (p : Params K) (hp : p.Ok) : Good p (fun _ : Fin L => 0) (zeroBlock p : Block K L) := by
  obtain ⟨lgs, f1, f2⟩ := split_limits p.sizes (List.replicate p.limitCount (.fin 0 : Dbl K)) hp.pos (by simp; rfl)
  refine ⟨by simp [zeroBlock], by simp [zeroBlock], p.sizes.map (lastOnly fun _ => 0), lgs, zero_bins p.sizes hp.pos, f1, lengths_lastOnly _ hp.pos, f2, ?_⟩
  intro g hg
  obtain ⟨sz, _, rfl⟩ := List.mem_map.mp hg
  exact tally_lastOnly _ sz

/-- The constructor: it needs memory for one node and one block. -/
theorem new_eq (p : Params K) (hp : p.Ok) :
    (p.nodeSize + p.total L ≤ p.maxSize → ∃ s : Tree K L, new p = .ok s ∧ OneLeaf p (fun _ => 0) s) ∧
    (¬ p.nodeSize + p.total L ≤ p.maxSize → (new p : Res (Tree K L)) = .error .ub) := by
  have h := newNode_eq (p := p) (s := ({ nodes := [], blocks := fun _ => zeroBlock p, preset := p.maxSize } : Tree K L)) rfl
  simp only [List.length_nil, Nat.zero_add, Nat.one_mul] at h
  constructor
  · intro c
    rw [if_pos c] at h
    refine ⟨_, h, ⟨⟨freshNode p, rfl, rfl, rfl, rfl⟩, rfl, c, ?_⟩⟩
    simp only [Function.update_self]
    exact zero_good p hp
  · intro c
    rw [if_neg c] at h
    exact h

/-! ### The tree with one leaf -/

theorem OneLeaf.nodes_length {p : Params K} {h : Fin L → Nat} {s : Tree K L} (hs : OneLeaf p h s) : s.nodes.length = 1 := by
  obtain ⟨n, hn, _⟩ := hs.node
  simp [hn]

theorem Split.nodes_length {p : Params K} {h : Fin L → Nat} {s : Tree K L} (hs : Split p h s) : s.nodes.length = 3 := by
  obtain ⟨_, _, _, _, hn, _⟩ := hs.node
  simp [hn]

theorem OneLeaf.trainNode {p : Params K} (hp : p.Ok) {h : Fin L → Nat} {s : Tree K L} (hs : OneLeaf p h s) (x : Nat → K) (label : Fin L) :
    ∃ s' r, trainNode p s 0 x label = .ok (s', r) ∧ OneLeaf p (bump h label) s' ∧ ∀ f v, r = some (f, v) → f < p.sizes.length ∧ Suggests p (s'.blocks 0) f v := by
  obtain ⟨n, hn, hsp, hlb, hub⟩ := hs.node
  obtain ⟨b', r, h1, h2, h3⟩ := trainNode_good hp (s := s) (id := 0) (n := n) x label (by rw [hn]; rfl) hsp
    (by rw [hn]; simp only [List.length_cons, List.length_nil]; have := hs.mem; omega) hs.block
  refine ⟨_, r, h1, ⟨⟨grown x n, ?_, hsp, ?_, ?_⟩, hs.preset, hs.mem, ?_⟩, ?_⟩
  · simp [trained, hn]
  · simp only [grown, hlb, growLower_inf]
  · simp only [grown, hub, growUpper_inf]
  · simpa [trained] using h2
  · intro f v hfv
    have := h3 f v hfv
    simpa [trained] using this

theorem Split.trainNode {p : Params K} (hp : p.Ok) {h : Fin L → Nat} {s : Tree K L} (hs : Split p h s) {id : Nat} {n : Node K} (hid : id = 1 ∨ id = 2)
    (hn : s.nodes[id]? = some n) (hl : n.split = -1) (x : Nat → K) (label : Fin L) :
    ∃ s', trainNode p s id x label = .ok (s', none) ∧ Split p (bump h label) s' := by
  obtain ⟨root, right, left, v, hns, hf, hv, hle, hri, hrs, hls⟩ := hs.node
  obtain ⟨b', h1, h2⟩ := trainNode_frozen hp x label hn hl (by rw [hs.nodes_length]; exact hs.mem) hs.block
  refine ⟨_, h1, ?_, hs.preset, hs.mem, by simpa [trained] using h2⟩
  rcases hid with rfl | rfl
  · rw [hns] at hn
    simp only [List.getElem?_cons_succ, List.getElem?_cons_zero, Option.some.injEq] at hn
    subst hn
    exact ⟨root, grown x right, left, v, by simp [trained, hns], hf, hv, hle, hri, hl, hls⟩
  · rw [hns] at hn
    simp only [List.getElem?_cons_succ, List.getElem?_cons_zero, Option.some.injEq] at hn
    subst hn
    exact ⟨root, right, grown x left, v, by simp [trained, hns], hf, hv, hle, hri, hrs, hl⟩

/-- Training a tree with one leaf: it stays so, or is split, or there is not enough memory for the split. -/
theorem OneLeaf.train {p : Params K} (hp : p.Ok) {h : Fin L → Nat} {s : Tree K L} (hs : OneLeaf p h s) (x : Nat → K) (label : Fin L) :
    (∃ s', train p s x label = .ok s' ∧ OneLeaf p (bump h label) s') ∨
    (∃ s', train p s x label = .ok s' ∧ Split p (bump (fun _ => 0) label) s') ∨
    (¬ Fits p L ∧ train p s x label = .error .ub) := by
  obtain ⟨s1, r, h1, h2, h3⟩ := hs.trainNode hp x label
  simp only [Hoeffding.train, sort_one hs, h1, bind, Except.bind]
  match r, h3 with
  | none, _ => exact Or.inl ⟨s1, rfl, h2⟩
  | some (f, v), h3 =>
    obtain ⟨hf, _⟩ := h3 f v rfl
    have hsplit := splitNode_eq hp h2 hf v
    right
    by_cases c : Fits p L
    · left
      obtain ⟨s2, e1, e2, root, right, left, e3, e4, e5⟩ := hsplit.1 c
      simp only [e1]
      obtain ⟨root', right', left', v', hns, _, hv, hle, hri, hrs, hls⟩ := e2.node
      have hr0 : rd s2.nodes 0 = .ok root' := by rw [hns]; rfl
      simp only [hr0]
      by_cases cx : Dbl.le (.fin (x f)) v = true
      · rw [if_pos cx, hle, if_neg (by omega)]
        obtain ⟨s3, g1, g2⟩ := e2.trainNode hp (id := 2) (n := left') (Or.inr rfl) (by rw [hns]; rfl) hls x label
        have : (2 : Int).toNat = 2 := rfl
        rw [this, g1]
        exact ⟨s3, rfl, g2⟩
      · rw [if_neg cx, hri, if_neg (by omega)]
        obtain ⟨s3, g1, g2⟩ := e2.trainNode hp (id := 1) (n := right') (Or.inl rfl) (by rw [hns]; rfl) hrs x label
        have : (1 : Int).toNat = 1 := rfl
        rw [this, g1]
        exact ⟨s3, rfl, g2⟩
    · right
      simp only [hsplit.2 c]
      exact ⟨c, trivial⟩

theorem Split.train {p : Params K} (hp : p.Ok) {h : Fin L → Nat} {s : Tree K L} (hs : Split p h s) (x : Nat → K) (label : Fin L) :
    ∃ s', train p s x label = .ok s' ∧ Split p (bump h label) s' := by
  obtain ⟨id, n, e1, e2, e3, e4⟩ := sort_split hp hs x
  obtain ⟨s', h1, h2⟩ := hs.trainNode hp e2 e3 e4 x label
  simp only [Hoeffding.train, e1, h1, bind, Except.bind]
  exact ⟨s', rfl, h2⟩

/-! ### Predictions -/

theorem Good.counts {p : Params K} (hp : p.Ok) {h : Fin L → Nat} {b : Block K L} (hb : Good p h b) :
    ∃ sz, rd p.sizes 0 = .ok sz ∧ sideSum b.bins 0 0 sz (fun _ => 0) = .ok (fun l => (h l : Int)) := by
  obtain ⟨gs, lgs, e1, _, e3, _, e5⟩ := hb.parts
  match gs, e3 with
  | [], e3 => exact absurd e3.symm hp.ne
  | g :: gs, e3 =>
    refine ⟨g.length, by rw [← e3]; rfl, ?_⟩
    have h1 := sideSum_eq [] gs.flatten g [] (fun _ => 0)
    simp only [List.append_nil, List.nil_append, List.length_nil, Int.zero_add] at h1
    rw [e1, List.flatten_cons, h1, e5 g (by simp)]

theorem predict_of_leaf {p : Params K} (hp : p.Ok) {h : Fin L → Nat} {s : Tree K L} {x : Nat → K} {id : Nat} {n : Node K} (h1 : sortInLeaf p s x = .ok id)
    (h2 : s.nodes[id]? = some n) (h3 : n.split = -1) (hm : s.nodes.length * p.nodeSize + p.total L ≤ p.maxSize) (hb : Good p h (s.blocks 0)) :
    predict p s x = .ok (argmax (scoresOf (fun l => (h l : Int)) : List (Dbl K)), scoresOf (fun l => (h l : Int))) := by
  obtain ⟨sz, e1, e2⟩ := hb.counts hp
  have h2' : rd s.nodes id = .ok n := rd_eq_ok_iff.mpr h2
  simp only [predict, h1, h2', h3, getBlock_leaf hm, e1, e2, bind, Except.bind, pure, Except.pure]

theorem OneLeaf.predict {p : Params K} (hp : p.Ok) {h : Fin L → Nat} {s : Tree K L} (hs : OneLeaf p h s) (x : Nat → K) :
    predict p s x = .ok (argmax (scoresOf (fun l => (h l : Int)) : List (Dbl K)), scoresOf (fun l => (h l : Int))) := by
  obtain ⟨n, hn, hsp, _, _⟩ := hs.node
  exact predict_of_leaf hp (sort_one hs x) (by rw [hn]; rfl) hsp (by rw [hs.nodes_length, Nat.one_mul]; exact hs.mem) hs.block

theorem Split.predict {p : Params K} (hp : p.Ok) {h : Fin L → Nat} {s : Tree K L} (hs : Split p h s) (x : Nat → K) :
    predict p s x = .ok (argmax (scoresOf (fun l => (h l : Int)) : List (Dbl K)), scoresOf (fun l => (h l : Int))) := by
  obtain ⟨id, n, e1, _, e3, e4⟩ := sort_split hp hs x
  exact predict_of_leaf hp e1 e3 e4 (by rw [hs.nodes_length]; exact hs.mem) (hs.block.good hp)

/-! ### Calls on the root -/

theorem OneLeaf.setLimits {p : Params K} (hp : p.Ok) {h : Fin L → Nat} {s : Tree K L} (hs : OneLeaf p h s) (lims : Nat → Dbl K) :
    ∃ s', setLimits p s lims = .ok s' ∧ OneLeaf p h s' := by
  obtain ⟨n, hn, hsp, hlb, hub⟩ := hs.node
  have hm : s.nodes.length * p.nodeSize + p.total L ≤ p.maxSize := by rw [hs.nodes_length, Nat.one_mul]; exact hs.mem
  have h0 : rd s.nodes 0 = .ok n := by rw [hn]; rfl
  simp only [Hoeffding.setLimits, h0, hsp, getBlock_leaf hm, bind, Except.bind]
  rw [setBlock_leaf hm]
  refine ⟨_, rfl, ⟨n, hn, hsp, hlb, hub⟩, hs.preset, hs.mem, ?_⟩
  simp only [Function.update_self]
  exact hs.block.setLimits hp _ (by simp)

theorem blockOf_split {p : Params K} {s : Tree K L} {f : Int} (hf : 0 ≤ f) : blockOf p s f = .error .ub := by
  simp only [blockOf]
  rw [if_neg (by omega)]

theorem Split.root {p : Params K} {h : Fin L → Nat} {s : Tree K L} (hs : Split p h s) : ∃ n, rd s.nodes 0 = .ok n ∧ 0 ≤ n.split := by
  obtain ⟨root, _, _, _, hn, ⟨f, hf, _⟩, _⟩ := hs.node
  exact ⟨root, by rw [hn]; rfl, by omega⟩

theorem Split.setLimits {p : Params K} {h : Fin L → Nat} {s : Tree K L} (hs : Split p h s) (lims : Nat → Dbl K) : setLimits p s lims = .error .ub := by
  obtain ⟨n, hn, hf⟩ := hs.root
  simp only [Hoeffding.setLimits, hn, getBlock, blockOf_split hf, bind, Except.bind]

theorem Split.rootTrain {p : Params K} {h : Fin L → Nat} {s : Tree K L} (hs : Split p h s) (x : Nat → K) (label : Fin L) :
    Hoeffding.trainNode p s 0 x label = .error .ub := by
  obtain ⟨n, hn, hf⟩ := hs.root
  simp only [Hoeffding.trainNode, hn, getBlock, blockOf_split hf, bind, Except.bind]

theorem Split.rootSplit {p : Params K} {h : Fin L → Nat} {s : Tree K L} (hs : Split p h s) (f : Nat) (v : Dbl K) : splitNode p s 0 f v = .error .ub := by
  obtain ⟨n, hn, hf⟩ := hs.root
  obtain ⟨root, right, left, _, hns, _⟩ := hs.node
  have hr : n = root := by
    rw [hns] at hn; exact (Except.ok.inj hn).symm
  have h1 := newNode_eq (p := p) hs.preset
  simp only [splitNode, h1, bind, Except.bind]
  by_cases c : (s.nodes.length + 1) * p.nodeSize + p.total L ≤ p.maxSize
  · rw [if_pos c]
    simp only [hns, List.cons_append, List.nil_append]
    rw [rd_ok (by simp)]
    simp only [List.getElem_cons_zero]
    rw [← hr]
    simp only [copyNode, bind, Except.bind]
    rw [alloc_eq (by exact hs.preset)]
    by_cases c2 : ([n, right, left, freshNode p].length + 1) * p.nodeSize + p.total L ≤ p.maxSize
    · rw [if_pos c2]
      simp only [setBlock, blockOf_split hf, bind, Except.bind]
    · rw [if_neg c2]
  · rw [if_neg c]

theorem OneLeaf.rootSplit_bad {p : Params K} {h : Fin L → Nat} {s : Tree K L} (hs : OneLeaf p h s) {f : Nat} (hf : ¬ f < p.sizes.length) (v : Dbl K) :
    splitNode p s 0 f v = .error .ub := by
  obtain ⟨n, hn, hsp, hlb, hub⟩ := hs.node
  have h1 := newNode_eq (p := p) hs.preset
  simp only [splitNode, h1, bind, Except.bind]
  by_cases c : (s.nodes.length + 1) * p.nodeSize + p.total L ≤ p.maxSize
  · rw [if_pos c]
    simp only [hn, List.cons_append, List.nil_append]
    rw [rd_ok (by simp)]
    simp only [List.getElem_cons_zero]
    have h2 := copyNode_eq (p := p) (s := { s with nodes := [n, freshNode p], blocks := Function.update s.blocks 0 (zeroBlock p) }) hs.preset hsp
    rw [h2]
    by_cases c2 : ([n, freshNode p].length + 1) * p.nodeSize + p.total L ≤ p.maxSize
    · rw [if_pos c2]
      simp only [List.cons_append, List.nil_append, List.length_cons, List.length_nil]
      rw [wr_ok _ (by simp)]
      simp only [List.set_cons_zero]
      rw [rd_ok (by simp)]
      simp only []
      have : wr n.lbox f v = .error .ub := by
        simp only [wr]
        rw [if_neg (by rw [hlb]; simpa using hf)]
      rw [this]
    · rw [if_neg c2]
  · rw [if_neg c]

/-! ### Histories -/

theorem hist_nil (l : Fin L) : hist ([] : List (Op K L)) l = 0 := rfl

theorem bump_add (h : Fin L → Nat) (label : Fin L) (k : Fin L → Nat) : (fun l => bump h label l + k l) = fun l => h l + bump k label l := by
  funext l; simp only [bump]; split <;> omega

theorem hist_train (x : Nat → K) (l : Fin L) (ops : List (Op K L)) : hist (.train x l :: ops) = bump (hist ops) l := by
  funext k
  simp only [hist, labels, bump, List.count_cons]
  by_cases c : k = l
  · subst c; simp
  · have : ¬ (l == k) = true := by simpa using fun e => c e.symm
    simp [c, this]

theorem hist_rootTrain (x : Nat → K) (l : Fin L) (ops : List (Op K L)) : hist (.rootTrain x l :: ops) = bump (hist ops) l := hist_train x l ops

theorem Split.run {p : Params K} (hp : p.Ok) : ∀ (ops : List (Op K L)) {h : Fin L → Nat} {s s' : Tree K L}, Split p h s → run p ops s = .ok s' →
    Split p (fun l => h l + hist ops l) s' := by
  intro ops
  induction ops with
  | nil =>
      intro h s s' hs he
      have := Except.ok.inj he; subst this
      simpa [hist, labels] using hs
  | cons op ops ih =>
      intro h s s' hs he
      simp only [Hoeffding.run, bind, Except.bind] at he
      cases op with
      | train x l =>
          obtain ⟨s1, e1, e2⟩ := hs.train hp x l
          simp only [exec, e1] at he
          have := ih e2 he
          rw [bump_add] at this
          rw [hist_train]; exact this
      | predict x =>
          simp only [exec, hs.predict hp x, Except.map] at he
          exact ih hs he
      | rootTrain x l => simp only [exec, hs.rootTrain, Except.map] at he; cases he
      | setLimits lims => simp only [exec, hs.setLimits] at he; cases he
      | rootSplit f v => simp only [exec, hs.rootSplit] at he; cases he

theorem OneLeaf.run {p : Params K} (hp : p.Ok) : ∀ (ops : List (Op K L)) {h : Fin L → Nat} {s s' : Tree K L}, OneLeaf p h s → run p ops s = .ok s' →
    OneLeaf p (fun l => h l + hist ops l) s' ∨ ∃ k, (∃ op, ops[k]? = some op ∧ op.maySplit) ∧ Split p (hist (ops.drop k)) s' := by
  intro ops
  induction ops with
  | nil =>
      intro h s s' hs he
      have := Except.ok.inj he; subst this
      left
      simpa [hist, labels] using hs
  | cons op ops ih =>
      intro h s s' hs he
      simp only [Hoeffding.run, bind, Except.bind] at he
      have next : ∀ {h' : Fin L → Nat} {s1 : Tree K L}, OneLeaf p h' s1 → Hoeffding.run p ops s1 = .ok s' → (fun l => h' l + hist ops l) = (fun l => h l + hist (op :: ops) l) →
          OneLeaf p (fun l => h l + hist (op :: ops) l) s' ∨ ∃ k, (∃ o, (op :: ops)[k]? = some o ∧ o.maySplit) ∧ Split p (hist ((op :: ops).drop k)) s' := by
        intro h' s1 h1 h2 h3
        rcases ih h1 h2 with h4 | ⟨k, hk, h4⟩
        · left; rw [← h3]; exact h4
        · right; exact ⟨k + 1, by simpa using hk, h4⟩
      cases op with
      | train x l =>
          rcases hs.train hp x l with ⟨s1, e1, e2⟩ | ⟨s1, e1, e2⟩ | ⟨_, e1⟩
          · simp only [exec, e1] at he
            exact next e2 he (by rw [bump_add, hist_train])
          · simp only [exec, e1] at he
            right
            refine ⟨0, ⟨_, rfl, trivial⟩, ?_⟩
            have := e2.run hp ops he
            rw [bump_add] at this
            simp only [List.drop_zero, hist_train]
            simpa using this
          · simp only [exec, e1] at he; cases he
      | predict x =>
          simp only [exec, hs.predict hp x, Except.map] at he
          exact next hs he rfl
      | rootTrain x l =>
          obtain ⟨s1, r, e1, e2, _⟩ := hs.trainNode hp x l
          simp only [exec, e1, Except.map] at he
          exact next e2 he (by rw [bump_add, hist_rootTrain])
      | setLimits lims =>
          obtain ⟨s1, e1, e2⟩ := hs.setLimits hp lims
          simp only [exec, e1] at he
          exact next e2 he rfl
      | rootSplit f v =>
          by_cases hf : f < p.sizes.length
          · have hsp := splitNode_eq hp hs hf v
            by_cases c : 3 * p.nodeSize + p.total L ≤ p.maxSize
            · obtain ⟨s1, e1, e2, _⟩ := hsp.1 c
              simp only [exec, e1] at he
              right
              refine ⟨0, ⟨_, rfl, trivial⟩, ?_⟩
              have := e2.run hp ops he
              have e : hist ((.rootSplit f v : Op K L) :: ops) = hist ops := rfl
              simp only [List.drop_zero, e]
              simpa using this
            · simp only [exec, hsp.2 c] at he; cases he
          · simp only [exec, hs.rootSplit_bad hf] at he; cases he

/-- Every history leaves the tree with one leaf, or split once; the counters hold the labels of all points, or of those since the split. -/
theorem run_cases {p : Params K} (hp : p.Ok) {ops : List (Op K L)} {s0 s : Tree K L} (h0 : new p = .ok s0) (hr : run p ops s0 = .ok s) :
    OneLeaf p (hist ops) s ∨ ∃ k, (∃ op, ops[k]? = some op ∧ op.maySplit) ∧ Split p (hist (ops.drop k)) s := by
  have hn := new_eq (L := L) p hp
  by_cases c : p.nodeSize + p.total L ≤ p.maxSize
  · obtain ⟨s1, e1, e2⟩ := hn.1 c
    rw [e1] at h0
    have := Except.ok.inj h0; subst this
    have := OneLeaf.run hp ops e2 hr
    simpa using this
  · rw [hn.2 c] at h0; cases h0

end Orp.Hoeffding
