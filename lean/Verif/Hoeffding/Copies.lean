import Verif.Hoeffding.Run

/-!
Copies of a tree. The class declares no copy constructor, so a copy has the bytes of the original. Each node stores the address of the tree it belongs to
(hoeffding_tree.hpp:31), and so the nodes of the copy belong to the original: they use the counters, the limits and the free memory of the original. Only the walk
down the tree (`sort_in_leaf`) starts from the buffer of the copy.
-/

namespace Orp.Hoeffding

set_option linter.unusedSectionVars false

variable {K : Type} [Field K] [LinearOrder K] {L : Nat}

/-- A tree and a copy of it, both alive. Of the copy only the nodes matter: its blocks are never read (hoeffding_tree.hpp:400-434 use `tree`). -/
structure Pair (K : Type) (L : Nat) where
  orig : Tree K L
  copy : List (Node K)

/-- The implicit copy constructor (hoeffding_tree.hpp:15-24 declares none) -/
def copyOf (s : Tree K L) : Pair K L := ⟨s, s.nodes⟩

/-- What `sort_in_leaf` sees when called on the copy (hoeffding_tree.hpp:545-559): the buffer of the copy -/
def Pair.own (w : Pair K L) : Tree K L := { w.orig with nodes := w.copy }

/-- `Node::train` (hoeffding_tree.hpp:161-245) on node `id` of the copy: the box is in the node, the block in the original. -/
def copyTrainNode (p : Params K) (w : Pair K L) (id : Nat) (x : Nat → K) (label : Fin L) : Res (Pair K L × Option (Nat × Dbl K)) := do
  let n ← rd w.copy id
  let b ← getBlock p w.orig n.split
  let count := b.count + 1
  let nodes ← wr w.copy id { n with
    lbox := growLower x 0 n.lbox
    ubox := growUpper x 0 n.ubox }
  let bins ← fillBins b.limits x label 0 0 p.sizes b.bins
  let g ← gains p count bins
  let infoSum := List.zipWith (· + ·) b.infoSum g
  let s ← setBlock p w.orig n.split { b with
    count := count
    infoSum := infoSum
    bins := bins }
  let (best, g0, g1) ← bestTwo (infoSum.map (fun a => a / (count : K)))
  let epsilon := 4 * p.log (1 / p.delta) / (2 * (count : K))
  let diff := g0 - g1
  if epsilon < diff * diff ∧ 0 < g0 then do
    let v ← rd b.limits best
    return (⟨s, nodes⟩, some (decode p.sizes best, v))
  else return (⟨s, nodes⟩, none)

/-- `Node::split` (hoeffding_tree.hpp:126-154) on node `id` of the copy: the children are made in the original, and so are their indices. -/
def copySplit (p : Params K) (w : Pair K L) (id : Nat) (feature : Nat) (value : Dbl K) : Res (Pair K L) := do
  let right := w.orig.nodes.length
  let s ← newNode p w.orig
  let n ← rd w.copy id
  let left := s.nodes.length
  let s ← copyNode p s n
  let copy ← wr w.copy id { n with
    split := feature
    value := some value
    left := left
    right := right }
  let r ← rd s.nodes right
  let rl ← wr n.lbox feature value
  let nodes ← wr s.nodes right { r with
    lbox := rl
    ubox := n.ubox }
  let l ← rd nodes left
  let lu ← wr l.ubox feature value
  let nodes ← wr nodes left { l with ubox := lu }
  let s ← selectSplitValues p { s with nodes := nodes } right
  let s ← selectSplitValues p s left
  return ⟨s, copy⟩

/-- `train` (hoeffding_tree.hpp:499-513) on the copy; `get_left_child` and `get_right_child` look in the original. -/
def copyTrain (p : Params K) (w : Pair K L) (x : Nat → K) (label : Fin L) : Res (Pair K L) := do
  let leaf ← sortInLeaf p w.own x
  let (w, r) ← copyTrainNode p w leaf x label
  match r with
  | none => return w
  | some (f, v) => do
      let w ← copySplit p w leaf f v
      let n ← rd w.copy leaf
      let child := if Dbl.le (.fin (x f)) v then n.left else n.right
      if child < 0 then .error .ub
      else do
        let (s, _) ← trainNode p w.orig child.toNat x label
        return ⟨s, w.copy⟩

/-- `predict` (hoeffding_tree.hpp:520-533) on the copy -/
def copyPredict (p : Params K) (w : Pair K L) (x : Nat → K) : Res (Nat × List (Dbl K)) := do
  let leaf ← sortInLeaf p w.own x
  let n ← rd w.copy leaf
  let b ← getBlock p w.orig n.split
  let sz ← rd p.sizes 0
  let c ← sideSum b.bins 0 0 sz (fun _ => 0)
  let sc := scoresOf c
  return (argmax sc, sc)

/-- A call on the original or on the copy -/
inductive PairOp (K : Type) (L : Nat) where
  | trainOrig (x : Nat → K) (label : Fin L)
  | predictOrig (x : Nat → K)
  | trainCopy (x : Nat → K) (label : Fin L)
  | predictCopy (x : Nat → K)

/-- The same call on a tree without copy -/
def PairOp.asOne : PairOp K L → Op K L
  | .trainOrig x l => .train x l
  | .predictOrig x => .predict x
  | .trainCopy x l => .train x l
  | .predictCopy x => .predict x

/-- Executes a call on the original or the copy. -/
def execPair (p : Params K) (op : PairOp K L) (w : Pair K L) : Res (Pair K L) :=
  match op with
  | .trainOrig x label => (train p w.orig x label).map (fun s => ⟨s, w.copy⟩)
  | .predictOrig x => (predict p w.orig x).map (fun _ => w)
  | .trainCopy x label => copyTrain p w x label
  | .predictCopy x => (copyPredict p w x).map (fun _ => w)

/-- A history of calls on both -/
def runPair (p : Params K) : List (PairOp K L) → Pair K L → Res (Pair K L)
  | [], w => .ok w
  | op :: ops, w => do
      let w ← execPair p op w
      runPair p ops w

/-! ### Training a leaf depends on the block only -/

/-- what training does to a block, and the split it suggests -/
def leafStep (p : Params K) (b : Block K L) (x : Nat → K) (label : Fin L) : Res (Block K L × Option (Nat × Dbl K)) := do
  let count := b.count + 1
  let bins ← fillBins b.limits x label 0 0 p.sizes b.bins
  let g ← gains p count bins
  let infoSum := List.zipWith (· + ·) b.infoSum g
  let b' : Block K L := { b with count := count, infoSum := infoSum, bins := bins }
  let (best, g0, g1) ← bestTwo (infoSum.map (fun a => a / (count : K)))
  let epsilon := 4 * p.log (1 / p.delta) / (2 * (count : K))
  let diff := g0 - g1
  if epsilon < diff * diff ∧ 0 < g0 then do
    let v ← rd b.limits best
    return (b', some (decode p.sizes best, v))
  else return (b', none)

theorem trainNode_step {p : Params K} {s : Tree K L} {id : Nat} {n : Node K} (x : Nat → K) (label : Fin L) (hn : s.nodes[id]? = some n) (hl : n.split = -1)
    (hm : s.nodes.length * p.nodeSize + p.total L ≤ p.maxSize) :
    trainNode p s id x label = (leafStep p (s.blocks 0) x label).map (fun r => (trained s id (grown x n) r.1, r.2)) := by
  have hid : id < s.nodes.length := (List.getElem?_eq_some_iff.mp hn).1
  have h1 : rd s.nodes id = .ok n := rd_eq_ok_iff.mpr hn
  simp only [trainNode, h1, hl, getBlock_leaf hm, wr_ok _ hid, bind, Except.bind, leafStep]
  cases fillBins (s.blocks 0).limits x label 0 0 p.sizes (s.blocks 0).bins with
  | error e => rfl
  | ok bins =>
    simp only []
    cases gains p ((s.blocks 0).count + 1) bins with
    | error e => rfl
    | ok g =>
      simp only []
      rw [setBlock_leaf (by simpa using hm)]
      simp only []
      cases bestTwo (List.map (fun a => a / (((s.blocks 0).count + 1 : Nat) : K)) (List.zipWith (fun x1 x2 => x1 + x2) (s.blocks 0).infoSum g)) with
      | error e => rfl
      | ok r =>
        obtain ⟨best, g0, g1⟩ := r
        simp only []
        split
        · cases rd (s.blocks 0).limits best with
          | error e => rfl
          | ok v => simp [Except.map, pure, Except.pure, trained, grown, hl]
        · simp [Except.map, pure, Except.pure, trained, grown, hl]

theorem copyTrainNode_step {p : Params K} {w : Pair K L} {id : Nat} {n : Node K} (x : Nat → K) (label : Fin L) (hn : w.copy[id]? = some n) (hl : n.split = -1)
    (hm : w.orig.nodes.length * p.nodeSize + p.total L ≤ p.maxSize) :
    copyTrainNode p w id x label = (leafStep p (w.orig.blocks 0) x label).map
      (fun r => (⟨{ w.orig with blocks := Function.update w.orig.blocks 0 r.1 }, w.copy.set id (grown x n)⟩, r.2)) := by
  have hid : id < w.copy.length := (List.getElem?_eq_some_iff.mp hn).1
  have h1 : rd w.copy id = .ok n := rd_eq_ok_iff.mpr hn
  simp only [copyTrainNode, h1, hl, getBlock_leaf hm, wr_ok _ hid, bind, Except.bind, leafStep]
  cases fillBins (w.orig.blocks 0).limits x label 0 0 p.sizes (w.orig.blocks 0).bins with
  | error e => rfl
  | ok bins =>
    simp only []
    cases gains p ((w.orig.blocks 0).count + 1) bins with
    | error e => rfl
    | ok g =>
      simp only []
      rw [setBlock_leaf hm]
      simp only []
      cases bestTwo (List.map (fun a => a / (((w.orig.blocks 0).count + 1 : Nat) : K)) (List.zipWith (fun x1 x2 => x1 + x2) (w.orig.blocks 0).infoSum g)) with
      | error e => rfl
      | ok r =>
        obtain ⟨best, g0, g1⟩ := r
        simp only []
        split
        · cases rd (w.orig.blocks 0).limits best with
          | error e => rfl
          | ok v => simp [Except.map, pure, Except.pure, trained, grown, hl]
        · simp [Except.map, pure, Except.pure, trained, grown, hl]

/-! ### The states of a pair -/

section states
variable [IsStrictOrderedRing K]

/-- the copy has one leaf -/
def Shape1 (p : Params K) (c : List (Node K)) : Prop :=
  ∃ n, c = [n] ∧ n.split = -1 ∧ n.lbox = List.replicate p.sizes.length .ninf ∧ n.ubox = List.replicate p.sizes.length .pinf

/-- the copy was made after the split -/
def Shape3 (p : Params K) (c : List (Node K)) : Prop :=
  ∃ root right left v, c = [root, right, left] ∧ (∃ f : Nat, root.split = f ∧ f < p.sizes.length) ∧ root.value = some v ∧ root.left = 2 ∧ root.right = 1 ∧
    right.split = -1 ∧ left.split = -1

/-- the copy has been split: its root refers to two nodes which the copy does not have -/
def Torn (p : Params K) (c : List (Node K)) : Prop :=
  ∃ root v, c = [root] ∧ (∃ f : Nat, root.split = f ∧ f < p.sizes.length) ∧ root.value = some v ∧ root.left = 2 ∧ root.right = 1

/-- the original when the copy has been split: two more leaves, which are not reached -/
structure Half (p : Params K) (h : Fin L → Nat) (s : Tree K L) : Prop where
  node : ∃ n right left, s.nodes = [n, right, left] ∧ n.split = -1 ∧ right.split = -1 ∧ left.split = -1
  mem : 3 * p.nodeSize + p.total L ≤ p.maxSize
  block : Frozen p h (s.blocks 0)

/-- the states of a pair, beside the tree `one` that got all the calls -/
inductive Linked (p : Params K) (h : Fin L → Nat) (w : Pair K L) (one : Tree K L) : Prop
  | together : OneLeaf p h w.orig → OneLeaf p h one → w.orig.blocks 0 = one.blocks 0 → Shape1 p w.copy → Linked p h w one
  | apart : Split p h w.orig → Split p h one → (Shape1 p w.copy ∨ Shape3 p w.copy) → Linked p h w one
  | torn : Half p h w.orig → Split p h one → Torn p w.copy → Linked p h w one

theorem Half.nodes_length {p : Params K} {h : Fin L → Nat} {s : Tree K L} (hs : Half p h s) : s.nodes.length = 3 := by
  obtain ⟨_, _, _, hn, _⟩ := hs.node
  simp [hn]

/-- Training with NaN limits suggests no split. -/
theorem leafStep_frozen {p : Params K} (hp : p.Ok) {h : Fin L → Nat} {b : Block K L} (hb : Frozen p h b) (hm : p.nodeSize + p.total L ≤ p.maxSize) (x : Nat → K) (label : Fin L) :
    ∃ b', leafStep p b x label = .ok (b', none) ∧ Frozen p (bump h label) b' := by
  let s : Tree K L := { nodes := [freshNode p], blocks := fun _ => b, preset := p.maxSize }
  have hm' : s.nodes.length * p.nodeSize + p.total L ≤ p.maxSize := by simpa [s] using hm
  obtain ⟨b', h1, h2⟩ := trainNode_frozen hp (s := s) (id := 0) (n := freshNode p) x label rfl rfl hm' hb
  have h3 := trainNode_step (p := p) (s := s) (id := 0) (n := freshNode p) x label rfl rfl hm'
  rw [h1] at h3
  have hs : s.blocks 0 = b := rfl
  rw [hs] at h3
  cases hl : leafStep p b x label with
  | error e => rw [hl] at h3; cases h3
  | ok r =>
    obtain ⟨b2, r2⟩ := r
    rw [hl] at h3
    simp only [Except.map, Except.ok.injEq, Prod.mk.injEq] at h3
    obtain ⟨h4, rfl⟩ := h3
    have h5 : (trained s 0 (grown x (freshNode p)) b').blocks 0 = (trained s 0 (grown x (freshNode p)) b2).blocks 0 := by rw [h4]
    simp only [trained, Function.update_self] at h5
    exact ⟨b2, rfl, by rw [← h5]; exact h2⟩

/-- Training with consistent counters keeps them consistent. -/
theorem leafStep_good {p : Params K} (hp : p.Ok) {h : Fin L → Nat} {b : Block K L} (hb : Good p h b) (hm : p.nodeSize + p.total L ≤ p.maxSize) (x : Nat → K) (label : Fin L) :
    ∃ b' r, leafStep p b x label = .ok (b', r) ∧ Good p (bump h label) b' ∧ ∀ f v, r = some (f, v) → f < p.sizes.length := by
  let s : Tree K L := { nodes := [freshNode p], blocks := fun _ => b, preset := p.maxSize }
  have hm' : s.nodes.length * p.nodeSize + p.total L ≤ p.maxSize := by simpa [s] using hm
  obtain ⟨b', r', h1, h2, h6⟩ := trainNode_good hp (s := s) (id := 0) (n := freshNode p) x label rfl rfl hm' hb
  have h3 := trainNode_step (p := p) (s := s) (id := 0) (n := freshNode p) x label rfl rfl hm'
  rw [h1] at h3
  have hs : s.blocks 0 = b := rfl
  rw [hs] at h3
  cases hl : leafStep p b x label with
  | error e => rw [hl] at h3; cases h3
  | ok r =>
    obtain ⟨b2, r2⟩ := r
    rw [hl] at h3
    simp only [Except.map, Except.ok.injEq, Prod.mk.injEq] at h3
    obtain ⟨h4, rfl⟩ := h3
    have h5 : (trained s 0 (grown x (freshNode p)) b').blocks 0 = (trained s 0 (grown x (freshNode p)) b2).blocks 0 := by rw [h4]
    simp only [trained, Function.update_self] at h5
    exact ⟨b2, _, rfl, by rw [← h5]; exact h2, fun f v e => (h6 f v e).1⟩

/-- A tree with one leaf, in terms of the block: it keeps the leaf, or is split if the memory suffices. -/
theorem OneLeaf.train_step {p : Params K} (hp : p.Ok) {h : Fin L → Nat} {s : Tree K L} (hs : OneLeaf p h s) (x : Nat → K) (label : Fin L)
    {b' : Block K L} {r : Option (Nat × Dbl K)} (hb : leafStep p (s.blocks 0) x label = .ok (b', r)) (hg : Good p (bump h label) b')
    (hr : ∀ f v, r = some (f, v) → f < p.sizes.length) :
    (r = none → ∃ s', Hoeffding.train p s x label = .ok s' ∧ OneLeaf p (bump h label) s' ∧ s'.blocks 0 = b') ∧
    (r ≠ none → (Fits p L → ∃ s', Hoeffding.train p s x label = .ok s' ∧ Split p (bump (fun _ => 0) label) s') ∧
      (¬ Fits p L → Hoeffding.train p s x label = .error .ub)) := by
  obtain ⟨n, hn, hsp, hlb, hub⟩ := hs.node
  have h1 := trainNode_step (p := p) (s := s) (id := 0) (n := n) x label (by rw [hn]; rfl) hsp
    (by rw [hn]; simp only [List.length_cons, List.length_nil]; have := hs.mem; omega)
  rw [hb] at h1
  simp only [Except.map] at h1
  have h2 : OneLeaf p (bump h label) (trained s 0 (grown x n) b') := by
    refine ⟨⟨grown x n, ?_, hsp, ?_, ?_⟩, hs.preset, hs.mem, ?_⟩
    · simp [trained, hn]
    · simp only [grown, hlb, growLower_inf]
    · simp only [grown, hub, growUpper_inf]
    · simpa [trained] using hg
  constructor
  · rintro rfl
    refine ⟨trained s 0 (grown x n) b', ?_, h2, by simp [trained]⟩
    simp only [Hoeffding.train, sort_one hs, h1, bind, Except.bind, pure, Except.pure]
  · intro hne
    rcases hs.train hp x label with ⟨s', e1, e2⟩ | ⟨s', e1, e2⟩ | ⟨e1, e2⟩
    · exfalso
      match r, hne with
      | some (f, v), _ =>
        have hf := hr f v rfl
        have hsplit := splitNode_eq hp h2 hf v
        simp only [Hoeffding.train, sort_one hs, h1, bind, Except.bind] at e1
        by_cases c : Fits p L
        · obtain ⟨s2, g1, g2, _⟩ := hsplit.1 c
          simp only [g1] at e1
          obtain ⟨root', right', left', v', hns, _, hv, hle, hri, hrs, hls⟩ := g2.node
          have hr0 : rd s2.nodes 0 = .ok root' := by rw [hns]; rfl
          simp only [hr0] at e1
          by_cases cx : Dbl.le (.fin (x f)) v = true
          · rw [if_pos cx, hle, if_neg (by omega)] at e1
            obtain ⟨s3, k1, k2⟩ := g2.trainNode hp (id := 2) (n := left') (Or.inr rfl) (by rw [hns]; rfl) hls x label
            have : (2 : Int).toNat = 2 := rfl
            rw [this, k1] at e1
            have hq : s3 = s' := Except.ok.inj e1
            have a1 := k2.nodes_length
            have a2 := e2.nodes_length
            rw [hq, a2] at a1
            omega
          · rw [if_neg cx, hri, if_neg (by omega)] at e1
            obtain ⟨s3, k1, k2⟩ := g2.trainNode hp (id := 1) (n := right') (Or.inl rfl) (by rw [hns]; rfl) hrs x label
            have : (1 : Int).toNat = 1 := rfl
            rw [this, k1] at e1
            have hq : s3 = s' := Except.ok.inj e1
            have a1 := k2.nodes_length
            have a2 := e2.nodes_length
            rw [hq, a2] at a1
            omega
        · simp only [hsplit.2 c] at e1; cases e1
    · refine ⟨fun _ => ⟨s', e1, e2⟩, fun c => absurd e2.mem c⟩
    · exact ⟨fun c => absurd c e1, fun _ => e2⟩

/-- The split of the copy: the new leaves are in the original, which itself is not split. -/
theorem copySplit_eq {p : Params K} (hp : p.Ok) {h : Fin L → Nat} {w : Pair K L} (hs : OneLeaf p h w.orig) (hc : Shape1 p w.copy) {f : Nat} (hf : f < p.sizes.length) (v : Dbl K) :
    (Fits p L → ∃ w', copySplit p w 0 f v = .ok w' ∧ Half p (fun _ => 0) w'.orig ∧ Torn p w'.copy) ∧ (¬ Fits p L → copySplit p w 0 f v = .error .ub) := by
  obtain ⟨⟨m, hm, hmsp, _, _⟩, hpre, hmem, hblk⟩ := hs
  obtain ⟨n, hn, hsp, hlb, hub⟩ := hc
  have hfl : f < n.lbox.length := by rw [hlb]; simpa using hf
  have hfu : f < n.ubox.length := by rw [hub]; simpa using hf
  simp only [Fits]
  constructor
  · intro c3
    have c2 : (w.orig.nodes.length + 1) * p.nodeSize + p.total L ≤ p.maxSize := by rw [hm]; simp only [List.length_cons, List.length_nil]; omega
    have h1 := newNode_eq (p := p) hpre
    rw [if_pos c2] at h1
    simp only [copySplit, h1, bind, Except.bind, hm, hn, List.cons_append, List.nil_append]
    rw [rd_ok (by simp)]
    simp only [List.getElem_cons_zero]
    have h2 := copyNode_eq (p := p) (s := { w.orig with nodes := [m, freshNode p], blocks := Function.update w.orig.blocks 0 (zeroBlock p) }) hpre hsp
    rw [if_pos (by simp only [List.length_cons, List.length_nil]; omega)] at h2
    rw [h2]
    simp only [List.cons_append, List.nil_append, List.length_cons, List.length_nil]
    rw [wr_ok _ (by simp)]
    simp only [List.set_cons_zero]
    rw [rd_ok (by simp)]
    simp only [List.getElem_cons_succ, List.getElem_cons_zero]
    rw [wr_ok _ hfl]
    simp only []
    rw [wr_ok _ (by simp)]
    simp only [List.set_cons_zero, List.set_cons_succ]
    rw [rd_ok (by simp)]
    simp only [List.getElem_cons_succ, List.getElem_cons_zero]
    rw [wr_ok _ (by simpa using hfu)]
    simp only []
    rw [wr_ok _ (by simp)]
    simp only [List.set_cons_zero, List.set_cons_succ, selectSplitValues, bind, Except.bind]
    rw [rd_ok (by simp)]
    simp only [List.getElem_cons_succ, List.getElem_cons_zero, freshNode]
    rw [getBlock_leaf (by simp only [List.length_cons, List.length_nil]; omega)]
    simp only []
    rw [setBlock_leaf (by simp only [List.length_cons, List.length_nil]; omega)]
    simp only []
    rw [rd_ok (by simp)]
    simp only [List.getElem_cons_succ, List.getElem_cons_zero, hsp]
    rw [getBlock_leaf (by simp only [List.length_cons, List.length_nil]; omega)]
    simp only []
    rw [setBlock_leaf (by simp only [List.length_cons, List.length_nil]; omega)]
    refine ⟨_, rfl, ⟨⟨_, _, _, rfl, hmsp, rfl, rfl⟩, c3, ?_⟩, ⟨_, _, rfl, ⟨f, rfl, hf⟩, rfl, rfl, rfl⟩⟩
    simp only [Function.update_self]
    refine ⟨by simp [zeroBlock], ?_, by simp [zeroBlock], ?_⟩
    · rw [hlb, newLimits_nan _ _ (by rw [hub]; simp) hp.pos, replicate_flatten _ _ hp.pos]
      rfl
    · exact zero_bins p.sizes hp.pos
  · intro c3
    have h1 := newNode_eq (p := p) hpre
    by_cases c2 : (w.orig.nodes.length + 1) * p.nodeSize + p.total L ≤ p.maxSize
    · rw [if_pos c2] at h1
      simp only [copySplit, h1, bind, Except.bind, hm, hn, List.cons_append, List.nil_append]
      rw [rd_ok (by simp)]
      simp only [List.getElem_cons_zero]
      have h2 := copyNode_eq (p := p) (s := { w.orig with nodes := [m, freshNode p], blocks := Function.update w.orig.blocks 0 (zeroBlock p) }) hpre hsp
      rw [if_neg (by simp only [List.length_cons, List.length_nil]; omega)] at h2
      rw [h2]
    · rw [if_neg c2] at h1
      simp only [copySplit, h1, bind, Except.bind]

/-! ### Walking down the copy -/

theorem sort_leaf {p : Params K} {s : Tree K L} {n : Node K} (hn : s.nodes[0]? = some n) (hl : n.split = -1) (x : Nat → K) : sortInLeaf p s x = .ok 0 := by
  have h1 : rd s.nodes 0 = .ok n := rd_eq_ok_iff.mpr hn
  simp only [sortInLeaf]
  cases p.maxSize / p.nodeSize with
  | zero => rfl
  | succ k => simp [sortLoop, h1, bind, Except.bind, hl, pure, Except.pure]

theorem sort_shape3 {p : Params K} (hp : p.Ok) {s : Tree K L} (hs : Shape3 p s.nodes) (hm : 3 * p.nodeSize + p.total L ≤ p.maxSize) (x : Nat → K) :
    ∃ id n, sortInLeaf p s x = .ok id ∧ (id = 1 ∨ id = 2) ∧ s.nodes[id]? = some n ∧ n.split = -1 := by
  obtain ⟨root, right, left, v, hn, ⟨f, hf1, hf2⟩, hv, hl, hr, hrs, hls⟩ := hs
  have hk : 3 ≤ p.maxSize / p.nodeSize := by
    rw [Nat.le_div_iff_mul_le hp.node]; omega
  obtain ⟨k, hk⟩ : ∃ k, p.maxSize / p.nodeSize = k + 2 := ⟨p.maxSize / p.nodeSize - 2, by omega⟩
  have h0 : rd s.nodes 0 = .ok root := by rw [hn]; rfl
  have h1 : rd s.nodes 1 = .ok right := by rw [hn]; rfl
  have h2 : rd s.nodes 2 = .ok left := by rw [hn]; rfl
  simp only [sortInLeaf, hk, sortLoop, h0, bind, Except.bind, hf1, hv]
  rw [if_neg (by omega), Int.toNat_natCast, if_neg (by omega)]
  by_cases c : Dbl.le (.fin (x f)) v = true
  · rw [if_pos c, hl]
    rw [if_neg (by omega)]
    have : (2 : Int).toNat = 2 := rfl
    rw [this, h2]
    simp only [hls]
    exact ⟨2, left, rfl, Or.inr rfl, by rw [hn]; rfl, hls⟩
  · rw [if_neg c, hr]
    rw [if_neg (by omega)]
    have : (1 : Int).toNat = 1 := rfl
    rw [this, h1]
    simp only [hrs]
    exact ⟨1, right, rfl, Or.inl rfl, by rw [hn]; rfl, hrs⟩

theorem sort_torn {p : Params K} (hp : p.Ok) {s : Tree K L} (hs : Torn p s.nodes) (hm : 3 * p.nodeSize + p.total L ≤ p.maxSize) (x : Nat → K) :
    sortInLeaf p s x = .error .ub := by
  obtain ⟨root, v, hn, ⟨f, hf1, hf2⟩, hv, hl, hr⟩ := hs
  have hk : 3 ≤ p.maxSize / p.nodeSize := by
    rw [Nat.le_div_iff_mul_le hp.node]; omega
  obtain ⟨k, hk⟩ : ∃ k, p.maxSize / p.nodeSize = k + 2 := ⟨p.maxSize / p.nodeSize - 2, by omega⟩
  have h0 : rd s.nodes 0 = .ok root := by rw [hn]; rfl
  have h1 : rd s.nodes 1 = .error .ub := by rw [hn]; rfl
  have h2 : rd s.nodes 2 = .error .ub := by rw [hn]; rfl
  simp only [sortInLeaf, hk, sortLoop, h0, bind, Except.bind, hf1, hv]
  rw [if_neg (by omega), Int.toNat_natCast, if_neg (by omega)]
  by_cases c : Dbl.le (.fin (x f)) v = true
  · rw [if_pos c, hl, if_neg (by omega)]
    have : (2 : Int).toNat = 2 := rfl
    rw [this, h2]
  · rw [if_neg c, hr, if_neg (by omega)]
    have : (1 : Int).toNat = 1 := rfl
    rw [this, h1]

/-- what is predicted for the counts `h` -/
def answer (h : Fin L → Nat) : Nat × List (Dbl K) := (argmax (scoresOf (fun l => (h l : Int)) : List (Dbl K)), scoresOf (fun l => (h l : Int)))

theorem copyPredict_of_leaf {p : Params K} (hp : p.Ok) {h : Fin L → Nat} {w : Pair K L} {x : Nat → K} {id : Nat} {n : Node K} (h1 : sortInLeaf p w.own x = .ok id)
    (h2 : w.copy[id]? = some n) (h3 : n.split = -1) (hm : w.orig.nodes.length * p.nodeSize + p.total L ≤ p.maxSize) (hb : Good p h (w.orig.blocks 0)) :
    copyPredict p w x = .ok (answer h) := by
  obtain ⟨sz, e1, e2⟩ := hb.counts hp
  have h2' : rd w.copy id = .ok n := rd_eq_ok_iff.mpr h2
  simp only [copyPredict, h1, h2', h3, getBlock_leaf hm, e1, e2, bind, Except.bind, pure, Except.pure, answer]

theorem Half.predict {p : Params K} (hp : p.Ok) {h : Fin L → Nat} {s : Tree K L} (hs : Half p h s) (x : Nat → K) : Hoeffding.predict p s x = .ok (answer h) := by
  obtain ⟨n, right, left, hn, h1, h2, h3⟩ := hs.node
  have h0 : s.nodes[0]? = some n := by rw [hn]; rfl
  exact predict_of_leaf hp (sort_leaf h0 h1 x) h0 h1 (by rw [hs.nodes_length]; exact hs.mem) (hs.block.good hp)

theorem Half.trainNode {p : Params K} (hp : p.Ok) {h : Fin L → Nat} {s : Tree K L} (hs : Half p h s) {id : Nat} (hid : id < 3) (x : Nat → K) (label : Fin L) :
    ∃ s', Hoeffding.trainNode p s id x label = .ok (s', none) ∧ Half p (bump h label) s' := by
  obtain ⟨n, right, left, hn, h1, h2, h3⟩ := hs.node
  have hm : s.nodes.length * p.nodeSize + p.total L ≤ p.maxSize := by rw [hs.nodes_length]; exact hs.mem
  match id, hid with
  | 0, _ =>
    obtain ⟨b', e1, e2⟩ := trainNode_frozen hp (id := 0) x label (by rw [hn]; rfl) h1 hm hs.block
    exact ⟨_, e1, ⟨⟨grown x n, right, left, by simp [trained, hn], h1, h2, h3⟩, hs.mem, by simpa [trained] using e2⟩⟩
  | 1, _ =>
    obtain ⟨b', e1, e2⟩ := trainNode_frozen hp (id := 1) x label (by rw [hn]; rfl) h2 hm hs.block
    exact ⟨_, e1, ⟨⟨n, grown x right, left, by simp [trained, hn], h1, h2, h3⟩, hs.mem, by simpa [trained] using e2⟩⟩
  | 2, _ =>
    obtain ⟨b', e1, e2⟩ := trainNode_frozen hp (id := 2) x label (by rw [hn]; rfl) h3 hm hs.block
    exact ⟨_, e1, ⟨⟨n, right, grown x left, by simp [trained, hn], h1, h2, h3⟩, hs.mem, by simpa [trained] using e2⟩⟩

theorem Half.train {p : Params K} (hp : p.Ok) {h : Fin L → Nat} {s : Tree K L} (hs : Half p h s) (x : Nat → K) (label : Fin L) :
    ∃ s', Hoeffding.train p s x label = .ok s' ∧ Half p (bump h label) s' := by
  obtain ⟨n, right, left, hn, h1, h2, h3⟩ := hs.node
  have h0 : s.nodes[0]? = some n := by rw [hn]; rfl
  obtain ⟨s', e1, e2⟩ := hs.trainNode hp (id := 0) (by omega) x label
  refine ⟨s', ?_, e2⟩
  simp only [Hoeffding.train, sort_leaf h0 h1 x, e1, bind, Except.bind, pure, Except.pure]

/-! ### What the two predict -/

theorem Linked.predict_one {p : Params K} (hp : p.Ok) {h : Fin L → Nat} {w : Pair K L} {one : Tree K L} (hl : Linked p h w one) (x : Nat → K) :
    Hoeffding.predict p one x = .ok (answer h) := by
  cases hl with
  | together _ h2 _ _ => exact h2.predict hp x
  | apart _ h2 _ => exact h2.predict hp x
  | torn _ h2 _ => exact h2.predict hp x

theorem Linked.predict_orig {p : Params K} (hp : p.Ok) {h : Fin L → Nat} {w : Pair K L} {one : Tree K L} (hl : Linked p h w one) (x : Nat → K) :
    Hoeffding.predict p w.orig x = .ok (answer h) := by
  cases hl with
  | together h1 _ _ _ => exact h1.predict hp x
  | apart h1 _ _ => exact h1.predict hp x
  | torn h1 _ _ => exact h1.predict hp x

theorem Linked.predict_copy {p : Params K} (hp : p.Ok) {h : Fin L → Nat} {w : Pair K L} {one : Tree K L} (hl : Linked p h w one) :
    (¬ Torn p w.copy → ∀ x, copyPredict p w x = .ok (answer h)) ∧ (Torn p w.copy → (∀ x, copyPredict p w x = .error .ub) ∧ ∀ x l, copyTrain p w x l = .error .ub) := by
  have leaf : ∀ {c : List (Node K)}, Shape1 p c → ∃ n, c[0]? = some n ∧ n.split = -1 := by
    rintro c ⟨n, rfl, h1, _⟩; exact ⟨n, rfl, h1⟩
  have no1 : ∀ {c : List (Node K)}, Shape1 p c → ¬ Torn p c := by
    rintro c ⟨n, rfl, h1, _⟩ ⟨r, v, h2, ⟨f, h3, _⟩, _⟩
    simp only [List.cons.injEq, and_true] at h2
    subst h2
    omega
  have no3 : ∀ {c : List (Node K)}, Shape3 p c → ¬ Torn p c := by
    rintro c ⟨a, b, d, v, rfl, _⟩ ⟨r, v, h2, _⟩
    simp at h2
  cases hl with
  | together h1 _ _ h4 =>
    refine ⟨fun _ x => ?_, fun ht => absurd ht (no1 h4)⟩
    obtain ⟨n, e1, e2⟩ := leaf h4
    exact copyPredict_of_leaf hp (sort_leaf (s := w.own) e1 e2 x) e1 e2 (by rw [h1.nodes_length, Nat.one_mul]; exact h1.mem) h1.block
  | apart h1 _ h4 =>
    rcases h4 with h4 | h4
    · refine ⟨fun _ x => ?_, fun ht => absurd ht (no1 h4)⟩
      obtain ⟨n, e1, e2⟩ := leaf h4
      exact copyPredict_of_leaf hp (sort_leaf (s := w.own) e1 e2 x) e1 e2 (by rw [h1.nodes_length]; exact h1.mem) (h1.block.good hp)
    · refine ⟨fun _ x => ?_, fun ht => absurd ht (no3 h4)⟩
      obtain ⟨id, n, e1, _, e3, e4⟩ := sort_shape3 hp (s := w.own) h4 h1.mem x
      exact copyPredict_of_leaf hp e1 e3 e4 (by rw [h1.nodes_length]; exact h1.mem) (h1.block.good hp)
  | torn h1 _ h4 =>
    refine ⟨fun ht => absurd h4 ht, fun _ => ⟨fun x => ?_, fun x l => ?_⟩⟩
    · simp only [copyPredict, sort_torn hp (s := w.own) h4 h1.mem x, bind, Except.bind]
    · simp only [copyTrain, sort_torn hp (s := w.own) h4 h1.mem x, bind, Except.bind]

/-! ### Training -/

theorem Shape1.grown {p : Params K} {c : List (Node K)} (hc : Shape1 p c) (x : Nat → K) : ∀ n, c[0]? = some n → Shape1 p (c.set 0 (Hoeffding.grown x n)) := by
  obtain ⟨n, rfl, h1, h2, h3⟩ := hc
  intro m hm
  simp only [List.getElem?_cons_zero, Option.some.injEq] at hm
  subst hm
  refine ⟨Hoeffding.grown x n, rfl, h1, ?_, ?_⟩
  · simp only [Hoeffding.grown, h2, growLower_inf]
  · simp only [Hoeffding.grown, h3, growUpper_inf]

theorem Shape3.grown {p : Params K} {c : List (Node K)} (hc : Shape3 p c) {id : Nat} (hid : id = 1 ∨ id = 2) {n : Node K} (hn : c[id]? = some n) (hl : n.split = -1)
    (x : Nat → K) : Shape3 p (c.set id (Hoeffding.grown x n)) := by
  obtain ⟨root, right, left, v, rfl, hf, hv, hle, hri, hrs, hls⟩ := hc
  rcases hid with rfl | rfl
  · exact ⟨root, Hoeffding.grown x n, left, v, rfl, hf, hv, hle, hri, hl, hls⟩
  · exact ⟨root, right, Hoeffding.grown x n, v, rfl, hf, hv, hle, hri, hrs, hl⟩

/-- One call on one of the two, and the same call on the tree that gets all calls -/
theorem Linked.step {p : Params K} (hp : p.Ok) {h : Fin L → Nat} {w w' : Pair K L} {one : Tree K L} (hl : Linked p h w one) {op : PairOp K L} (he : execPair p op w = .ok w') :
    ∃ one' h', exec p op.asOne one = .ok one' ∧ Linked p h' w' one' ∧
      (Torn p w'.copy ↔ Torn p w.copy ∨ ((∃ x l, op = .trainCopy x l) ∧ one.nodes.length = 1 ∧ one'.nodes.length = 3)) := by
  have no1 : ∀ {c : List (Node K)}, Shape1 p c → ¬ Torn p c := by
    rintro c ⟨n, rfl, h1, _⟩ ⟨r, v, h2, ⟨f, h3, _⟩, _⟩
    simp only [List.cons.injEq, and_true] at h2
    subst h2
    omega
  have no3 : ∀ {c : List (Node K)}, Shape3 p c → ¬ Torn p c := by
    rintro c ⟨a, b, d, v, rfl, _⟩ ⟨r, v, h2, _⟩
    simp at h2
  cases op with
  | predictOrig x =>
    simp only [execPair, hl.predict_orig hp x, Except.map] at he
    have := Except.ok.inj he; subst this
    exact ⟨one, h, by simp only [PairOp.asOne, exec, hl.predict_one hp x, Except.map], hl, by simp⟩
  | predictCopy x =>
    have hw : w' = w := by
      simp only [execPair] at he
      cases hq : copyPredict p w x with
      | error e => rw [hq] at he; cases he
      | ok r => rw [hq] at he; exact (Except.ok.inj he).symm
    subst hw
    exact ⟨one, h, by simp only [PairOp.asOne, exec, hl.predict_one hp x, Except.map], hl, by simp⟩
  | trainOrig x l =>
    have hno : ∀ one' : Tree K L, (Torn p w.copy ↔ Torn p w.copy ∨ ((∃ x' l', (PairOp.trainOrig x l : PairOp K L) = .trainCopy x' l') ∧ one.nodes.length = 1 ∧ one'.nodes.length = 3)) := by
      intro one'; simp
    simp only [execPair] at he
    simp only [PairOp.asOne, exec]
    cases hl with
    | together h1 h2 h3 h4 =>
      obtain ⟨b', r, e1, e2, e3⟩ := leafStep_good hp h1.block h1.mem x l
      have s1 := h1.train_step hp x l e1 e2 e3
      have s2 := h2.train_step hp x l (by rw [← h3]; exact e1) e2 e3
      by_cases hr : r = none
      · obtain ⟨t1, a1, a2, a3⟩ := s1.1 hr
        obtain ⟨t2, b1, b2, b3⟩ := s2.1 hr
        rw [a1] at he
        have := Except.ok.inj he; subst this
        exact ⟨t2, _, b1, .together a2 b2 (by rw [b3]; exact a3) h4, hno _⟩
      · by_cases c : Fits p L
        · obtain ⟨t1, a1, a2⟩ := (s1.2 hr).1 c
          obtain ⟨t2, b1, b2⟩ := (s2.2 hr).1 c
          rw [a1] at he
          have := Except.ok.inj he; subst this
          exact ⟨t2, _, b1, .apart a2 b2 (Or.inl h4), hno _⟩
        · rw [(s1.2 hr).2 c] at he; cases he
    | apart h1 h2 h4 =>
      obtain ⟨t1, a1, a2⟩ := h1.train hp x l
      obtain ⟨t2, b1, b2⟩ := h2.train hp x l
      rw [a1] at he
      have := Except.ok.inj he; subst this
      exact ⟨t2, _, b1, .apart a2 b2 h4, hno _⟩
    | torn h1 h2 h4 =>
      obtain ⟨t1, a1, a2⟩ := h1.train hp x l
      obtain ⟨t2, b1, b2⟩ := h2.train hp x l
      rw [a1] at he
      have := Except.ok.inj he; subst this
      exact ⟨t2, _, b1, .torn a2 b2 h4, hno _⟩
  | trainCopy x l =>
    have hdead : ¬ Torn p w.copy := by
      intro ht
      simp only [execPair, ((hl.predict_copy hp).2 ht).2] at he
      cases he
    simp only [execPair, copyTrain, bind, Except.bind] at he
    simp only [PairOp.asOne, exec]
    cases hl with
    | torn h1 h2 h4 => exact absurd h4 hdead
    | apart h1 h2 h4 =>
      obtain ⟨t2, b1, b2⟩ := h2.train hp x l
      have hm : w.orig.nodes.length * p.nodeSize + p.total L ≤ p.maxSize := by rw [h1.nodes_length]; exact h1.mem
      obtain ⟨b', e1, e2⟩ := leafStep_frozen hp h1.block (by have := h1.mem; omega) x l
      obtain ⟨id, n, d1, d2, d3, d4⟩ : ∃ id n, sortInLeaf p w.own x = .ok id ∧ w.copy[id]? = some n ∧ n.split = -1 ∧
          (Shape1 p (w.copy.set id (Hoeffding.grown x n)) ∨ Shape3 p (w.copy.set id (Hoeffding.grown x n))) := by
        rcases h4 with h4 | h4
        · obtain ⟨n, hn, hsp, _⟩ := id h4
          have h0 : w.copy[0]? = some n := by rw [hn]; rfl
          exact ⟨0, n, sort_leaf (s := w.own) h0 hsp x, h0, hsp, Or.inl (h4.grown x n h0)⟩
        · obtain ⟨i, n, a1, a2, a3, a4⟩ := sort_shape3 hp (s := w.own) h4 h1.mem x
          exact ⟨i, n, a1, a3, a4, Or.inr (h4.grown a2 a3 a4 x)⟩
      rw [d1] at he
      simp only [copyTrainNode_step x l d2 d3 hm, e1, Except.map, pure, Except.pure] at he
      have := Except.ok.inj he; subst this
      refine ⟨t2, bump h l, b1, .apart ⟨h1.node, h1.preset, h1.mem, by simpa using e2⟩ b2 d4, ?_⟩
      constructor
      · intro ht
        exact absurd ht (d4.elim no1 no3)
      · rintro (ht | ⟨_, ht, _⟩)
        · exact absurd ht hdead
        · rw [h2.nodes_length] at ht; omega
    | together h1 h2 h3 h4 =>
      have hm : w.orig.nodes.length * p.nodeSize + p.total L ≤ p.maxSize := by rw [h1.nodes_length, Nat.one_mul]; exact h1.mem
      obtain ⟨b', r, e1, e2, e3⟩ := leafStep_good hp h1.block h1.mem x l
      have s2 := h2.train_step hp x l (by rw [← h3]; exact e1) e2 e3
      obtain ⟨n, hn, hsp, _⟩ := id h4
      have h0 : w.copy[0]? = some n := by rw [hn]; rfl
      have hc := h4.grown x n h0
      rw [sort_leaf (s := w.own) h0 hsp x] at he
      simp only [copyTrainNode_step x l h0 hsp hm, e1, Except.map] at he
      have ho : OneLeaf p (bump h l) { w.orig with blocks := Function.update w.orig.blocks 0 b' } := ⟨h1.node, h1.preset, h1.mem, by simpa using e2⟩
      match r, e3, s2, he with
      | none, e3, s2, he =>
        obtain ⟨t2, b1, b2, b3⟩ := s2.1 rfl
        have := Except.ok.inj he; subst this
        refine ⟨t2, bump h l, b1, .together ho b2 (by rw [b3]; simp) hc, ?_⟩
        constructor
        · intro ht; exact absurd ht (no1 hc)
        · rintro (ht | ⟨_, _, ht⟩)
          · exact absurd ht hdead
          · rw [b2.nodes_length] at ht; omega
      | some (f, v), e3, s2, he =>
        have hf := e3 f v rfl
        have hsplit := copySplit_eq (w := ⟨{ w.orig with blocks := Function.update w.orig.blocks 0 b' }, w.copy.set 0 (Hoeffding.grown x n)⟩) hp ho hc hf v
        by_cases c : Fits p L
        · obtain ⟨w2, g1, g2, g3⟩ := hsplit.1 c
          obtain ⟨t2, b1, b2⟩ := (s2.2 (by simp)).1 c
          simp only [g1] at he
          obtain ⟨root, v', hr, _, _, hle, hri⟩ := id g3
          have hr0 : rd w2.copy 0 = .ok root := by rw [hr]; rfl
          simp only [hr0] at he
          have hw : Linked p (bump (fun _ => 0) l) w' t2 ∧ w'.copy = w2.copy := by
            by_cases cx : Dbl.le (.fin (x f)) v = true
            · rw [if_pos cx, hle, if_neg (by omega)] at he
              obtain ⟨s3, k1, k2⟩ := g2.trainNode hp (id := 2) (by omega) x l
              have : (2 : Int).toNat = 2 := rfl
              rw [this, k1] at he
              have := Except.ok.inj he; subst this
              exact ⟨.torn k2 b2 g3, rfl⟩
            · rw [if_neg cx, hri, if_neg (by omega)] at he
              obtain ⟨s3, k1, k2⟩ := g2.trainNode hp (id := 1) (by omega) x l
              have : (1 : Int).toNat = 1 := rfl
              rw [this, k1] at he
              have := Except.ok.inj he; subst this
              exact ⟨.torn k2 b2 g3, rfl⟩
          refine ⟨t2, _, b1, hw.1, ?_⟩
          rw [hw.2]
          exact ⟨fun _ => Or.inr ⟨⟨x, l, rfl⟩, h2.nodes_length, b2.nodes_length⟩, fun _ => g3⟩
        · simp only [hsplit.2 c] at he; cases he

/-- With memory for a split, training the copy works unless the copy has been split. -/
theorem Linked.copyTrain_ok {p : Params K} (hp : p.Ok) (c : Fits p L) {h : Fin L → Nat} {w : Pair K L} {one : Tree K L} (hl : Linked p h w one) (ht : ¬ Torn p w.copy)
    (x : Nat → K) (l : Fin L) : ∃ w', copyTrain p w x l = .ok w' := by
  simp only [copyTrain, bind, Except.bind]
  cases hl with
  | torn h1 h2 h4 => exact absurd h4 ht
  | apart h1 h2 h4 =>
    have hm : w.orig.nodes.length * p.nodeSize + p.total L ≤ p.maxSize := by rw [h1.nodes_length]; exact h1.mem
    obtain ⟨b', e1, _⟩ := leafStep_frozen hp h1.block (by have := h1.mem; omega) x l
    obtain ⟨i, n, d1, d2, d3⟩ : ∃ i n, sortInLeaf p w.own x = .ok i ∧ w.copy[i]? = some n ∧ n.split = -1 := by
      rcases h4 with h4 | h4
      · obtain ⟨n, hn, hsp, _⟩ := id h4
        have h0 : w.copy[0]? = some n := by rw [hn]; rfl
        exact ⟨0, n, sort_leaf (s := w.own) h0 hsp x, h0, hsp⟩
      · obtain ⟨i, n, a1, _, a3, a4⟩ := sort_shape3 hp (s := w.own) h4 h1.mem x
        exact ⟨i, n, a1, a3, a4⟩
    rw [d1]
    simp only [copyTrainNode_step x l d2 d3 hm, e1, Except.map]
    exact ⟨_, rfl⟩
  | together h1 h2 h3 h4 =>
    have hm : w.orig.nodes.length * p.nodeSize + p.total L ≤ p.maxSize := by rw [h1.nodes_length, Nat.one_mul]; exact h1.mem
    obtain ⟨b', r, e1, e2, e3⟩ := leafStep_good hp h1.block h1.mem x l
    obtain ⟨n, hn, hsp, _⟩ := id h4
    have h0 : w.copy[0]? = some n := by rw [hn]; rfl
    have hc := h4.grown x n h0
    rw [sort_leaf (s := w.own) h0 hsp x]
    simp only [copyTrainNode_step x l h0 hsp hm, e1, Except.map]
    have ho : OneLeaf p (bump h l) { w.orig with blocks := Function.update w.orig.blocks 0 b' } := ⟨h1.node, h1.preset, h1.mem, by simpa using e2⟩
    match r, e3 with
    | none, _ => exact ⟨_, rfl⟩
    | some (f, v), e3 =>
      have hf := e3 f v rfl
      obtain ⟨w2, g1, g2, g3⟩ := (copySplit_eq (w := ⟨{ w.orig with blocks := Function.update w.orig.blocks 0 b' }, w.copy.set 0 (Hoeffding.grown x n)⟩) hp ho hc hf v).1 c
      simp only [g1]
      obtain ⟨root, v', hr, _, _, hle, hri⟩ := id g3
      have hr0 : rd w2.copy 0 = .ok root := by rw [hr]; rfl
      simp only [hr0]
      by_cases cx : Dbl.le (.fin (x f)) v = true
      · rw [if_pos cx, hle, if_neg (by omega)]
        obtain ⟨s3, k1, _⟩ := g2.trainNode hp (id := 2) (by omega) x l
        have : (2 : Int).toNat = 2 := rfl
        rw [this, k1]
        exact ⟨_, rfl⟩
      · rw [if_neg cx, hri, if_neg (by omega)]
        obtain ⟨s3, k1, _⟩ := g2.trainNode hp (id := 1) (by omega) x l
        have : (1 : Int).toNat = 1 := rfl
        rw [this, k1]
        exact ⟨_, rfl⟩

theorem Linked.start {p : Params K} (hp : p.Ok) {ops : List (Op K L)} {s0 s : Tree K L} (h0 : new p = .ok s0) (hr : run p ops s0 = .ok s) :
    ∃ h, Linked p h (copyOf s) s ∧ ¬ Torn p (copyOf s).copy := by
  rcases run_cases hp h0 hr with h | ⟨k, _, h⟩
  · refine ⟨_, .together h h rfl h.node, ?_⟩
    obtain ⟨n, hn, hsp, _⟩ := h.node
    rintro ⟨r, v, h2, ⟨f, h3, _⟩, _⟩
    have h2' : s.nodes = [r] := h2
    rw [hn] at h2'
    simp only [List.cons.injEq, and_true] at h2'
    subst h2'
    omega
  · refine ⟨_, .apart h h (Or.inr h.node), ?_⟩
    rintro ⟨r, v, h2, _⟩
    have h2' : s.nodes = [r] := h2
    have := h.nodes_length
    rw [h2'] at this
    simp at this

theorem run_append {p : Params K} : ∀ (a b : List (Op K L)) {s t : Tree K L}, run p a s = .ok t → run p (a ++ b) s = run p b t := by
  intro a
  induction a with
  | nil => intro b s t h; rw [← Except.ok.inj h]; rfl
  | cons op a ih =>
    intro b s t h
    simp only [run, bind, Except.bind, List.cons_append] at h ⊢
    cases he : exec p op s with
    | error e => rw [he] at h; cases h
    | ok s1 => rw [he] at h; exact ih b h

theorem Linked.runPair {p : Params K} (hp : p.Ok) : ∀ (calls : List (PairOp K L)) {h : Fin L → Nat} {w w' : Pair K L} {one : Tree K L}, Linked p h w one →
    Hoeffding.runPair p calls w = .ok w' → ∃ one' h', run p (calls.map PairOp.asOne) one = .ok one' ∧ Linked p h' w' one' ∧
      ((∀ x l, PairOp.trainCopy x l ∉ calls) → ¬ Torn p w.copy → ¬ Torn p w'.copy) ∧
      (one.nodes.length ≠ 1 → ¬ Torn p w.copy → ¬ Torn p w'.copy) := by
  intro calls
  induction calls with
  | nil =>
    intro h w w' one hl hr
    have := Except.ok.inj hr; subst this
    exact ⟨one, h, rfl, hl, fun _ ht => ht, fun _ ht => ht⟩
  | cons op calls ih =>
    intro h w w' one hl hr
    simp only [Hoeffding.runPair, bind, Except.bind] at hr
    cases he : execPair p op w with
    | error e => rw [he] at hr; cases hr
    | ok w1 =>
      rw [he] at hr
      obtain ⟨one1, h1, e1, e2, e3⟩ := hl.step hp he
      obtain ⟨one2, h2, f1, f2, f3, f4⟩ := ih e2 hr
      have hgrow : one.nodes.length ≠ 1 → one1.nodes.length ≠ 1 := by
        intro hne
        have hs : Split p h one := by
          cases hl with
          | together _ g _ _ => exact absurd g.nodes_length hne
          | apart _ g _ => exact g
          | torn _ g _ => exact g
        have := hs.run hp [op.asOne] (s' := one1) (by simp only [run, e1, bind, Except.bind])
        rw [this.nodes_length]; omega
      refine ⟨one2, h2, by simp only [List.map_cons, run, e1, bind, Except.bind]; exact f1, f2, ?_, ?_⟩
      · intro hno ht
        refine f3 (fun x l hm => hno x l (List.mem_cons_of_mem _ hm)) ?_
        intro ht1
        rcases e3.mp ht1 with hq | ⟨⟨x, l, rfl⟩, _⟩
        · exact ht hq
        · exact hno x l (by simp)
      · intro hne ht
        refine f4 (hgrow hne) ?_
        intro ht1
        rcases e3.mp ht1 with hq | ⟨_, hq, _⟩
        · exact ht hq
        · exact hne hq

end states

end Orp.Hoeffding
