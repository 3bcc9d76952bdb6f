import Verif.Coarse.LeafHist
import Verif.Coarse.Props

/-!
Properties C81 – C84 of `CoarseMondrianForest`: the functions that count points and leaves, and the splits of `EXTEND_BARYCENTER`.
-/

namespace Orp.Coarse

set_option linter.unusedSectionVars false

open Finset
open Mondrian (Node Box Forest Params Tree Data HoldsAll exω exP pt avail allIds Times bump)

variable {K : Type} [Field K] [LinearOrder K] [IsStrictOrderedRing K] [FloorRing K] {F L : Nat}

/-! ### C81 -/

theorem sum_countP {A : Type} (q : A → Prop) [DecidablePred q] : ∀ l : List A, (l.map (fun z => if q z then 1 else 0)).sum = l.countP (fun z => decide (q z))
  | [] => rfl
  | z :: l => by
      rw [List.map_cons, List.sum_cons, sum_countP q l, List.countP_cons]
      by_cases hz : q z <;> simp [hz, Nat.add_comm]

theorem sum_histogram (pts : List (Mondrian.Point K F L)) : ∑ i, Mondrian.histogram pts i = pts.length := by
  induction pts with
  | nil => simp [Mondrian.histogram]
  | cons z pts ih =>
      simp only [Mondrian.histogram, List.countP_cons, Finset.sum_add_distrib, List.length_cons] at ih ⊢
      rw [ih]
      simp

theorem sum_leaves (t : Tree K F L) : ((leaves t).map (fun z => ∑ i, z.2.counts i)).sum = ∑ i, held t i := by
  induction t with
  | leaf id d => simp [leaves, held]
  | node id d dim sp l r hl hr =>
      simp only [leaves, held, List.map_append, List.sum_append, hl, hr]
      rw [← Finset.sum_add_distrib]
      exact Finset.sum_congr rfl fun i _ => Nat.add_comm _ _

theorem counts_of_tree (g : (Fin L → Nat) → Nat) (s : State K F L) (trees : List (Option (Tree K F L))) (few : Prop) (c : Config K) (bases : List Base) (n : Nat)
    (hg : Good c few bases n s trees) (j : Nat) (t : Tree K F L) (hj : trees[j]? = some (some t)) :
    rd s.forest.roots j = .ok (some t.id) ∧ ∃ b sum, tourFrom (fun n (a : Nat) => .ok (n, a + g n.counts)) s.forest.nodes t.id 0 = .ok (b, s.forest.nodes, sum) ∧
      (b = true ↔ t.height ≤ 100) ∧ (t.height ≤ 100 → sum = ((leaves t).map (fun z => g z.2.counts)).sum) := by
  have hm := hg.inv.mem
  refine ⟨rd_eq_ok_iff.2 ?_, tourFrom_sum g _ t (hm.all.holds t (List.mem_iff_getElem?.2 ⟨j, hj⟩)) ?_⟩
  · rw [hm.all.roots, List.getElem?_map, hj]
    rfl
  · have hlen := hm.cover.length_eq
    simp only [List.nil_append, List.length_append, List.length_range] at hlen
    have hsub : t.ids.length ≤ (Mondrian.allIds trees).length := by
      obtain ⟨a, b, hab⟩ := List.append_of_mem (List.mem_iff_getElem?.2 ⟨j, hj⟩)
      rw [hab]
      simp only [Mondrian.allIds, List.flatMap_append, List.flatMap_cons, List.length_append]
      omega
    omega

/-- **C81** After every history `count_data_point_tree` returns for each tree the number of points counted in its leaves, 0 if the tree has no root yet, and -1 if the tree
is higher than 100; `count_dead_supply_tree` returns the number of leaves with less than 50 points, 0 or -1. -/
theorem C81_counts (c : Config K) (p : Params K) (ω : Nat → K) (maxSize sizeNode sizeBase : Nat) (junk : List Int) (last : Nat) (s0 : State K F L)
    (ops : List (Op K F L)) (h : Setting c p ω maxSize sizeNode sizeBase junk last s0 ops) (pos : Nat) (s : State K F L) (pos' : Nat)
    (hr : run c p ω ops s0 pos = .ok (s, pos')) :
    ∃ trees, HoldsAll s.forest trees ∧ trees.length = junk.length ∧
      (∀ j, trees[j]? = some none → countPoints s j = .ok 0 ∧ countDead s j = .ok 0) ∧
      ∀ j t, trees[j]? = some (some t) →
        countPoints s j = .ok (if t.height ≤ 100 then ((((leaves t).map (fun z => ∑ i, z.2.counts i)).sum : Nat) : Int) else -1) ∧
        countDead s j = .ok (if t.height ≤ 100 then (((leaves t).countP (fun z => ∑ i, z.2.counts i < 50) : Nat) : Int) else -1) := by
  obtain ⟨trees, e2, e3⟩ := h.good hr
  refine ⟨trees, e2.inv.mem.all, e3, fun j hj => ?_, fun j t hj => ?_⟩
  · have : rd s.forest.roots j = .ok none := by
      refine rd_eq_ok_iff.2 ?_
      rw [e2.inv.mem.all.roots, List.getElem?_map, hj]
      rfl
    constructor
    · simp only [countPoints, this, bind, Except.bind, pure, Except.pure]
    · simp only [countDead, this, bind, Except.bind, pure, Except.pure]
  · constructor
    · obtain ⟨h1, b, sum, h2, h3, h4⟩ := counts_of_tree (fun c => ∑ i, c i) s trees True c s0.bases _ e2 j t hj
      simp only [countPoints, h1, total, h2, bind, Except.bind, pure, Except.pure, h3]
      split
      · rename_i hh; rw [h4 hh]
      · rfl
    · obtain ⟨h1, b, sum, h2, h3, h4⟩ := counts_of_tree (fun c => if ∑ i, c i < 50 then 1 else 0) s trees True c s0.bases _ e2 j t hj
      have hact : (fun (n : Node K F L) (a : Nat) => (.ok (n, if total n < 50 then a + 1 else a) : Res (Node K F L × Nat))) =
          fun n a => .ok (n, a + if ∑ i, n.counts i < 50 then 1 else 0) := by
        funext n a
        unfold total
        split <;> rfl
      simp only [countDead, h1, hact, h2, bind, Except.bind, pure, Except.pure, h3]
      split
      · rename_i hh
        rw [h4 hh, sum_countP]
      · rfl

/-- **C81** Without trimming, with a mode that counts each point once and memory for the roots, `count_data_point_tree` returns the number of training points, for every tree
that is not higher than 100. -/
theorem C81_all_points (c : Config K) (hc : c.extend = .original ∨ c.extend = .barycenter) (ht : c.trim = .none) (p : Params K) (ω : Nat → K)
    (maxSize sizeNode sizeBase : Nat) (junk : List Int) (last : Nat) (s0 : State K F L) (ops : List (Op K F L))
    (h : Setting c p ω maxSize sizeNode sizeBase junk last s0 ops) (hn : junk.length ≤ s0.forest.nodes.length) (pos : Nat) (s : State K F L) (pos' : Nat)
    (hr : run c p ω ops s0 pos = .ok (s, pos')) (j : Nat) (hj : j < junk.length) :
    ∃ trees, HoldsAll s.forest trees ∧ trees.length = junk.length ∧
      ((∀ t, trees[j]? = some (some t) → t.height ≤ 100) → countPoints s j = .ok ((points ops).length : Int)) := by
  obtain ⟨trees, e2, e3, e4⟩ := h.reach hr False (fun hlt => absurd hlt (by omega)) _ (kept_held c ht hc p.lifetime junk.length)
  refine ⟨trees, e2.inv.mem.all, e3, fun hh => ?_⟩
  have hjo := List.getElem?_eq_getElem (show j < trees.length by omega)
  obtain ⟨b, hb, -⟩ := e2.base (show j < trees.length by omega)
  have h4 := e4 j _ b hjo hb
  cases ho : trees[j] with
  | none =>
      rw [ho] at h4 hjo
      have : rd s.forest.roots j = .ok none := by
        refine rd_eq_ok_iff.2 ?_
        rw [e2.inv.mem.all.roots, List.getElem?_map, hjo]
        rfl
      have h4 : points ops = [] := h4
      simp only [countPoints, this, bind, Except.bind, pure, Except.pure, h4, List.length_nil, Int.natCast_zero]
  | some t =>
      rw [ho] at h4 hjo
      have h4 : held t = Mondrian.histogram (points ops) := h4
      obtain ⟨h1, b, sum, h2, h3, h5⟩ := counts_of_tree (fun c => ∑ i, c i) s trees False c s0.bases _ e2 j t hjo
      have hh := hh t hjo
      simp only [countPoints, h1, total, h2, bind, Except.bind, pure, Except.pure, h3, if_pos hh]
      rw [h5 hh, sum_leaves, h4, sum_histogram]

/-- four points, of which three are in one leaf of the second object -/
example : ((exRun (cfg .phoenix 0 .original .none) [0] exOps).bind fun r => do return (← countPoints r.1 0, ← countDead r.1 0)) = .ok (4, 4) ∧
    ((exRun (cfg .cobble 2 .original .none) [0] (exOps ++ List.replicate 50 (.train (pt 3) 0))).bind fun r => do
      return (← countPoints r.1 0, ← countDead r.1 0)) = .ok (54, 1) := by decide +kernel

/-! ### C82 -/

/-- What can be seen of a node: whether it is available, its parent and its children -/
structure Links where
  available : Bool
  parent : Option Nat
  left : Option Nat
  right : Option Nat
deriving DecidableEq

/-- a new object with one tree and a history; `sum` is what was found in the memory of `sum_features` -/
def splitRun (c : Config ℚ) (sc : SplitConfig ℚ) (size : Nat) (ω : Nat → ℚ) (sum : Fin F → ℚ) (ops : List (Op ℚ F 2)) : Res (State ℚ F 2 × Extra ℚ F × Nat) := do
  let s ← new c size 10 5 [0] 0
  runSplit c sc exP ω ops s ⟨sum, 0, 0⟩ 0

/-- the free nodes, the roots and the links of the nodes -/
def seeLinks (r : Res (State ℚ F 2 × Extra ℚ F × Nat)) : Res (Int × List (Option Nat) × List Links) :=
  r.map fun r => (r.1.free, r.1.forest.roots, r.1.forest.nodes.map (fun n => ⟨n.available, n.parent, n.left, n.right⟩))

/-- random numbers that are 1/200 at some places and 1/2 otherwise -/
def exSmall (small : List Nat) (i : Nat) : ℚ := if i ∈ small then 1 / 200 else 1 / 2

theorem exSmall_range (small : List Nat) (i : Nat) : 0 < exSmall small i ∧ exSmall small i < 1 := by
  unfold exSmall
  split <;> norm_num

/-- the points (a grid of six points, and two further points in the column of the first) -/
def gridOps : List (Op ℚ 2 2) := [.train ![0, 0] 0, .train ![1, 0] 0, .train ![0, 1] 0, .train ![0, 2] 1, .train ![1, 1] 1, .train ![1, 2] 1, .train ![0, 7] 0, .trim,
  .train ![0, 12] 0]

/-- **C82** (violation) `SPLIT_TRIGGER_POSITIVE`: after nine calls the root is node 10, its right child is the split node 7, and both children of node 7 are available nodes of
the pool. The points counted there are lost. -/
theorem C82_dangling : ∃ ω : Nat → ℚ, (∀ i, 0 < ω i ∧ ω i < 1) ∧
    seeLinks (splitRun (cfg .phoenix 0 .barycenter .count) ⟨.zero, .positive, .none, 1⟩ 115 ω (fun _ => 0) gridOps) = .ok (8, [some 10],
      [⟨true, none, none, none⟩, ⟨true, none, none, none⟩, ⟨true, none, none, none⟩, ⟨true, none, none, none⟩, ⟨true, none, none, none⟩, ⟨true, none, none, none⟩,
        ⟨true, none, none, none⟩, ⟨false, some 10, some 2, some 8⟩, ⟨true, none, none, none⟩, ⟨false, some 10, none, none⟩, ⟨false, none, some 9, some 7⟩]) :=
  ⟨exSmall [0, 19, 27, 28], exSmall_range _, by decide +kernel⟩

/-- **C82** (violation) Two more training points and node 2 is taken again: it becomes the right child of the root, its left child is node 0, the left child of node 0 is
node 7, and the left child of node 7 is node 2. `predict` follows the links without end. -/
theorem C82_cycle : ∃ ω : Nat → ℚ, (∀ i, 0 < ω i ∧ ω i < 1) ∧
    seeLinks (splitRun (cfg .phoenix 0 .barycenter .count) ⟨.zero, .positive, .none, 1⟩ 115 ω (fun _ => 0) (gridOps ++ [.train ![3, 3] 1, .train ![1, 9] 1])) =
      .ok (4, [some 10],
      [⟨false, some 2, some 7, some 1⟩, ⟨false, some 0, none, none⟩, ⟨false, some 10, some 0, some 3⟩, ⟨false, some 2, none, none⟩, ⟨true, none, none, none⟩,
        ⟨true, none, none, none⟩, ⟨true, none, none, none⟩, ⟨false, some 0, some 2, some 8⟩, ⟨true, none, none, none⟩, ⟨false, some 10, none, none⟩,
        ⟨false, none, some 9, some 2⟩]) ∧
    (do let (s, _) ← splitRun (cfg .phoenix 0 .barycenter .count) ⟨.zero, .positive, .none, 1⟩ 115 ω (fun _ => 0) (gridOps ++ [.train ![3, 3] 1, .train ![1, 9] 1])
        let (_, l) ← predict (cfg .phoenix 0 .barycenter .count) exP s ![0, 1] none
        return l : Res Nat) = .error .ub :=
  ⟨exSmall [0, 19, 27, 28], exSmall_range _, by decide +kernel, by decide +kernel⟩

/-- **C82** (partial) With the default trigger and helper every history has the same effect as without the code of the splits, so that the trees stay trees
(`C80_structure`) and the count of available nodes is right (`C61_free_nodes_partial`). Missing: the other triggers, see `C82_dangling`, and helpers. -/
theorem C82_default_partial (c : Config K) (sc : SplitConfig K) (ht : sc.trigger = .none) (hh : sc.helper = .none) (p : Params K) (ω : Nat → K) (ops : List (Op K F L))
    (s : State K F L) (ex : Extra K F) (pos : Nat) : (runSplit c sc p ω ops s ex pos).map (fun r => (r.1, r.2.2)) = run c p ω ops s pos :=
  runSplit_default c sc ht hh p ω ops s ex pos

/-- **C82** (partial) With the other ways to extend no trigger and no helper has an effect. -/
theorem C82_other_partial (c : Config K) (hc : c.extend ≠ .barycenter) (sc : SplitConfig K) (p : Params K) (ω : Nat → K) (ops : List (Op K F L))
    (s : State K F L) (ex : Extra K F) (pos : Nat) : (runSplit c sc p ω ops s ex pos).map (fun r => (r.1, r.2.2)) = run c p ω ops s pos :=
  runSplit_plain c sc p ω (plain_other c hc sc p ω) ops s ex pos

/-- **C82** (partial) `SPLIT_TRIGGER_NONE`: with every helper and every distribution each tree is after every history a binary tree over distinct nodes of the pool with
right links to children and parents, nodes of different trees are different, the nodes outside of the trees are the available ones, their number is known, and the split times
are between 0 and `lifetime` and do not decrease on the way down. Missing: the other triggers, see `C82_dangling`. -/
theorem C82_helper_partial (c : Config K) (hc : c.extend = .barycenter) (sc : SplitConfig K) (ht : sc.trigger = .none) (p : Params K) (hlife : 0 < p.lifetime)
    (hlog : ∀ u, 0 < u → u ≤ 1 → p.log u ≤ 0) (ω : Nat → K) (hω : ∀ i, 0 < ω i ∧ ω i < 1) (maxSize sizeNode sizeBase : Nat) (junk : List Int) (last : Nat)
    (s0 : State K F L) (hnew : new c maxSize sizeNode sizeBase junk last = .ok s0) (ops : List (Op K F L)) (ex : Extra K F) (pos : Nat) (s : State K F L)
    (ex' : Extra K F) (pos' : Nat) (hr : runSplit c sc p ω ops s0 ex pos = .ok (s, ex', pos')) :
    ∃ trees, HoldsAll s.forest trees ∧ trees.length = junk.length ∧ s.forest.nodes.length = s0.forest.nodes.length ∧
      (∀ i ∈ allIds trees, i < s.forest.nodes.length) ∧ (allIds trees).Nodup ∧ s.free = s.forest.nodes.length - (allIds trees).length ∧
      (∀ (i : Nat) (nd : Node K F L), s.forest.nodes[i]? = some nd → (nd.available = true ↔ i ∉ allIds trees)) ∧
      ∀ t, some t ∈ trees → Times (· ≤ ·) p.lifetime 0 t := by
  obtain ⟨trees, g, hlen, -⟩ := runSplit_spec c hc sc ht p hlife hlog ω hω True maxSize sizeNode sizeBase junk last s0 hnew (fun _ => trivial) _
    (keptS_true c p.lifetime True) ex pos ops s ex' pos' hr
  have hm := g.inv.mem
  have hcov := hm.cover
  simp only [List.nil_append] at hcov
  have hcl := hcov.length_eq
  simp only [List.length_append, List.length_range] at hcl
  have hnd := hcov.nodup_iff.2 List.nodup_range
  refine ⟨trees, hm.all, hlen, g.nodes, fun i hi => hm.ids_lt hi, hm.all.nodup, by rw [g.inv.free]; omega, fun i nd hi => ?_, g.times⟩
  have hav : nd.available = true ↔ i ∈ avail s.forest.nodes := by
    rw [Mondrian.mem_avail]
    constructor
    · intro h
      exact ⟨nd, hi, by simpa [Node.available] using h⟩
    · rintro ⟨m, h1, h2⟩
      rw [hi] at h1
      cases h1
      simpa [Node.available] using h2
  rw [hav]
  constructor
  · exact fun h h' => (List.nodup_append'.1 hnd).2.2 h h'
  · intro h
    have := hcov.mem_iff.2 (List.mem_range.2 (Mondrian.lt_of_get hi))
    rcases List.mem_append.1 this with h' | h'
    · exact h'
    · exact absurd h' h

/-! ### C83 -/

/-- five points, 20 times the point 5/2, then a trim and the point 9/4 -/
def leafOps : List (Op ℚ 1 2) := [.train (pt 0) 0, .train (pt 8) 0, .train (pt 3) 0, .train (pt 6) 1, .train (pt 2) 1] ++ List.replicate 20 (.train (pt (5 / 2)) 1) ++
  [.trim, .train (pt (9 / 4)) 0]

/-- the counters and the first dimension of the box of a node -/
def seeLeaf (r : Res (State ℚ 1 2 × Extra ℚ 1 × Nat)) (id : Nat) : Res (List Nat × Option (ℚ × ℚ)) := do
  let (s, _) ← r
  let n ← rd s.forest.nodes id
  return (List.ofFn n.counts, n.box.map (fun b => (b.lower 0, b.upper 0)))

/-- **C83** (violation) `SPLIT_HELPER_AVG`: before the last point, node 4 has the box from 2 to 3 and 22 points. The last point splits it at 519/208, near the middle. Node 4 gets
the box on the right and keeps all of its 22 points, the new leaf 2 on the left gets the last point only. -/
theorem C83_nothing_moved :
    seeLeaf (splitRun (cfg .cobble 3 .barycenter .count) ⟨.zero, .none, .avg, 1⟩ 85 (exω []) (fun _ => 0) (leafOps.take 26)) 4 = .ok ([1, 21], some (2, 3)) ∧
    seeLeaf (splitRun (cfg .cobble 3 .barycenter .count) ⟨.zero, .none, .avg, 1⟩ 85 (exω []) (fun _ => 0) leafOps) 4 = .ok ([1, 21], some (519 / 208, 3)) ∧
    seeLeaf (splitRun (cfg .cobble 3 .barycenter .count) ⟨.zero, .none, .avg, 1⟩ 85 (exω []) (fun _ => 0) leafOps) 2 = .ok ([1, 0], some (2, 519 / 208)) := by
  decide +kernel

/-- **C83** (violation in general) `SPLIT_TRIGGER_NONE`: whatever the helper, the distribution, the history and the random numbers, no call of `train` moves a counter from one
leaf to another. After the trim that `train` may do (from the tree `t` to the tree `t1`), each leaf of the tree is still there with the counters it had, to one of which the
training point may be added, and a new leaf has counted no point, or only the training point. -/
theorem C83_never_moved (c : Config K) (hc : c.extend = .barycenter) (sc : SplitConfig K) (ht : sc.trigger = .none) (p : Params K) (hlife : 0 < p.lifetime)
    (hlog : ∀ u, 0 < u → u ≤ 1 → p.log u ≤ 0) (ω : Nat → K) (hω : ∀ i, 0 < ω i ∧ ω i < 1) (maxSize sizeNode sizeBase : Nat) (junk : List Int) (last : Nat)
    (s0 : State K F L) (hnew : new c maxSize sizeNode sizeBase junk last = .ok s0) (ops : List (Op K F L)) (ex : Extra K F) (pos : Nat) (s : State K F L)
    (ex1 : Extra K F) (pos1 : Nat) (hr : runSplit c sc p ω ops s0 ex pos = .ok (s, ex1, pos1)) (x : Fin F → K) (label : Fin L) (s' : State K F L) (ex' : Extra K F)
    (pos' : Nat) (r : Bool) (hr' : trainSplit c sc p ω x label s ex1 pos1 = .ok (s', ex', pos', r)) :
    ∃ trees trees', HoldsAll s.forest trees ∧ HoldsAll s'.forest trees' ∧ trees.length = junk.length ∧ trees'.length = junk.length ∧
      ∀ (j : Nat) (t : Tree K F L), trees[j]? = some (some t) → ∃ t1 t', trees'[j]? = some (some t') ∧ Pruned c (some t) (some t1) ∧ held t' = bump (held t1) label ∧
        (∀ z ∈ leaves t1, ∃ z' ∈ leaves t', z'.1 = z.1 ∧ (z'.2.counts = z.2.counts ∨ z'.2.counts = bump z.2.counts label)) ∧
        (∀ z' ∈ leaves t', (∃ z ∈ leaves t1, z'.1 = z.1 ∧ (z'.2.counts = z.2.counts ∨ z'.2.counts = bump z.2.counts label)) ∨
          z'.2.counts = (fun _ => 0) ∨ z'.2.counts = bump (fun _ => 0) label) := by
  obtain ⟨trees, g, hlen, -⟩ := runSplit_spec c hc sc ht p hlife hlog ω hω True maxSize sizeNode sizeBase junk last s0 hnew (fun _ => trivial) _
    (keptS_true c p.lifetime True) ex pos ops s ex1 pos1 hr
  obtain ⟨trees', g', -, hlen', -, hstep⟩ := trainSplit_spec c hc sc ht p hlife hlog ω hω (fun _ => True) True _ x label s ex1 pos1 trees g s' ex' pos' r (fun _ _ _ _ => trivial) hr'
  refine ⟨trees, trees', g.inv.mem.all, g'.inv.mem.all, hlen, hlen'.trans hlen, fun j t hj => ?_⟩
  obtain ⟨o1, o', h1, h2, h3⟩ := hstep j _ hj
  cases o1 with
  | none => exact absurd (h2.ne_none.2 rfl) (by simp)
  | some t1 =>
      obtain ⟨t', rfl, hg⟩ := h3
      exact ⟨t1, t', h1, h2, hg.held_eq, hg.keeps.1, hg.keeps.2⟩

/-- the hypotheses of the two theorems in the run of `C83_nothing_moved`, in which a leaf is split -/
example : 0 < exP.lifetime ∧ (∀ u, 0 < u → u ≤ 1 → exP.log u ≤ 0) ∧ (∀ i, 0 < exω [] i ∧ exω [] i < 1) ∧
    (splitRun (cfg .cobble 3 .barycenter .count) ⟨.zero, .none, .avg, 1⟩ 85 (exω []) (fun _ => 0) leafOps).map (fun r => r.1.free) = .ok 1 := by
  refine ⟨by norm_num [exP], fun u _ h => ?_, fun i => ?_, by decide +kernel⟩
  · show u - 1 ≤ 0
    linarith
  · simp [exω]
    norm_num

/-! ### C84 -/

/-- **C84** (violation) `SPLIT_HELPER_AVG`: the same calls, the same parameters and the same random numbers, and two values of the memory of `sum_features` at the construction
of the object: the label predicted for the last point is 0 or 1. -/
theorem C84_uninitialised : let predicted (sum : ℚ) : Res Nat := do
      let (s, _) ← splitRun (cfg .cobble 3 .barycenter .count) ⟨.zero, .none, .avg, 1⟩ 85 (exω []) (fun _ => sum) (leafOps ++ List.replicate 3 (.train (pt (9 / 4)) 0))
      let (_, l) ← predict (cfg .cobble 3 .barycenter .count) exP s (pt (9 / 4)) none
      return l
    predicted 0 = .ok 0 ∧ predicted 100 = .ok 1 := by decide +kernel

/-- **C84** (partial) With `SPLIT_HELPER_NONE` and `SPLIT_TRIGGER_NONE`, the defaults, the state after every history is the same for all initial values of `sum_features`,
`count_points` and `has_been_full`. Missing: the other helpers, see `C84_uninitialised`. -/
theorem C84_default_partial (c : Config K) (sc : SplitConfig K) (ht : sc.trigger = .none) (hh : sc.helper = .none) (p : Params K) (ω : Nat → K) (ops : List (Op K F L))
    (s : State K F L) (ex ex' : Extra K F) (pos : Nat) : (runSplit c sc p ω ops s ex pos).map (fun r => (r.1, r.2.2)) = (runSplit c sc p ω ops s ex' pos).map (fun r => (r.1, r.2.2)) := by
  rw [runSplit_default c sc ht hh, runSplit_default c sc ht hh]

/-- **C84** (partial) With the other ways to extend the state after every history is the same for all initial values of `sum_features`, `count_points` and
`has_been_full`, for all triggers and helpers. -/
theorem C84_other_partial (c : Config K) (hc : c.extend ≠ .barycenter) (sc : SplitConfig K) (p : Params K) (ω : Nat → K) (ops : List (Op K F L))
    (s : State K F L) (ex ex' : Extra K F) (pos : Nat) : (runSplit c sc p ω ops s ex pos).map (fun r => (r.1, r.2.2)) = (runSplit c sc p ω ops s ex' pos).map (fun r => (r.1, r.2.2)) := by
  rw [C82_other_partial c hc, C82_other_partial c hc]

/-- **C79** (violation) `SPLIT_HELPER_AVG`: the last point splits the leaf at node 4 and goes to the side that keeps the counters. The new leaf has counted nothing. `predict` for
a point that goes to this leaf and is outside of its box divides by zero. -/
theorem C79_empty_leaf : let r := splitRun (cfg .cobble 3 .barycenter .count) ⟨.zero, .none, .avg, 1⟩ 85 (exω []) (fun _ => 0) (leafOps.take 26 ++ [.train (pt (12 / 5)) 0])
    seeLeaf r 2 = .ok ([0, 0], some (669 / 260, 3)) ∧
    (do let (s, _) ← r
        let (_, l) ← predict (cfg .cobble 3 .barycenter .count) exP s (pt (7 / 2)) none
        return l : Res Nat) = .error .ub := by decide +kernel

/-- **C75** (violation) `COBBLE_MANAGEMENT` with a limit of 3 and `SPLIT_HELPER_AVG`: the split of a leaf ignores the limit, the tree gets the height 4 (root 1, nodes 3, 7
and 2). -/
theorem C75_split_helper : seeLinks (splitRun (cfg .cobble 3 .barycenter .count) ⟨.zero, .none, .avg, 1⟩ 85 (exω []) (fun _ => 0) leafOps) = .ok (1, [some 1],
    [⟨false, some 3, none, none⟩, ⟨false, none, some 3, some 6⟩, ⟨false, some 7, none, none⟩, ⟨false, some 1, some 0, some 7⟩, ⟨false, some 7, none, none⟩,
      ⟨true, none, none, none⟩, ⟨false, some 1, none, none⟩, ⟨false, some 3, some 2, some 4⟩]) := by decide +kernel

end Orp.Coarse
