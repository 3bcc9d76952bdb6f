import Verif.Coarse.NoTrimRun
import Verif.Coarse.SplitProps

/-!
Property C90 of `CoarseMondrianForest`: without trimming the split triggers and helpers have no effect. With it C61, C75, C82 and C84 hold for all triggers and helpers when
there is no trimming.
-/

namespace Orp.Coarse

set_option linter.unusedSectionVars false

open Finset
open Mondrian (Node Box Forest Params Tree Data HoldsAll exω exP pt avail allIds Times bump)

variable {K : Type} [Field K] [LinearOrder K] [IsStrictOrderedRing K] [FloorRing K] {F L : Nat}

/-! ### From a list of positions to a choice of positions -/

/-- the positions of a list, followed by positions behind them -/
def pick (pos : Nat) : List Nat → Nat → Nat
  | [], i => pos + i
  | j :: _, 0 => j
  | j :: js, i + 1 => pick (j + 1) js i

theorem pick_spec (ω : Nat → K) : ∀ (js : List Nat) (pos : Nat), js.Pairwise (· < ·) → (∀ j ∈ js, pos ≤ j) →
    StrictMono (pick pos js) ∧ (∀ i, pos ≤ pick pos js i) ∧ ∀ (f : Nat → Nat) (k : Nat), (∀ i, f (k + i) = pick pos js i) → Draws (js.map ω) (fun i => ω (f i)) k
  | [], pos, _, _ => ⟨fun a b h => by simpa [pick] using h, fun i => by simp [pick], fun _ _ _ => trivial⟩
  | j :: js, pos, h, hj => by
      obtain ⟨h1, h2⟩ := List.pairwise_cons.1 h
      obtain ⟨i1, i2, i3⟩ := pick_spec ω js (j + 1) h2 h1
      have hp := hj j List.mem_cons_self
      refine ⟨strictMono_nat_of_lt_succ fun n => ?_, fun i => ?_, fun f k hf => ⟨congrArg ω (hf 0), i3 f (k + 1) fun i => ?_⟩⟩
      · cases n with
        | zero => exact i2 0
        | succ n => exact i1 (Nat.lt_succ_self n)
      · cases i with
        | zero => exact hp
        | succ i => exact hp.trans ((Nat.le_succ j).trans (i2 i))
      · have := hf (i + 1)
        rw [Nat.add_comm i 1, ← Nat.add_assoc] at this
        rw [this, Nat.add_comm 1 i]
        rfl

/-- before the first call -/
theorem new_quiet {c : Config K} {maxSize sizeNode sizeBase : Nat} {junk : List Int} {last : Nat} {s : State K F L} (h : new c maxSize sizeNode sizeBase junk last = .ok s) :
    Quiet c s 0 (List.replicate junk.length none) := by
  unfold new at h
  obtain ⟨n, -, h⟩ := bind_ok h
  obtain ⟨bases, -, h⟩ := bind_ok h
  cases h
  refine ⟨fun h => absurd h (by omega), fun i _ f hf => ?_, fun j T b hj _ => ?_⟩
  · exact (List.eq_of_mem_replicate (List.mem_of_getElem? hf)).le
  · have := List.eq_of_mem_replicate (List.mem_of_getElem? hj)
    cases this

/-! ### C90 -/

/-- **C90** `EXTEND_BARYCENTER` without trimming: for every split trigger, helper and distribution, and whatever was in the memory of `sum_features` and `count_points`,
every history ends in the state (or with the error) of the default trigger and helper, which uses some of the same random numbers in the same order. -/
theorem C90_no_trim (c : Config K) (hc : c.extend = .barycenter) (ht : c.trim = .none) (sc : SplitConfig K) (p : Params K) (ω : Nat → K)
    (maxSize sizeNode sizeBase : Nat) (junk : List Int) (last : Nat) (s0 : State K F L) (ops : List (Op K F L))
    (h : Setting c p ω maxSize sizeNode sizeBase junk last s0 ops) (ex : Extra K F) (hex : ex.full = 0) (pos : Nat) :
    ∃ used : Nat → Nat, StrictMono used ∧ (∀ i, pos ≤ used i) ∧
      (runSplit c sc p ω ops s0 ex pos).map (·.1) = (run c p (fun i => ω (used i)) ops s0 0).map (·.1) := by
  obtain ⟨hg, -⟩ := new_spec c maxSize sizeNode sizeBase junk last s0 h.made True (fun _ => trivial)
  obtain ⟨js, h1, h2, -, h4⟩ := runSplit_same c hc ht sc p h.exp0 h.discount h.lifetime ω h.random _ _ ops s0 _ ex pos hg
    (by rw [List.length_replicate]; exact h.valid) (by rw [hex]; exact new_quiet h.made)
  obtain ⟨p1, p2, p3⟩ := pick_spec ω js pos h1 h2
  refine ⟨pick pos js, p1, p2, ?_⟩
  have := h4 (fun i => ω (pick pos js i)) 0 (p3 _ 0 fun i => by rw [Nat.zero_add])
  beta_reduce at this
  rw [this]
  cases runSplit c sc p ω ops s0 ex pos with
  | error e => rfl
  | ok r => rfl

/-- **C90** The other ways to extend: every history ends in the same state for all split triggers, helpers and distributions, with or without trimming, and uses the same
random numbers. -/
theorem C90_other (c : Config K) (hc : c.extend ≠ .barycenter) (sc : SplitConfig K) (p : Params K) (ω : Nat → K) (ops : List (Op K F L))
    (s : State K F L) (ex : Extra K F) (pos : Nat) : (runSplit c sc p ω ops s ex pos).map (fun r => (r.1, r.2.2)) = run c p ω ops s pos :=
  C82_other_partial c hc sc p ω ops s ex pos

/-- seven points; the memory and the depth limit are reached and extensions are forced -/
def fullOps : List (Op ℚ 1 2) := [.train (pt 0) 0, .train (pt 8) 0, .train (pt 3) 0, .train (pt 6) 1, .train (pt 2) 1, .train (pt 16) 1, .train (pt 1) 1]

/-- the random numbers 1/10, 2/10, …, 7/10, again and again -/
def exSeven (i : Nat) : ℚ := ((i % 7 + 1 : Nat) : ℚ) / 10

theorem exSeven_range (i : Nat) : 0 < exSeven i ∧ exSeven i < 1 := by
  have h : i % 7 + 1 < 10 := by omega
  have h' : ((i % 7 + 1 : Nat) : ℚ) < ((10 : Nat) : ℚ) := Nat.cast_lt.2 h
  have h2 : (0 : ℚ) < ((i % 7 + 1 : Nat) : ℚ) := Nat.cast_pos.2 (Nat.succ_pos _)
  unfold exSeven
  constructor
  · exact div_pos h2 (by norm_num)
  · rw [div_lt_one (by norm_num)]
    exact h'

/-- the hypotheses of `C90_no_trim` -/
example : ∃ s0, Setting (cfg .cobble 3 .barycenter .none) exP exSeven 65 10 5 [0] 0 s0 fullOps :=
  ⟨_, by decide +kernel, by decide +kernel, by decide +kernel, fun i => ⟨(exSeven_range i).1.le, (exSeven_range i).2⟩, rfl, by simp [fullOps, Valid]⟩

/-- With `SPLIT_TRIGGER_TOTAL_COUNT` the random numbers at the positions 1 and 5 are drawn to decide on a split, and the result is that of the default trigger without these
numbers: five nodes, two of which were extended twice although the point should have been split off. -/
example :
    let r := (splitRun (cfg .cobble 3 .barycenter .none) ⟨.zero, .total, .avg, 1⟩ 65 exSeven (fun _ => 0) fullOps)
    let r' := (splitRun (cfg .cobble 3 .barycenter .none) ⟨.zero, .none, .none, 1⟩ 65 (fun i => exSeven (if i < 1 then i else if i < 4 then i + 1 else i + 2)) (fun _ => 0)
      fullOps)
    see (r.map noExtra) = .ok (1, [some 1], [⟨10, some 3, none, none, [1, 0]⟩, ⟨1 / 80, none, some 3, some 2, [0, 0]⟩, ⟨10, some 1, none, none, [1, 2]⟩, ⟨43 / 240, some 1, some 0, some 4, [0, 0]⟩,
      ⟨10, some 3, none, none, [1, 2]⟩, ⟨-1, none, none, none, [0, 0]⟩]) ∧
    see (r'.map noExtra) = .ok (1, [some 1], [⟨10, some 3, none, none, [1, 0]⟩, ⟨1 / 80, none, some 3, some 2, [0, 0]⟩, ⟨10, some 1, none, none, [1, 2]⟩, ⟨43 / 240, some 1, some 0, some 4, [0, 0]⟩,
      ⟨10, some 3, none, none, [1, 2]⟩, ⟨-1, none, none, none, [0, 0]⟩]) ∧
    r.map (fun r => (r.1.forced, r.2.2)) = .ok ([0, 0, 2, 0, 2, 0], 13) ∧ r'.map (fun r => (r.1.forced, r.2.2)) = .ok ([0, 0, 2, 0, 2, 0], 11) :=
  ⟨by decide +kernel, by decide +kernel, by decide +kernel, by decide +kernel⟩

/-! ### C61, C75, C77, C79, C80 and C82 for all triggers and helpers, without trimming -/

/-- a history with splits that ends without error is a history without splits for other random numbers -/
theorem Setting.plain {c : Config K} {p : Params K} {ω : Nat → K} {maxSize sizeNode sizeBase : Nat} {junk : List Int} {last : Nat} {s0 : State K F L}
    {ops : List (Op K F L)} (h : Setting c p ω maxSize sizeNode sizeBase junk last s0 ops) (hc : c.extend = .barycenter) (ht : c.trim = .none) {sc : SplitConfig K}
    {ex : Extra K F} (hex : ex.full = 0) {pos : Nat} {s : State K F L} {ex' : Extra K F} {pos' : Nat} (hr : runSplit c sc p ω ops s0 ex pos = .ok (s, ex', pos')) :
    ∃ ω' n, Setting c p ω' maxSize sizeNode sizeBase junk last s0 ops ∧ run c p ω' ops s0 0 = .ok (s, n) := by
  obtain ⟨used, -, -, e⟩ := C90_no_trim c hc ht sc p ω maxSize sizeNode sizeBase junk last s0 ops h ex hex pos
  rw [hr] at e
  refine ⟨fun i => ω (used i), ?_⟩
  cases hx : run c p (fun i => ω (used i)) ops s0 0 with
  | error e' => rw [hx] at e; cases e
  | ok r =>
      rw [hx] at e
      obtain ⟨s', n⟩ := r
      have e : s = s' := Except.ok.inj e
      subst e
      exact ⟨n, ⟨h.lifetime, h.exp0, h.discount, fun i => h.random _, h.made, h.valid⟩, rfl⟩

/-- **C61**, **C82** (partial) `EXTEND_BARYCENTER` without trimming, every trigger and helper: no history is undefined behaviour, for random numbers other than 0 and depth
limits up to 101. -/
theorem C82_no_trim_defined_partial (c : Config K) (hc : c.extend = .barycenter) (ht : c.trim = .none) (sc : SplitConfig K) (p : Params K) (ω : Nat → K)
    (maxSize sizeNode sizeBase : Nat) (junk : List Int) (last : Nat) (s0 : State K F L) (ops : List (Op K F L))
    (h : Setting c p ω maxSize sizeNode sizeBase junk last s0 ops) (hω : ∀ i, ω i ≠ 0) (hl : c.isCobble = true → c.sizeLimit ≤ 101) (ex : Extra K F) (hex : ex.full = 0)
    (pos : Nat) : ∃ s ex' pos', runSplit c sc p ω ops s0 ex pos = .ok (s, ex', pos') := by
  obtain ⟨used, -, -, e⟩ := C90_no_trim c hc ht sc p ω maxSize sizeNode sizeBase junk last s0 ops h ex hex pos
  obtain ⟨s, n, hr⟩ := C61_no_undefined_behaviour_partial c p (fun i => ω (used i)) maxSize sizeNode sizeBase junk last s0 ops
    ⟨h.lifetime, h.exp0, h.discount, fun i => h.random _, h.made, h.valid⟩ (fun i => hω _) hl 0
  rw [hr] at e
  cases hx : runSplit c sc p ω ops s0 ex pos with
  | error e' => rw [hx] at e; cases e
  | ok r => exact ⟨r.1, r.2.1, r.2.2, rfl⟩

/-- **C61**, **C80**, **C82** (partial) `EXTEND_BARYCENTER` without trimming, every trigger and helper: after every history each tree is a binary tree over distinct nodes of the
pool with right links, nodes of different trees are different, the nodes outside of the trees are the available ones, their number is known, and the split times are between
0 and `lifetime` and do not decrease on the way down. -/
theorem C82_no_trim_partial (c : Config K) (hc : c.extend = .barycenter) (ht : c.trim = .none) (sc : SplitConfig K) (p : Params K) (ω : Nat → K)
    (maxSize sizeNode sizeBase : Nat) (junk : List Int) (last : Nat) (s0 : State K F L) (ops : List (Op K F L))
    (h : Setting c p ω maxSize sizeNode sizeBase junk last s0 ops) (ex : Extra K F) (hex : ex.full = 0) (pos : Nat) (s : State K F L) (ex' : Extra K F) (pos' : Nat)
    (hr : runSplit c sc p ω ops s0 ex pos = .ok (s, ex', pos')) :
    ∃ trees, HoldsAll s.forest trees ∧ trees.length = junk.length ∧ s.forest.nodes.length = s0.forest.nodes.length ∧
      (∀ i ∈ allIds trees, i < s.forest.nodes.length) ∧ (allIds trees).Nodup ∧ s.free = s.forest.nodes.length - (allIds trees).length ∧
      (∀ (i : Nat) (nd : Node K F L), s.forest.nodes[i]? = some nd → (nd.available = true ↔ i ∉ allIds trees)) ∧
      ∀ t, some t ∈ trees → Times (· ≤ ·) p.lifetime 0 t := by
  obtain ⟨ω', n, h', hr'⟩ := h.plain hc ht hex hr
  obtain ⟨trees, a1, a2, a3, a4, a5, a6, a7, -⟩ := C61_free_nodes_partial c p ω' maxSize sizeNode sizeBase junk last s0 ops h' 0 s n hr'
  obtain ⟨trees', b1, b2, b3, b4⟩ := C80_structure c p ω' maxSize sizeNode sizeBase junk last s0 ops h' 0 s n hr'
  have := Mondrian.C52_trees_unique b1 a2
  subst this
  exact ⟨trees', a2, a3, a1, a4, a5, a6, a7, b4⟩

/-- **C75** (partial) `EXTEND_BARYCENTER` without trimming, every trigger and helper: the trees of cobble managements keep the depth limit. -/
theorem C75_no_trim_partial (c : Config K) (hc : c.extend = .barycenter) (ht : c.trim = .none) (hm : c.isCobble = true) (sc : SplitConfig K) (p : Params K) (ω : Nat → K)
    (maxSize sizeNode sizeBase : Nat) (junk : List Int) (last : Nat) (s0 : State K F L) (ops : List (Op K F L))
    (h : Setting c p ω maxSize sizeNode sizeBase junk last s0 ops) (ex : Extra K F) (hex : ex.full = 0) (pos : Nat) (s : State K F L) (ex' : Extra K F) (pos' : Nat)
    (hr : runSplit c sc p ω ops s0 ex pos = .ok (s, ex', pos')) :
    ∃ trees, HoldsAll s.forest trees ∧ trees.length = junk.length ∧ ∀ t, some t ∈ trees → (t.height : Int) ≤ max 1 c.sizeLimit := by
  obtain ⟨ω', n, h', hr'⟩ := h.plain hc ht hex hr
  exact C75_depth_limit_partial c hm p ω' maxSize sizeNode sizeBase junk last s0 ops h' 0 s n hr'

/-- **C77** (partial) `EXTEND_BARYCENTER` without trimming, every trigger and helper: each tree has counted each training point once. -/
theorem C77_no_trim_partial (c : Config K) (hc : c.extend = .barycenter) (ht : c.trim = .none) (sc : SplitConfig K) (p : Params K) (ω : Nat → K)
    (maxSize sizeNode sizeBase : Nat) (junk : List Int) (last : Nat) (s0 : State K F L) (ops : List (Op K F L))
    (h : Setting c p ω maxSize sizeNode sizeBase junk last s0 ops) (hn : junk.length ≤ s0.forest.nodes.length) (ex : Extra K F) (hex : ex.full = 0) (pos : Nat)
    (s : State K F L) (ex' : Extra K F) (pos' : Nat) (hr : runSplit c sc p ω ops s0 ex pos = .ok (s, ex', pos')) :
    ∃ trees, HoldsAll s.forest trees ∧ trees.length = junk.length ∧
      (points ops ≠ [] → none ∉ trees) ∧ ∀ t, some t ∈ trees → ∀ label, ((leaves t).map (fun z => z.2.counts label)).sum = (points ops).countP (fun z => z.2 = label) := by
  obtain ⟨ω', n, h', hr'⟩ := h.plain hc ht hex hr
  exact C77_counted_once_partial c (.inr hc) ht p ω' maxSize sizeNode sizeBase junk last s0 ops h' hn 0 s n hr'

/-- **C79** (partial) `EXTEND_BARYCENTER` without trimming, every trigger and helper: after every history `predict` returns a label for every point, and again the same one. -/
theorem C79_no_trim_partial (c : Config K) (hc : c.extend = .barycenter) (ht : c.trim = .none) (sc : SplitConfig K) (p : Params K) (ω : Nat → K)
    (maxSize sizeNode sizeBase : Nat) (junk : List Int) (last : Nat) (s0 : State K F L) (ops : List (Op K F L))
    (h : Setting c p ω maxSize sizeNode sizeBase junk last s0 ops) (hL : 0 < L) (hj : 0 < junk.length) (ex : Extra K F) (hex : ex.full = 0) (pos : Nat)
    (s : State K F L) (ex' : Extra K F) (pos' : Nat) (hr : runSplit c sc p ω ops s0 ex pos = .ok (s, ex', pos')) (x : Fin F → K) (use : Option Nat)
    (h1 : 1 ≤ usedTrees junk.length use) (h2 : usedTrees junk.length use ≤ junk.length) :
    ∃ l < L, ∃ s', predict c p s x use = .ok (s', l) ∧ predict c p s' x use = .ok (s', l) := by
  obtain ⟨ω', n, h', hr'⟩ := h.plain hc ht hex hr
  obtain ⟨nodes', -, -, -, hp⟩ := C79_predict_partial c p ω' maxSize sizeNode sizeBase junk last s0 ops h' hL 0 s n hr' hj
  obtain ⟨l, hl, e1, e2⟩ := hp x use h1 h2
  exact ⟨l, hl, _, e1, e2⟩

/-! ### C84 for all helpers, without trimming -/

theorem extendSplit_extra (c : Config K) (sc : SplitConfig K) (p : Params K) (ω : Nat → K) (ex ex' : Extra K F) (x : Fin F → K) (label : Fin L) (tree : Nat) (sum : Int) :
    ∀ (fuel id pos : Nat) (s : State K F L), (0 < ex.full → s.free ≤ 1) → (0 < ex'.full → s.free ≤ 1) →
      extendSplit c sc p ω ex x label tree sum fuel id pos s = extendSplit c sc p ω ex' x label tree sum fuel id pos s
  | 0, _, _, _, _, _ => by rw [extendSplit, extendSplit]
  | fuel + 1, id, pos, s, h, h' => by
      rw [extendSplit, extendSplit]
      refine bind_same fun node => bind_same fun ptau => bind_same fun b => bind_same fun pause => ?_
      split
      · rfl
      · refine bind_same fun nodes => bind_same fun forced => ?_
        split
        · refine bind_same fun sp => bind_same fun child => ?_
          exact extendSplit_extra c sc p ω ex ex' x label tree sum fuel child _ _ h h'
        · have n1 : ¬ (20 < ex.full ∧ (expo p ω pos b x).1 < 0 ∧ 2 ≤ s.free) := fun hc => by have := h (by omega); have := hc.2.2; omega
          have n2 : ¬ (20 < ex'.full ∧ (expo p ω pos b x).1 < 0 ∧ 2 ≤ s.free) := fun hc => by have := h' (by omega); have := hc.2.2; omega
          simp only [if_neg n1, if_neg n2]

theorem trainTreeSplit_extra (c : Config K) (sc : SplitConfig K) (p : Params K) (ω : Nat → K) (ex ex' : Extra K F) (x : Fin F → K) (label : Fin L) (tree : Nat)
    (s : State K F L) (pos : Nat) (h : 0 < ex.full → s.free ≤ 1) (h' : 0 < ex'.full → s.free ≤ 1) :
    trainTreeSplit c sc p ω ex x label tree s pos = trainTreeSplit c sc p ω ex' x label tree s pos := by
  unfold trainTreeSplit
  refine bind_same fun root => ?_
  cases root with
  | none => rfl
  | some id =>
      simp only
      split
      · refine bind_same fun sum => ?_
        rw [extendSplit_extra c sc p ω ex ex' x label tree sum _ _ _ s h h']
      · rfl

theorem trainLoopSplit_extra (c : Config K) (hc : c.extend = .barycenter) (sc : SplitConfig K) (p : Params K) (hlife : 0 ≤ p.lifetime) (ω : Nat → K)
    (hω : ∀ i, 0 ≤ ω i ∧ ω i < 1) (ex ex' : Extra K F) (hex : ex'.full = ex.full) (x : Fin F → K) (label : Fin L) : ∀ (k i : Nat) (s : State K F L)
    (trees : List (Option (Tree K F L))) (pos : Nat) (ok : Bool), Inv s trees → Quiet c s ex.full trees → i + k = trees.length →
    trainLoopSplit c sc p ω ex x label i k s pos ok = trainLoopSplit c sc p ω ex' x label i k s pos ok
  | 0, _, _, _, _, _, _, _, _ => rfl
  | k + 1, i, s, trees, pos, ok, hI, hq, hk => by
      rw [trainLoopSplit, trainLoopSplit, ← trainTreeSplit_extra c sc p ω ex ex' x label i s pos hq.full (by rw [hex]; exact hq.full)]
      cases hx : trainTreeSplit c sc p ω ex x label i s pos with
      | error e => rfl
      | ok q =>
          obtain ⟨s1, pos1, r1⟩ := q
          obtain ⟨trees1, i1, i2, i3, -⟩ := (trainTree_same c hc sc p hlife ω hω ex x label s trees hI hq i pos (by omega)).2 s1 pos1 r1 hx
          exact trainLoopSplit_extra c hc sc p hlife ω hω ex ex' hex x label k (i + 1) s1 trees1 pos1 (ok && r1) i1 i2 (by omega)

theorem execSplit_extra (c : Config K) (hc : c.extend = .barycenter) (htrim : c.trim = .none) (sc : SplitConfig K) (p : Params K) (hlife : 0 ≤ p.lifetime) (ω : Nat → K)
    (hω : ∀ i, 0 ≤ ω i ∧ ω i < 1) (op : Op K F L) (s : State K F L) (trees : List (Option (Tree K F L))) (ex ex' : Extra K F) (hex : ex'.full = ex.full) (pos : Nat)
    (hI : Inv s trees) (hq : Quiet c s ex.full trees) :
    (execSplit c sc p ω op s ex pos).map (fun r => (r.1, r.2.1.full, r.2.2)) = (execSplit c sc p ω op s ex' pos).map (fun r => (r.1, r.2.1.full, r.2.2)) := by
  cases op with
  | train x label =>
      have hroots : s.forest.roots.length = trees.length := by rw [hI.mem.all.roots, List.length_map]
      unfold execSplit trainSplit
      simp only [htrim, hroots, reduceCtorEq, if_false, not_true, false_and, ok_bind, ne_eq]
      rw [trainLoopSplit_extra c hc sc p hlife ω hω { ex with
        sum := fun i => ex.sum i * sc.fadingCount + x i
        count := ex.count * sc.fadingCount + 1 } { ex' with
        sum := fun i => ex'.sum i * sc.fadingCount + x i
        count := ex'.count * sc.fadingCount + 1 } (by exact hex) x label trees.length 0 s trees pos true hI hq (by omega)]
      cases trainLoopSplit c sc p ω _ x label 0 trees.length s pos true with
      | error e => rfl
      | ok r =>
          simp only [ok_bind, pure, Except.pure, Except.map]
          split <;> simp [hex]
  | predict x use => unfold execSplit; simp only; cases exec c p ω (.predict x use) s pos <;> simp [bind, Except.bind, Except.map, pure, Except.pure, hex]
  | trim => unfold execSplit; simp only; cases exec c p ω (.trim) s pos <;> simp [bind, Except.bind, Except.map, pure, Except.pure, hex]
  | fade => unfold execSplit; simp only; cases exec c p ω (.fade) s pos <;> simp [bind, Except.bind, Except.map, pure, Except.pure, hex]
  | other last => unfold execSplit; simp only; cases exec c p ω (.other last) s pos <;> simp [bind, Except.bind, Except.map, pure, Except.pure, hex]

theorem runSplit_extra (c : Config K) (hc : c.extend = .barycenter) (htrim : c.trim = .none) (sc : SplitConfig K) (p : Params K) (h0 : p.exp 0 = 1) (hd : 0 ≤ p.discount)
    (hlife : 0 ≤ p.lifetime) (ω : Nat → K) (hω : ∀ i, 0 ≤ ω i ∧ ω i < 1) (bases : List Base) (m : Nat) : ∀ (ops : List (Op K F L)) (s : State K F L)
    (trees : List (Option (Tree K F L))) (ex ex' : Extra K F) (pos : Nat), ex'.full = ex.full → Good c True bases m s trees → (∀ op ∈ ops, Valid trees.length op) →
    Quiet c s ex.full trees → (runSplit c sc p ω ops s ex pos).map noExtra = (runSplit c sc p ω ops s ex' pos).map noExtra
  | [], _, _, _, _, _, _, _, _, _ => rfl
  | op :: ops, s, trees, ex, ex', pos, hex, hG, hv, hq => by
      have e := execSplit_extra c hc htrim sc p hlife ω hω op s trees ex ex' hex pos hG.inv hq
      have g := (execSplit_same c hc htrim sc p h0 hd hlife ω hω bases m op s trees ex pos hG (hv op List.mem_cons_self) hq).2
      rw [runSplit, runSplit]
      cases hx : execSplit c sc p ω op s ex pos with
      | error err =>
          rw [hx] at e
          cases hx' : execSplit c sc p ω op s ex' pos with
          | error err' => rw [hx'] at e; cases e; rfl
          | ok r' => rw [hx'] at e; cases e
      | ok r =>
          rw [hx] at e
          cases hx' : execSplit c sc p ω op s ex' pos with
          | error err' => rw [hx'] at e; cases e
          | ok r' =>
              rw [hx'] at e
              obtain ⟨s1, ex1, pos1⟩ := r
              obtain ⟨s1', ex1', pos1'⟩ := r'
              have e := Except.ok.inj e
              simp only [Prod.mk.injEq] at e
              obtain ⟨rfl, e2, rfl⟩ := e
              obtain ⟨trees1, i1, i2, i3⟩ := g s1 ex1 pos1 hx
              exact runSplit_extra c hc htrim sc p h0 hd hlife ω hω bases m ops s1 trees1 ex1 ex1' pos1 e2.symm i1
                (fun op hop => by rw [i3]; exact hv op (List.mem_cons_of_mem _ hop)) i2

/-- **C84** (partial) `EXTEND_BARYCENTER` without trimming: for every trigger, helper and distribution the state after every history is the same for all initial values of
`sum_features` and `count_points`. -/
theorem C84_no_trim_partial (c : Config K) (hc : c.extend = .barycenter) (ht : c.trim = .none) (sc : SplitConfig K) (p : Params K) (ω : Nat → K)
    (maxSize sizeNode sizeBase : Nat) (junk : List Int) (last : Nat) (s0 : State K F L) (ops : List (Op K F L))
    (h : Setting c p ω maxSize sizeNode sizeBase junk last s0 ops) (sum sum' : Fin F → K) (count count' : K) (pos : Nat) :
    (runSplit c sc p ω ops s0 ⟨sum, count, 0⟩ pos).map (fun r => (r.1, r.2.2)) = (runSplit c sc p ω ops s0 ⟨sum', count', 0⟩ pos).map (fun r => (r.1, r.2.2)) := by
  obtain ⟨hg, -⟩ := new_spec c maxSize sizeNode sizeBase junk last s0 h.made True (fun _ => trivial)
  exact runSplit_extra c hc ht sc p h.exp0 h.discount h.lifetime ω h.random _ _ ops s0 _ ⟨sum, count, 0⟩ ⟨sum', count', 0⟩ pos rfl hg
    (by rw [List.length_replicate]; exact h.valid) (new_quiet h.made)

end Orp.Coarse
