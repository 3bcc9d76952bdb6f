import Verif.Coarse.Keep
import Verif.Coarse.Deep
import Verif.Mondrian.Props

/-!
Properties C61, C62 and C74 – C80 of `CoarseMondrianForest`.

The theorems range over every configuration (tree management, limit, way to extend, way to trim), every history `ops` of calls of `train`, `predict`, `tree_trim` and
`tree_fade_counts` on a new object, every sequence `ω` of random numbers in `[0, 1[`, every `log`, every ordered field and every value found in the uninitialised
members and in the static variable of `available_node`, which other objects may change between the calls (`Op.other`). They speak of the state after a history that did
not end in undefined behaviour; `C61_no_undefined_behaviour_partial` and `C75_deep_tree` say when it does.
-/

namespace Orp.Coarse

set_option linter.unusedSectionVars false

open Finset
open Mondrian (Node Box Forest Params Tree Data avail mem_avail lt_of_get newLeaf allIds Point IsHull histogram Right Times HoldsAll Separates exω exP pt)

variable {K : Type} [Field K] [LinearOrder K] [IsStrictOrderedRing K] [FloorRing K] {F L : Nat}

/-- A new object `s0` and a history of calls with allowed arguments. `valid`: `predict` is not asked for no trees or more trees than there are, see
`C79_too_many_trees`. -/
structure Setting (c : Config K) (p : Params K) (ω : Nat → K) (maxSize sizeNode sizeBase : Nat) (junk : List Int) (last : Nat) (s0 : State K F L)
    (ops : List (Op K F L)) : Prop where
  lifetime : 0 ≤ p.lifetime
  exp0 : p.exp 0 = 1
  discount : 0 ≤ p.discount
  random : ∀ i, 0 ≤ ω i ∧ ω i < 1
  made : new c maxSize sizeNode sizeBase junk last = .ok s0
  valid : ∀ op ∈ ops, Valid junk.length op

section

variable {c : Config K} {p : Params K} {ω : Nat → K} {maxSize sizeNode sizeBase : Nat} {junk : List Int} {last : Nat} {s0 : State K F L} {ops : List (Op K F L)}

theorem Setting.reach (h : Setting c p ω maxSize sizeNode sizeBase junk last s0 ops) {pos : Nat} {s : State K F L} {pos' : Nat}
    (hr : run c p ω ops s0 pos = .ok (s, pos')) (few : Prop) (hfew : s0.forest.nodes.length < junk.length → few)
    (P : List (Op K F L) → Base → Option (Tree K F L) → Prop) (hP : Kept c p.lifetime few junk.length P) :
    ∃ trees, Good c few s0.bases s0.forest.nodes.length s trees ∧ trees.length = junk.length ∧
      ∀ (j : Nat) (o : Option (Tree K F L)) (b : Base), trees[j]? = some o → s0.bases[j]? = some b → P ops b o := by
  rcases run_fine c p h.exp0 h.discount h.lifetime ω h.random few maxSize sizeNode sizeBase junk last s0 h.made hfew P hP pos ops h.valid with
    ⟨-, e, he⟩ | ⟨s', pos1, trees, e1, e2, e3, e4⟩
  · rw [he] at hr; cases hr
  · rw [e1] at hr
    cases hr
    exact ⟨trees, e2, e3, e4⟩

theorem Setting.good (h : Setting c p ω maxSize sizeNode sizeBase junk last s0 ops) {pos : Nat} {s : State K F L} {pos' : Nat}
    (hr : run c p ω ops s0 pos = .ok (s, pos')) : ∃ trees, Good c True s0.bases s0.forest.nodes.length s trees ∧ trees.length = junk.length := by
  obtain ⟨trees, e2, e3, -⟩ := h.reach hr True (fun _ => trivial) _ (kept_true c p.lifetime True junk.length)
  exact ⟨trees, e2, e3⟩

end

/-! ### A concrete case for the examples: one feature, two labels, every random number is 1/2, nodes of 10 bytes and trees of 5 bytes -/

theorem exω_pos (i : Nat) : 0 < exω [] i ∧ exω [] i < 1 := by unfold exω; norm_num

/-- a configuration -/
def cfg (m : Management) (limit : Int) (e : Extend) (t : Trim) : Config ℚ := ⟨m, limit, e, t, 1, 1⟩

/-- four points -/
def exOps : List (Op ℚ 1 2) := [.train (pt 0) 0, .train (pt 1) 1, .train (pt 3) 1, .train (pt 2) 1]

/-- a new object with 8 nodes and one tree, and a history -/
def exRun (c : Config ℚ) (junk : List Int) (ops : List (Op ℚ 1 2)) : Res (State ℚ 1 2 × Nat) := do
  let s ← new c 85 10 5 junk 0
  run c exP (exω []) ops s 0

/-- what can be seen of a node -/
structure Seen where
  tau : ℚ
  parent : Option Nat
  left : Option Nat
  right : Option Nat
  counts : List Nat
deriving DecidableEq

/-- what can be seen of a state: free nodes, roots, and time, parent, children and counters of the nodes -/
def see (r : Res (State ℚ 1 2 × Nat)) : Res (Int × List (Option Nat) × List Seen) :=
  r.map fun r => (r.1.free, r.1.forest.roots, r.1.forest.nodes.map (fun n => ⟨n.tau, n.parent, n.left, n.right, List.ofFn n.counts⟩))

theorem exSetting (c : Config ℚ) (s0 : State ℚ 1 2) (ops : List (Op ℚ 1 2)) (h : new c 85 10 5 [0] 0 = .ok s0)
    (hv : ∀ op ∈ ops, Valid 1 op) : Setting c exP (exω []) 85 10 5 [0] 0 s0 ops :=
  ⟨by decide +kernel, by decide +kernel, by decide +kernel, fun i => ⟨(exω_pos i).1.le, (exω_pos i).2⟩, h, hv⟩

/-- the first tree of the forest grows to seven nodes; afterwards a leaf is trimmed -/
example : see (exRun (cfg .phoenix 0 .original .count) [0] (exOps ++ [.trim])) = .ok (3, [some 1],
    [⟨10, some 1, none, none, [1, 0]⟩, ⟨1 / 2, none, some 0, some 5, [1, 0]⟩, ⟨10, some 5, none, none, [0, 1]⟩, ⟨-1, none, none, none, [0, 0]⟩,
      ⟨-1, none, none, none, [0, 0]⟩, ⟨1, some 1, some 2, some 6, [0, 1]⟩, ⟨10, some 5, none, none, [0, 1]⟩, ⟨-1, none, none, none, [0, 0]⟩]) := by decide +kernel

/-! ### C61 -/

/-- **C61** (partial) After every history the count of available nodes is the number of nodes of the pool that are in no
tree; a node is marked as available exactly if it is in no tree; and `available_node` returns an available node if the count is positive, otherwise none.
Missing: the split triggers of `EXTEND_BARYCENTER`, which are off by default. `tree_add` and `tree_delete` are private and never called. -/
theorem C61_free_nodes_partial (c : Config K) (p : Params K) (ω : Nat → K) (maxSize sizeNode sizeBase : Nat) (junk : List Int) (last : Nat) (s0 : State K F L)
    (ops : List (Op K F L)) (h : Setting c p ω maxSize sizeNode sizeBase junk last s0 ops) (pos : Nat) (s : State K F L) (pos' : Nat)
    (hr : run c p ω ops s0 pos = .ok (s, pos')) :
    ∃ trees, s.forest.nodes.length = s0.forest.nodes.length ∧ HoldsAll s.forest trees ∧ trees.length = junk.length ∧
      (∀ i ∈ allIds trees, i < s.forest.nodes.length) ∧ (allIds trees).Nodup ∧
      s.free = s.forest.nodes.length - (allIds trees).length ∧
      (∀ (i : Nat) (nd : Node K F L), s.forest.nodes[i]? = some nd → (nd.available = true ↔ i ∉ allIds trees)) ∧
      (s.free = 0 → takeNode s = .ok (none, s)) ∧
      (0 < s.free → ∃ i nd, takeNode s = .ok (some i, { s with last := i }) ∧ s.forest.nodes[i]? = some nd ∧ nd.available = true) := by
  obtain ⟨trees, e2, e3⟩ := h.good hr
  have hm := e2.inv.mem
  have hlen := hm.cover.length_eq
  simp only [List.nil_append, List.length_append, List.length_range] at hlen
  have hav : ∀ (i : Nat) (nd : Node K F L), s.forest.nodes[i]? = some nd → (nd.available = true ↔ i ∈ avail s.forest.nodes) := by
    intro i nd hi
    rw [mem_avail]
    simp only [hi, Node.available]
    simp
  refine ⟨trees, e2.nodes, hm.all, e3, fun i hi => hm.ids_lt hi, hm.all.nodup, ?_, fun i nd hi => ?_, fun hf => takeNode_none s hf, fun hf => ?_⟩
  · rw [e2.inv.free]; omega
  · rw [hav i nd hi]
    constructor
    · exact fun h1 h2 => hm.used h2 h1
    · intro h2
      have := hm.cover.mem_iff.2 (List.mem_range.2 (lt_of_get hi))
      rcases List.mem_append.1 this with h3 | h3
      · exact h3
      · exact absurd (by simpa using h3) h2
  · have hne : avail s.forest.nodes ≠ [] := by
      intro e
      rw [e2.inv.free, e] at hf
      exact absurd hf (by simp)
    obtain ⟨i, hi, e⟩ := takeNode_some s (by omega) hne
    obtain ⟨nd, h1, h2⟩ := mem_avail.1 hi
    exact ⟨i, nd, e, h1, (hav i nd h1).2 hi⟩

/-- **C61** (partial) No history ends in undefined behaviour, if no random number is 0 and, with the two tree managements that limit the depth, the limit is at most 101.
Missing: the other random numbers and limits, see `C61_random_zero` and `C75_deep_tree`. -/
theorem C61_no_undefined_behaviour_partial (c : Config K) (p : Params K) (ω : Nat → K) (maxSize sizeNode sizeBase : Nat) (junk : List Int) (last : Nat)
    (s0 : State K F L) (ops : List (Op K F L)) (h : Setting c p ω maxSize sizeNode sizeBase junk last s0 ops) (hω : ∀ i, ω i ≠ 0)
    (hl : c.isCobble = true → c.sizeLimit ≤ 101) (pos : Nat) : ∃ s pos', run c p ω ops s0 pos = .ok (s, pos') := by
  obtain ⟨s, pos', -, e1, -⟩ := run_spec c p h.exp0 h.discount h.lifetime ω (fun i => ⟨lt_of_le_of_ne (h.random i).1 (hω i).symm, (h.random i).2⟩) hl True maxSize sizeNode
    sizeBase junk last s0 h.made (fun _ => trivial) _ (kept_true c p.lifetime True junk.length) pos ops h.valid
  exact ⟨s, pos', e1⟩

/-- **C61** (violation) Two points that differ in the second feature only, and the random number 0 for the choice of the dimension: the first feature is chosen, for which no
range is set. -/
theorem C61_random_zero : ∃ (p : Params ℚ) (ω : Nat → ℚ), (∀ i, 0 ≤ ω i ∧ ω i < 1) ∧
    (do let c := cfg .phoenix 0 .original .none
        let s ← new c 85 10 5 [0] 0
        let (s, pos, r1) ← train c p ω ![0, 0] (0 : Fin 2) s 0
        let (s, _, r2) ← train c p ω ![0, 1] 0 s pos
        return (r1, r2, s.free) : Res (Bool × Bool × Int)) = .error .ub :=
  ⟨exP, exω [1], Mondrian.exω_range [1], by decide +kernel⟩

/-! ### C62 -/

/-- **C62** (violation) With the default parameters (`EXTEND_NONE`) a call of `train` for a forest whose trees have a root changes nothing but the number of
calls, and it returns true while more than two nodes are available. -/
theorem C62_default_learns_nothing (c : Config K) (hc : c.extend = .none) (ht : c.trim = .none) (p : Params K) (ω : Nat → K) (x : Fin F → K) (label : Fin L)
    (s : State K F L) (pos : Nat) (hs : ∀ r ∈ s.forest.roots, r ≠ none) (hn : s.forest.roots ≠ []) :
    train c p ω x label s pos = .ok ({ s with total := s.total + 1 }, pos, decide (2 < s.free)) := by
  have hstep : ∀ i, i < s.forest.roots.length → trainTree c p ω x label i s pos = .ok (s, pos, decide (2 < s.free)) := by
    intro i hi
    have hr := rd_eq_ok_iff.2 (List.getElem?_eq_getElem hi)
    have hne := hs _ (List.getElem_mem hi)
    unfold trainTree
    simp only [hr, bind, Except.bind]
    cases hroot : s.forest.roots[i] with
    | none => exact absurd hroot hne
    | some r => simp only [if_pos hc, pure, Except.pure]
  have hloop : ∀ k i ok, i + k ≤ s.forest.roots.length → trainLoop c p ω x label i k s pos ok = .ok (s, pos, ok && (decide (k = 0) || decide (2 < s.free))) := by
    intro k
    induction k with
    | zero => intro i ok _; simp [trainLoop]
    | succ k ih =>
        intro i ok hi
        unfold trainLoop
        simp only [hstep i (by omega), bind, Except.bind]
        rw [ih (i + 1) _ (by omega)]
        by_cases hk : k = 0 <;> by_cases h2 : 2 < s.free <;> cases ok <;> simp [hk, h2]
  have hlen : s.forest.roots.length ≠ 0 := fun h => hn (List.length_eq_zero_iff.1 h)
  unfold train
  simp only [ht, bind, Except.bind]
  rw [if_neg (by decide)]
  simp only
  rw [if_neg (fun h => h.1 rfl)]
  simp only [hloop s.forest.roots.length 0 true (by omega), pure, Except.pure, hlen, decide_false, Bool.false_or, Bool.true_and]

example : (Config.default : Config ℚ).extend = .none ∧ (Config.default : Config ℚ).trim = .none := ⟨rfl, rfl⟩

/-- **C62** (violation) With the default parameters, 8 nodes and one tree: the first point has label 0, all the later ones label 1. `train` returns true each time,
seven nodes are free, and the label predicted for the later points is 0. -/
theorem C62_default_violation : ∃ (p : Params ℚ) (ω : Nat → ℚ), (∀ i, 0 < ω i ∧ ω i < 1) ∧
    (do let s ← new (Config.default : Config ℚ) 85 10 5 [0] 0
        let (s, pos, r1) ← train Config.default p ω (pt 0) (0 : Fin 2) s 0
        let (s, pos, r2) ← train Config.default p ω (pt 1) 1 s pos
        let (s, pos, r3) ← train Config.default p ω (pt 3) 1 s pos
        let (s, _, r4) ← train Config.default p ω (pt 1) 1 s pos
        let (s, l) ← predict Config.default p s (pt 1) none
        return ([r1, r2, r3, r4], s.free, l) : Res (List Bool × Int × Nat)) = .ok ([true, true, true, true], 7, 0) :=
  ⟨exP, exω [], exω_pos, by decide +kernel⟩

theorem leaf_of_height {t : Tree K F L} (h : t.height ≤ 1) : ∃ id d, t = .leaf id d := by
  cases t with
  | leaf id d => exact ⟨id, d, rfl⟩
  | node id d dim sp l r =>
      exfalso
      have := height_pos l
      simp only [Mondrian.Tree.height, Nat.max_def] at h
      split at h <;> omega

/-- **C62** (violation) With the default tree management and the default limit -1, in every mode, no tree ever gets a second node: the whole history ends in a
single leaf. -/
theorem C62_default_limit_never_splits (c : Config K) (hc : c.isCobble = true) (hl : c.sizeLimit ≤ 1) (p : Params K) (ω : Nat → K)
    (maxSize sizeNode sizeBase : Nat) (junk : List Int) (last : Nat) (s0 : State K F L) (ops : List (Op K F L))
    (h : Setting c p ω maxSize sizeNode sizeBase junk last s0 ops) (pos : Nat) (s : State K F L) (pos' : Nat)
    (hr : run c p ω ops s0 pos = .ok (s, pos')) :
    ∃ trees, HoldsAll s.forest trees ∧ trees.length = junk.length ∧ ∀ t, some t ∈ trees → ∃ id d, t = .leaf id d := by
  obtain ⟨trees, e2, e3⟩ := h.good hr
  refine ⟨trees, e2.inv.mem.all, e3, fun t ht => ?_⟩
  obtain ⟨j, hj⟩ := List.mem_iff_getElem?.1 ht
  obtain ⟨b, hb, hbm⟩ := e2.base (lt_of_get hj)
  have hlow := (e2.tree j _ b hj hb).1 t rfl hc
  have hlim := (new_spec c maxSize sizeNode sizeBase junk last s0 h.made True (fun _ => trivial)).2.2.2.1 hc b hbm
  rw [hlim, max_eq_left hl] at hlow
  exact leaf_of_height (by exact_mod_cast hlow)

example : ∃ s0, Setting (cfg .cobble (-1) .original .none) exP (exω []) 85 10 5 [0] 0 s0 exOps :=
  ⟨_, exSetting _ _ _ rfl (by simp [exOps, Valid])⟩

/-- **C62** (partial) With `EXTEND_ORIGINAL`, without trimming: after every history, `train` returns true exactly if there are enough nodes for a root in each tree,
and then every tree is right for all the training points so far: each one is counted once, in the leaf it is routed to. The memory may be exhausted otherwise.
Missing: the default parameters. -/
theorem C62_original_partial (c : Config K) (hc : c.extend = .original) (ht : c.trim = .none) (p : Params K) (ω : Nat → K)
    (maxSize sizeNode sizeBase : Nat) (junk : List Int) (last : Nat) (s0 : State K F L) (ops : List (Op K F L))
    (h : Setting c p ω maxSize sizeNode sizeBase junk last s0 ops) (pos : Nat) (s : State K F L) (pos1 : Nat)
    (hr : run c p ω ops s0 pos = .ok (s, pos1)) (x : Fin F → K) (label : Fin L) (s' : State K F L) (pos2 : Nat) (r : Bool)
    (htr : train c p ω x label s pos1 = .ok (s', pos2, r)) :
      (r = true ↔ junk.length ≤ s0.forest.nodes.length) ∧
      (r = true → ∃ trees : List (Tree K F L), trees.length = junk.length ∧ HoldsAll s'.forest (trees.map some) ∧
        ∀ t ∈ trees, Right (points ops ++ [(x, label)]) t ∧ Separates t) := by
  have hlim : ∀ b ∈ s0.bases, c.isCobble = true → b.limit ≤ 101 ∨ True := fun b hb hcb => .inr trivial
  by_cases hn : s0.forest.nodes.length < junk.length
  · -- too few nodes
    obtain ⟨trees, e2, e3⟩ := h.good hr
    rcases train_spec True c p h.lifetime ω h.random (fun _ _ => trivial) x label True s0.bases hlim _ s trees pos1 e2 with ⟨-, e, he⟩ | ⟨s', pos2, r, trees', f1, f2, f3, f4, f5, f6⟩
    · rw [he] at htr; cases htr
    rw [f1] at htr
    cases htr
    have hr : r ≠ true := by
      intro hr
      obtain ⟨ts, rfl⟩ := Mondrian.all_some trees' ((f5 (by rw [hc]; decide)).1 hr)
      have hle := f2.inv.mem.cover.length_eq
      simp only [List.nil_append, List.length_append, List.length_range] at hle
      have : ∀ l : List (Tree K F L), l.length ≤ (allIds (l.map some)).length := by
        intro l
        induction l with
        | nil => simp
        | cons t l ih =>
            have hp := ids_pos t
            simp only [allIds, List.map_cons, List.flatMap_cons, List.length_append, List.length_cons] at ih ⊢
            omega
      have h3 := this ts
      rw [List.length_map] at f4
      rw [f2.nodes] at hle
      omega
    exact ⟨⟨fun h => absurd h hr, fun h => by omega⟩, fun h => absurd h hr⟩
  · obtain ⟨trees, e2, e3, e4⟩ := h.reach hr False (fun hlt => hn hlt) _ (kept_right c ht hc p.lifetime junk.length)
    rcases train_spec True c p h.lifetime ω h.random (fun _ _ => trivial) x label False s0.bases hlim _ s trees pos1 e2 with ⟨-, e, he⟩ | ⟨s', pos2, r, trees', f1, f2, f3, f4, f5, f6⟩
    · rw [he] at htr; cases htr
    rw [f1] at htr
    cases htr
    -- every tree is there and right
    have key : ∀ o ∈ trees', ∃ t, o = some t ∧ Right (points ops ++ [(x, label)]) t := by
      intro o' ho'
      obtain ⟨j, hj⟩ := List.mem_iff_getElem?.1 ho'
      have hlt : j < trees.length := by rw [← f4]; exact lt_of_get hj
      have hj0 := List.getElem?_eq_getElem hlt
      obtain ⟨b, hb, -⟩ := e2.base hlt
      obtain ⟨o1, o2, q1, q2, q3⟩ := f6 j _ b hj0 hb
      rw [hj] at q1
      cases q1
      have hk := e4 j _ b hj0 hb
      rcases q2 with rfl | ⟨hx, -⟩
      · cases ho : trees[j] with
        | none =>
            rw [ho] at q3 hk
            rcases q3 with ⟨a, rfl⟩ | ⟨hf, -⟩
            · simp only at hk
              refine ⟨_, rfl, ?_⟩
              rw [hk]
              exact Mondrian.newLeaf_right p.lifetime a (x, label)
            · exact hf.elim
        | some t =>
            rw [ho] at q3 hk
            obtain ⟨t', rfl, hg⟩ := q3
            rw [if_neg (by rw [hc]; decide)] at hg
            exact ⟨t', rfl, hg.right_tree (z := (x, label)) hc hk⟩
      · exact absurd ht hx
    have hr : r = true := (f5 (by rw [hc]; decide)).2 (fun o ho => by obtain ⟨t, rfl, -⟩ := key o ho; simp)
    obtain ⟨ts, rfl⟩ := Mondrian.all_some trees' (fun o ho => by obtain ⟨t, rfl, -⟩ := key o ho; simp)
    refine ⟨⟨fun _ => by omega, fun _ => hr⟩, fun _ => ⟨ts, ?_, f2.inv.mem.all, fun t htm => ?_⟩⟩
    · rw [List.length_map] at f4; rw [f4, e3]
    · obtain ⟨t', e, hR⟩ := key (some t) (List.mem_map.2 ⟨t, htm, rfl⟩)
      cases e
      exact ⟨hR, hR.separates⟩

example : ∃ s0, Setting (cfg .phoenix 0 .original .none) exP (exω []) 85 10 5 [0] 0 s0 exOps :=
  ⟨_, exSetting _ _ _ rfl (by simp [exOps, Valid])⟩

/-! ### C74 -/

/-- the number that is lowered to the next odd one -/
theorem limitOf_robur (nodes trees : Nat) (ht : 0 < trees) (sl base : Int) (hbase : base = if 0 < sl then sl else (nodes / trees : Nat)) :
    ∃ limit : Int, limitOf .robur nodes trees sl = .ok (limit, limit) ∧ limit % 2 = 1 ∧ limit ≤ base ∧ base ≤ limit + 1 := by
  have h1 : (if 0 < sl then .ok sl else Utils.divInt nodes trees : Res Int) = .ok base := by
    rw [hbase]
    split
    · rfl
    · unfold Utils.divInt
      have e1 : ((nodes : Int) - (nodes : Int).tmod trees) = (trees : Int) * ((nodes / trees : Nat) : Int) := by
        rw [Int.tmod_eq_emod_of_nonneg (by omega), Int.natCast_ediv]
        have := Int.mul_ediv_add_emod (nodes : Int) trees
        omega
      rw [if_neg (by omega), if_neg (by omega), e1, Int.mul_tdiv_cancel_left _ (by omega)]
  have hnn : 0 ≤ base := by
    rw [hbase]
    split
    · omega
    · exact Int.natCast_nonneg _
  refine ⟨if base.tmod 2 = 0 then base - 1 else base, ?_, ?_, ?_, ?_⟩
  · simp only [limitOf, h1, bind, Except.bind, pure, Except.pure]
  all_goals
    rw [Int.tmod_eq_emod_of_nonneg hnn]
    split <;> omega

theorem initBases_robur (nodes trees : Nat) (ht : 0 < trees) : ∀ (junk : List Int) (sl base : Int) (bases : List Base),
    base = (if 0 < sl then sl else ((nodes / trees : Nat) : Int)) → initBases .robur nodes trees sl junk = .ok bases →
    ∀ b ∈ bases, b.limit % 2 = 1 ∧ b.limit ≤ base ∧ base ≤ b.limit + 1
  | [], sl, base, bases, hb, h => by
      rw [initBases] at h
      cases h
      simp
  | j :: junk, sl, base, bases, hb, h => by
      obtain ⟨limit, e1, e2, e3, e4⟩ := limitOf_robur nodes trees ht sl base hb
      rw [initBases] at h
      simp only [e1, bind, Except.bind] at h
      cases hr : initBases .robur nodes trees limit junk with
      | error e => rw [hr] at h; cases h
      | ok rest =>
          rw [hr] at h
          simp only [pure, Except.pure] at h
          have := Except.ok.inj h
          subst this
          have hrest := initBases_robur nodes trees ht junk limit _ rest rfl hr
          intro b hbm
          rcases List.mem_cons.1 hbm with rfl | hbm
          · exact ⟨e2, e3, e4⟩
          · obtain ⟨f1, f2, f3⟩ := hrest b hbm
            refine ⟨f1, ?_⟩
            split at f2
            · split at f3 <;> omega
            · split at f3
              · omega
              · split at hb <;> omega

/-- The limit of a tree: with `ROBUR_MANAGEMENT` the greatest odd number that is not above the parameter, or not above the part of the nodes of one tree if the parameter is
not positive; with `PAUSING_PHOENIX_MANAGEMENT` the number of nodes. -/
theorem C74_limits (c : Config K) (maxSize sizeNode sizeBase : Nat) (junk : List Int) (last : Nat) (s0 : State K F L)
    (h : new c maxSize sizeNode sizeBase junk last = .ok s0) : ∀ b ∈ s0.bases,
    (c.management = .robur → b.limit % 2 = 1 ∧ b.limit ≤ (if 0 < c.sizeLimit then c.sizeLimit else ((s0.forest.nodes.length / junk.length : Nat) : Int)) ∧
      (if 0 < c.sizeLimit then c.sizeLimit else ((s0.forest.nodes.length / junk.length : Nat) : Int)) ≤ b.limit + 1) ∧
    (c.management = .pausingPhoenix → b.limit = s0.forest.nodes.length) := by
  unfold new at h
  cases h1 : nodeCount maxSize sizeNode sizeBase junk.length with
  | error e => simp only [h1, bind, Except.bind] at h; cases h
  | ok n =>
      cases h2 : initBases c.management n junk.length c.sizeLimit junk with
      | error e => simp only [h1, h2, bind, Except.bind] at h; cases h
      | ok bases =>
          simp only [h1, h2, bind, Except.bind, pure, Except.pure] at h
          have := Except.ok.inj h
          subst this
          intro b hb
          have hb : b ∈ bases := hb
          simp only [List.length_replicate]
          constructor
          · intro hm
            rw [hm] at h2
            have ht : 0 < junk.length := by
              cases junk with
              | nil => rw [initBases] at h2; cases h2; cases hb
              | cons => simp
            exact initBases_robur n junk.length ht junk c.sizeLimit _ bases rfl h2 b hb
          · intro hm
            rw [hm] at h2
            generalize hk : junk.length = k at h2
            have : ∀ (junk : List Int) (sl : Int) (bases : List Base), initBases .pausingPhoenix n k sl junk = .ok bases → ∀ b ∈ bases, b.limit = n := by
              intro junk
              induction junk with
              | nil => intro sl bases h b hb; rw [initBases] at h; cases h; cases hb
              | cons j junk ih =>
                  intro sl bases h b hb
                  rw [initBases] at h
                  simp only [limitOf, bind, Except.bind] at h
                  cases hr : initBases .pausingPhoenix n k sl junk with
                  | error e => rw [hr] at h; cases h
                  | ok rest =>
                      rw [hr] at h
                      simp only [pure, Except.pure] at h
                      have := Except.ok.inj h
                      subst this
                      rcases List.mem_cons.1 hb with rfl | hb
                      · rfl
                      · exact ih sl rest hr b hb
            exact this junk c.sizeLimit bases h2 b hb

/-- the limits 4 and -1 with 8 nodes and two trees -/
example : ((new (cfg .robur 4 .original .none) 90 10 5 [0, 0] 0 : Res (State ℚ 1 2)).map (fun s => s.bases.map (·.limit))) = .ok [3, 3] ∧
    ((new (cfg .robur (-1) .original .none) 90 10 5 [0, 0] 0 : Res (State ℚ 1 2)).map (fun s => s.bases.map (·.limit))) = .ok [3, 3] := by decide +kernel

/-- The member `size` of a tree is never assigned: after every history it is still the value found in memory at construction, and so is the limit of the tree. -/
theorem C74_size_never_updated (c : Config K) (p : Params K) (ω : Nat → K) (maxSize sizeNode sizeBase : Nat) (junk : List Int) (last : Nat) (s0 : State K F L)
    (ops : List (Op K F L)) (h : Setting c p ω maxSize sizeNode sizeBase junk last s0 ops) (pos : Nat) (s : State K F L) (pos' : Nat)
    (hr : run c p ω ops s0 pos = .ok (s, pos')) : s.bases = s0.bases := by
  obtain ⟨trees, e2, e3⟩ := h.good hr
  exact e2.same

/-- **C74** (violation) `ROBUR_MANAGEMENT` with the limit of 3 nodes, in zeroed memory: the tree gets 7 nodes. -/
theorem C74_limit_exceeded : (exRun (cfg .robur 3 .original .none) [0] exOps).map (fun r => (r.1.bases.map (fun b => (b.limit, b.size)), r.1.free)) =
    .ok ([(3, 0)], 1) := by decide +kernel

/-- **C74** (violation) The same, but the memory of the object was not zero: the tree never gets more than one node. -/
theorem C74_depends_on_old_memory : (exRun (cfg .robur 3 .original .none) [3] exOps).map (fun r => (r.1.bases.map (fun b => (b.limit, b.size)), r.1.free)) =
    .ok ([(3, 3)], 7) := by decide +kernel

/-! ### C75 -/

/-- **C75** (partial) With the two cobble managements, after every history, no tree is deeper than the limit, or has more than one node if the limit is below 1.
Missing: limits above 101, see `C75_deep_tree`. -/
theorem C75_depth_limit_partial (c : Config K) (hc : c.isCobble = true) (p : Params K) (ω : Nat → K) (maxSize sizeNode sizeBase : Nat) (junk : List Int)
    (last : Nat) (s0 : State K F L) (ops : List (Op K F L)) (h : Setting c p ω maxSize sizeNode sizeBase junk last s0 ops) (pos : Nat) (s : State K F L) (pos' : Nat)
    (hr : run c p ω ops s0 pos = .ok (s, pos')) :
    ∃ trees, HoldsAll s.forest trees ∧ trees.length = junk.length ∧
      ∀ t, some t ∈ trees → (t.height : Int) ≤ max 1 c.sizeLimit := by
  obtain ⟨trees, e2, e3⟩ := h.good hr
  refine ⟨trees, e2.inv.mem.all, e3, fun t ht => ?_⟩
  obtain ⟨j, hj⟩ := List.mem_iff_getElem?.1 ht
  obtain ⟨b, hb, hbm⟩ := e2.base (lt_of_get hj)
  have hlow := (e2.tree j _ b hj hb).1 t rfl hc
  rwa [(new_spec c maxSize sizeNode sizeBase junk last s0 h.made True (fun _ => trivial)).2.2.2.1 hc b hbm] at hlow

/-- a limit of 3 is reached -/
example : see (exRun (cfg .cobble 3 .original .none) [0] exOps) = .ok (3, [some 3],
    [⟨10, some 1, none, none, [1, 0]⟩, ⟨1 / 2, some 3, some 0, some 2, [1, 0]⟩, ⟨10, some 1, none, none, [0, 2]⟩, ⟨1 / 4, none, some 1, some 4, [1, 0]⟩,
      ⟨10, some 3, none, none, [0, 1]⟩, ⟨-1, none, none, none, [0, 0]⟩, ⟨-1, none, none, none, [0, 0]⟩, ⟨-1, none, none, none, [0, 0]⟩]) := by decide +kernel

/-- **C75** (violation) With every limit above 101, and nodes enough, the 103 points 0, 1, 3, 7, 15, … let the tree grow to height 102, where `train` leaves the array
of 100 entries of `node_depth`. -/
theorem C75_deep_tree (c : Config ℚ) (hm : c.extend = .original) (ht : c.trim = .none) (hc : c.isCobble = true) (hlim : 102 ≤ c.sizeLimit)
    (maxSize sizeNode sizeBase : Nat) (junk : Int) (last : Nat) (s0 : State ℚ 1 2) (h : new c maxSize sizeNode sizeBase [junk] last = .ok s0)
    (hn : 203 ≤ s0.forest.nodes.length) (pos : Nat) :
    run c exP (exω []) ((List.range' 0 103).map (fun i => Op.train (pt (2 ^ i - 1)) 0)) s0 pos = .error .ub := by
  obtain ⟨s', e1, e2⟩ := deep_first c ht hc _ (by omega) s0 sizeNode sizeBase maxSize junk last h rfl pos
  have := deep_run c hm ht hc _ c.sizeLimit hlim hn 101 0 s' pos rfl e2
  rw [List.range'_succ, List.map_cons, run]
  change (do
    let (s, pos) ← (do
      let (s, pos, _) ← train c exP (exω []) (far 0) 0 s0 pos
      return (s, pos) : Res (State ℚ 1 2 × Nat))
    run c exP (exω []) ((List.range' 1 102).map (fun i => Op.train (far i) 0)) s pos) = _
  simp only [e1, bind, Except.bind, pure, Except.pure]
  exact this

/-- there is such an object -/
example : ((new (cfg .cobble 102 .original .none) 2035 10 5 [0] 0 : Res (State ℚ 1 2)).map (fun s => s.forest.nodes.length)) = .ok 203 := by decide +kernel

/-! ### C76 -/

/-- **C76** The constructor ends without undefined behaviour only if the trees fit into the memory; the nodes and the trees then lie in it without overlapping, no
further node would fit, and all the nodes are available. -/
theorem C76_memory (c : Config K) (maxSize sizeNode sizeBase : Nat) (hn : 0 < sizeNode) (junk : List Int) (last : Nat) (s0 : State K F L)
    (h : new c maxSize sizeNode sizeBase junk last = .ok s0) :
    s0.forest.nodes.length * sizeNode + junk.length * sizeBase ≤ maxSize ∧ maxSize < (s0.forest.nodes.length + 1) * sizeNode + junk.length * sizeBase ∧
      s0.forest.roots.length = junk.length ∧ s0.bases.length = junk.length ∧ s0.free = s0.forest.nodes.length ∧ (∀ nd ∈ s0.forest.nodes, nd.available = true) ∧
      ∀ r ∈ s0.forest.roots, r = none := by
  obtain ⟨g, -, g2, -, g4⟩ := new_spec c maxSize sizeNode sizeBase junk last s0 h True (fun _ => trivial)
  have hroots := g.inv.mem.all.roots
  have hav : ∀ nd ∈ s0.forest.nodes, nd.available = true := by
    unfold new at h
    cases h1 : nodeCount maxSize sizeNode sizeBase junk.length with
    | error e => simp only [h1, bind, Except.bind] at h; cases h
    | ok n =>
        cases h2 : initBases c.management n junk.length c.sizeLimit junk with
        | error e => simp only [h1, h2, bind, Except.bind] at h; cases h
        | ok bases =>
            simp only [h1, h2, bind, Except.bind, pure, Except.pure] at h
            have := Except.ok.inj h
            subst this
            intro nd hnd
            rw [List.eq_of_mem_replicate hnd]
            simp [Node.available, resetNode]
  have hfree : s0.free = s0.forest.nodes.length := by
    rw [g.inv.free]
    have : avail s0.forest.nodes = List.range s0.forest.nodes.length := by
      unfold avail
      rw [List.filter_eq_self]
      intro i hi
      have hi := List.mem_range.1 hi
      rw [List.getElem?_eq_getElem hi]
      simpa [Node.available] using hav _ (List.getElem_mem hi)
    rw [this, List.length_range]
  unfold nodeCount at g4
  split at g4
  · cases g4
  · rename_i hfit
    have e := Except.ok.inj g4
    have hdm : sizeNode * ((maxSize - junk.length * sizeBase) / sizeNode) + (maxSize - junk.length * sizeBase) % sizeNode = maxSize - junk.length * sizeBase :=
      Nat.div_add_mod _ _
    have hmod : (maxSize - junk.length * sizeBase) % sizeNode < sizeNode := Nat.mod_lt _ hn
    have e' : (maxSize - junk.length * sizeBase) / sizeNode = s0.forest.nodes.length := by
      rw [← e]
      have : maxSize - junk.length * sizeBase - (maxSize - junk.length * sizeBase) % sizeNode = sizeNode * ((maxSize - junk.length * sizeBase) / sizeNode) := by omega
      rw [this, Nat.mul_div_cancel_left _ hn]
    rw [e', Nat.mul_comm] at hdm
    refine ⟨by omega, ?_, ?_, g2, hfree, hav, ?_⟩
    · rw [Nat.add_mul, Nat.one_mul]; omega
    · rw [hroots]; simp
    · intro r hr
      rw [hroots] at hr
      obtain ⟨o, ho, rfl⟩ := List.mem_map.1 hr
      rw [List.eq_of_mem_replicate ho]
      rfl

/-- **C76** (violation) If the trees do not fit into the memory the constructor writes outside of it. -/
theorem C76_no_check (c : Config K) (maxSize sizeNode sizeBase : Nat) (junk : List Int) (last : Nat) (h : maxSize < junk.length * sizeBase) :
    (new c maxSize sizeNode sizeBase junk last : Res (State K F L)) = .error .ub := by
  unfold new nodeCount
  rw [if_pos h]
  rfl

example : (new (cfg .phoenix 0 .original .none) 85 10 5 [0] 0 : Res (State ℚ 1 2)).map (fun s => (s.forest.nodes.length, s.bases.length)) = .ok (8, 1) := by decide +kernel

/-! ### C77 -/

/-- **C77** With `EXTEND_ORIGINAL` and `EXTEND_BARYCENTER`, without trimming and with a node for each tree: after every history the leaves of each tree have counted
each training point exactly once. -/
theorem C77_counted_once_partial (c : Config K) (hc : c.extend = .original ∨ c.extend = .barycenter) (ht : c.trim = .none) (p : Params K) (ω : Nat → K)
    (maxSize sizeNode sizeBase : Nat) (junk : List Int) (last : Nat) (s0 : State K F L) (ops : List (Op K F L))
    (h : Setting c p ω maxSize sizeNode sizeBase junk last s0 ops) (hn : junk.length ≤ s0.forest.nodes.length) (pos : Nat) (s : State K F L) (pos' : Nat)
    (hr : run c p ω ops s0 pos = .ok (s, pos')) :
    ∃ trees, HoldsAll s.forest trees ∧ trees.length = junk.length ∧
      (points ops ≠ [] → none ∉ trees) ∧ ∀ t, some t ∈ trees → ∀ label, ((leaves t).map (fun z => z.2.counts label)).sum = (points ops).countP (fun z => z.2 = label) := by
  obtain ⟨trees, e2, e3, e4⟩ := h.reach hr False (fun hlt => absurd hlt (by omega)) _ (kept_held c ht hc p.lifetime junk.length)
  have hleaves : ∀ (t : Tree K F L) (label : Fin L), ((leaves t).map (fun z => z.2.counts label)).sum = held t label := by
    intro t label
    induction t with
    | leaf id d => simp [leaves, held]
    | node id d dim sp l r hl hr => simp only [leaves, held, List.map_append, List.sum_append, hl, hr]; omega
  refine ⟨trees, e2.inv.mem.all, e3, fun hne hno => ?_, fun t ht label => ?_⟩
  · obtain ⟨j, hj⟩ := List.mem_iff_getElem?.1 hno
    obtain ⟨b, hb, -⟩ := e2.base (lt_of_get hj)
    exact hne (e4 j _ b hj hb)
  · obtain ⟨j, hj⟩ := List.mem_iff_getElem?.1 ht
    obtain ⟨b, hb, -⟩ := e2.base (lt_of_get hj)
    have := e4 j _ b hj hb
    simp only at this
    rw [hleaves, this]
    rfl

/-- **C77** With `EXTEND_GHOST`, under the same conditions, the root of each tree has counted each training point exactly once, and each split node has counted at
least the points counted by its children. -/
theorem C77_ghost_partial (c : Config K) (hc : c.extend = .ghost) (ht : c.trim = .none) (p : Params K) (ω : Nat → K)
    (maxSize sizeNode sizeBase : Nat) (junk : List Int) (last : Nat) (s0 : State K F L) (ops : List (Op K F L))
    (h : Setting c p ω maxSize sizeNode sizeBase junk last s0 ops) (hn : junk.length ≤ s0.forest.nodes.length) (pos : Nat) (s : State K F L) (pos' : Nat)
    (hr : run c p ω ops s0 pos = .ok (s, pos')) :
    ∃ trees, HoldsAll s.forest trees ∧ trees.length = junk.length ∧
      (points ops ≠ [] → none ∉ trees) ∧ ∀ t, some t ∈ trees → (∀ label, t.data.counts label = (points ops).countP (fun z => z.2 = label)) ∧ Covers t := by
  obtain ⟨trees, e2, e3, e4⟩ := h.reach hr False (fun hlt => absurd hlt (by omega)) _ (kept_ghost c ht hc p.lifetime junk.length)
  refine ⟨trees, e2.inv.mem.all, e3, fun hne hno => ?_, fun t ht => ?_⟩
  · obtain ⟨j, hj⟩ := List.mem_iff_getElem?.1 hno
    obtain ⟨b, hb, -⟩ := e2.base (lt_of_get hj)
    exact hne (e4 j _ b hj hb)
  · obtain ⟨j, hj⟩ := List.mem_iff_getElem?.1 ht
    obtain ⟨b, hb, -⟩ := e2.base (lt_of_get hj)
    have := e4 j _ b hj hb
    simp only at this
    exact ⟨fun label => by rw [this.1]; rfl, this.2⟩

/-- **C77** (violation) `EXTEND_COUNTER_NO_UPDATE`: four training points, of which three have label 1, are counted as six points of label 1 and one of label 0 in the
leaves (nodes 0, 2, 4 and 6) of the tree. -/
theorem C77_counted_twice : see (exRun (cfg .phoenix 0 .counterNoUpdate .none) [0] exOps) = .ok (1, [some 3],
    [⟨10, some 1, none, none, [1, 1]⟩, ⟨1 / 2, some 3, some 0, some 5, [0, 0]⟩, ⟨10, some 5, none, none, [0, 3]⟩, ⟨1 / 4, none, some 1, some 4, [0, 0]⟩,
      ⟨10, some 3, none, none, [0, 1]⟩, ⟨3 / 4, some 1, some 2, some 6, [0, 0]⟩, ⟨10, some 5, none, none, [0, 1]⟩, ⟨-1, none, none, none, [0, 0]⟩]) := by decide +kernel

/-- **C77** (violation) `EXTEND_PARTIAL_UPDATE` with a pool of two nodes: the second point is not counted, and `train` returns true. -/
theorem C77_dropped : (do let c := cfg .phoenix 0 .partialUpdate .none
                          let s ← new c 25 10 5 [0] 0
                          let (s, pos, r1) ← train c exP (exω []) (pt 0) (0 : Fin 2) s 0
                          let (s, _, r2) ← train c exP (exω []) (pt 1) 1 s pos
                          return ([r1, r2], s.forest.nodes.map (fun n => List.ofFn n.counts)) : Res (List Bool × List (List Nat))) =
    .ok ([true, true], [[1, 0], [0, 0]]) := by decide +kernel

/-! ### C78 -/

theorem Removes.leaves_eq {id : Nat} {t t' : Tree K F L} (h : Removes id t t') : ∃ a d b, leaves t = a ++ (id, d) :: b ∧ leaves t' = a ++ b := by
  induction h with
  | atLeft => rename_i q d dim sp dl r; exact ⟨leaves r, dl, [], by simp [leaves], by simp⟩
  | atRight => rename_i q d dim sp l dr; exact ⟨[], dr, leaves l, by simp [leaves], by simp⟩
  | left h ih =>
      rename_i q d dim sp l l' r
      obtain ⟨a, d', b, e1, e2⟩ := ih
      exact ⟨leaves r ++ a, d', b, by simp [leaves, e1], by simp [leaves, e2]⟩
  | right h ih =>
      rename_i q d dim sp l r r'
      obtain ⟨a, d', b, e1, e2⟩ := ih
      exact ⟨a, d', b ++ leaves l, by simp [leaves, e1], by simp [leaves, e2]⟩

theorem Removes.length {id : Nat} {t t' : Tree K F L} (h : Removes id t t') : t'.ids.length + 2 = t.ids.length := by
  induction h with
  | atLeft => simp [Mondrian.Tree.ids]
  | atRight => simp [Mondrian.Tree.ids]
  | left h ih => simp [Mondrian.Tree.ids]; omega
  | right h ih => simp [Mondrian.Tree.ids]; omega

/-- **C78** After every history, trimming treats each tree as follows (`Trimmed`): a tree without root stays as it is; in the others one leaf that may be chosen is
removed together with the split node above it, whose place is taken by the sibling of the leaf; all the other leaves keep their data and their order, and two nodes of
the pool become available. A tree is left unchanged if it is a single leaf, if it is higher than 100 or if the smallest leaf is too large to be trimmed. -/
theorem C78_trim (c : Config K) (hc : c.trim ≠ .none) (p : Params K) (ω : Nat → K) (maxSize sizeNode sizeBase : Nat) (junk : List Int) (last : Nat) (s0 : State K F L)
    (ops : List (Op K F L)) (h : Setting c p ω maxSize sizeNode sizeBase junk last s0 ops) (pos : Nat) (s : State K F L) (pos1 : Nat)
    (hr : run c p ω ops s0 pos = .ok (s, pos1)) :
    ∃ s' pos2 trees trees', treeTrim c ω s pos1 = .ok (s', pos2) ∧ HoldsAll s.forest trees ∧
      HoldsAll s'.forest trees' ∧ trees'.length = trees.length ∧ s'.free + (allIds trees').length = s.free + (allIds trees).length ∧
      ∀ (j : Nat) (o : Option (Tree K F L)), trees[j]? = some o → ∃ o', trees'[j]? = some o' ∧ Trimmed c s.fading o o' := by
  obtain ⟨trees, e2, e3⟩ := h.good hr
  obtain ⟨s', pos2, trees', f1, f2, f3, f4, f5, f6, f7⟩ := treeTrim_spec c ω (fun i => h.random i) s trees pos1 e2.inv
  refine ⟨s', pos2, trees, trees', f1, e2.inv.mem.all, f2.mem.all, f6, ?_, fun j o hj => ?_⟩
  · have h1 := e2.inv.mem.cover.length_eq
    have h2 := f2.mem.cover.length_eq
    simp only [List.nil_append, List.length_append, List.length_range] at h1 h2
    rw [f2.free, e2.inv.free]
    omega
  · obtain ⟨o', q1, q2⟩ := f7 j o hj
    rw [if_neg hc] at q2
    exact ⟨o', q1, q2⟩

/-- what the removal of a leaf means for the leaves and the nodes -/
theorem C78_one_leaf {id : Nat} {t t' : Tree K F L} (h : Removes id t t') :
    (∃ a d b, leaves t = a ++ (id, d) :: b ∧ leaves t' = a ++ b) ∧ t'.ids.length + 2 = t.ids.length := ⟨h.leaves_eq, h.length⟩

example : ∃ s0, Setting (cfg .phoenix 0 .original .count) exP (exω []) 85 10 5 [0] 0 s0 exOps :=
  ⟨_, exSetting _ _ _ rfl (by simp [exOps, Valid])⟩

/-- The reset of a removed leaf returns false, the value for an error, although it succeeds. -/
theorem C78_reset_returns_false : (do let (s, _) ← exRun (cfg .phoenix 0 .original .count) [0] [.train (pt 0) 0]
                                      let (s, r) ← resetLoop 0 25 0 (some 0) 0 (List.replicate 100 (-1)) s
                                      return (s.free, r) : Res (Int × Bool)) = .ok (8, false) := by decide +kernel

/-! ### C79 -/

theorem counted_counted (c : Config K) (o : Option (Tree K F L)) : counted c (counted c o) = counted c o := by
  unfold counted
  split
  · rfl
  · cases o with
    | none => rfl
    | some t => simp [Mondrian.recount_recount]

theorem counted_ids (c : Config K) : ∀ trees : List (Option (Tree K F L)), allIds (trees.map (counted c)) = allIds trees
  | [] => rfl
  | o :: trees => by
      rw [List.map_cons, Mondrian.allIds_cons, Mondrian.allIds_cons, counted_ids c trees]
      unfold counted
      split
      · rfl
      · cases o with
        | none => rfl
        | some t => simp only [Option.map_some, Mondrian.oids, Mondrian.recount_ids]

/-- **C79** (partial) After every history `predict` with a number of trees between 1 and the number there are ends without undefined behaviour and returns a label in
range. It changes nothing but the counters of split nodes, and with `EXTEND_GHOST` nothing at all; a second call, with any point and number of trees, returns what it
would have returned in the first state and changes nothing. Missing: the other numbers of trees, see `C79_too_many_trees`. -/
theorem C79_predict_partial (c : Config K) (p : Params K) (ω : Nat → K) (maxSize sizeNode sizeBase : Nat) (junk : List Int) (last : Nat) (s0 : State K F L)
    (ops : List (Op K F L)) (h : Setting c p ω maxSize sizeNode sizeBase junk last s0 ops) (hL : 0 < L) (pos : Nat) (s : State K F L) (pos' : Nat)
    (hr : run c p ω ops s0 pos = .ok (s, pos')) (hj : 0 < junk.length) : ∃ nodes' : List (Node K F L), nodes'.length = s.forest.nodes.length ∧
      (∀ (i : Nat) (nd : Node K F L), s.forest.nodes[i]? = some nd → ∃ cnt, nodes'[i]? = some { nd with counts := cnt } ∧ (nd.dim = none → cnt = nd.counts)) ∧
      (c.extend = .ghost → nodes' = s.forest.nodes) ∧
      ∀ x use, 1 ≤ usedTrees junk.length use → usedTrees junk.length use ≤ junk.length →
        ∃ l < L, predict c p s x use = .ok ({ s with forest := { s.forest with nodes := nodes' } }, l) ∧
          predict c p { s with forest := { s.forest with nodes := nodes' } } x use = .ok ({ s with forest := { s.forest with nodes := nodes' } }, l) := by
  obtain ⟨trees, e2, e3⟩ := h.good hr
  have hpos : ∀ t, some t ∈ trees → Pos c t := by
    intro t ht
    obtain ⟨j, hj⟩ := List.mem_iff_getElem?.1 ht
    obtain ⟨b, hb, -⟩ := e2.base (lt_of_get hj)
    exact (e2.tree j _ b hj hb).2 t rfl
  have hposc : ∀ t, some t ∈ trees.map (counted c) → Pos c t := by
    intro t ht
    obtain ⟨o, ho, e⟩ := List.mem_map.1 ht
    obtain ⟨j, hj⟩ := List.mem_iff_getElem?.1 ho
    obtain ⟨b, hb, -⟩ := e2.base (lt_of_get hj)
    exact (e2.tree j _ b hj hb).counted.2 t e
  -- the nodes after a prediction are the same for all points
  have hsame : ∀ (nodes1 nodes2 : List (Node K F L)), Mondrian.OnlyCounts s.forest.nodes nodes1 → Mondrian.OnlyCounts s.forest.nodes nodes2 →
      (∀ i, i ∉ allIds trees → nodes1[i]? = s.forest.nodes[i]?) → (∀ i, i ∉ allIds trees → nodes2[i]? = s.forest.nodes[i]?) →
      HoldsAll { s.forest with nodes := nodes1 } (trees.map (counted c)) → HoldsAll { s.forest with nodes := nodes2 } (trees.map (counted c)) → nodes1 = nodes2 := by
    intro nodes1 nodes2 o1 o2 n1 n2 h1 h2
    refine List.ext_getElem? fun i => ?_
    by_cases hi : i ∈ allIds trees
    · have hi' : i ∈ allIds (trees.map (counted c)) := by rw [counted_ids]; exact hi
      obtain ⟨o, ho1, ho2⟩ := List.mem_flatMap.1 hi'
      cases o with
      | none => simp at ho2
      | some t =>
          have hc := Mondrian.holds_counts (h1.holds t ho1) (h2.holds t ho1) i ho2
          have hlt := e2.inv.mem.ids_lt hi
          obtain ⟨c1, hc1, -⟩ := o1.2 i _ (List.getElem?_eq_getElem hlt)
          obtain ⟨c2, hc2, -⟩ := o2.2 i _ (List.getElem?_eq_getElem hlt)
          simp only [hc1, hc2, Option.map_some, Option.some.injEq] at hc ⊢
          rw [hc]
    · rw [n1 i hi, n2 i hi]
  obtain ⟨nodes', l0, a1, a2, a3, a4, a5, a6⟩ := predict_spec c p h.exp0 h.discount s trees e2.inv hpos (fun _ => 0) none (by rw [e3]; exact hj) le_rfl
  refine ⟨nodes', a3.1, a3.2, a4, fun x use h1 h2 => ?_⟩
  obtain ⟨nodes1, l, b1, b2, b3, b4, b5, b6⟩ := predict_spec c p h.exp0 h.discount s trees e2.inv hpos x use (by rw [e3]; exact h1) (by rw [e3]; exact h2)
  have e := hsame nodes1 nodes' b3 a3 b5 a5 b2.mem.all a2.mem.all
  subst e
  have hlen : (trees.map (counted c)).length = junk.length := by rw [List.length_map, e3]
  obtain ⟨nodes2, l', c1, c2, c3, c4, c5, c6⟩ := predict_spec c p h.exp0 h.discount _ _ b2 hposc x use (by rw [hlen]; exact h1) (by rw [hlen]; exact h2)
  have hcc : (trees.map (counted c)).map (counted c) = trees.map (counted c) := by
    rw [List.map_map]
    exact List.map_congr_left fun o _ => counted_counted c o
  rw [hcc] at c2 c6
  have e2' : nodes2 = nodes1 := by
    refine hsame nodes2 nodes1 (b3.trans c3) b3 (fun i hi => ?_) b5 c2.mem.all b2.mem.all
    rw [c5 i (by rw [counted_ids]; exact hi), b5 i hi]
  have el : l' = l := by
    rw [hlen] at c6
    rw [e3] at b6
    rw [b6] at c6
    exact (Except.ok.inj c6).symm
  refine ⟨l, Mondrian.label_lt hL b6, b1, ?_⟩
  rw [e2', el] at c1
  exact c1

/-- **C79** (violation) `predict` with more trees than there are reads outside the trees, and with no tree it divides by zero. -/
theorem C79_too_many_trees (c : Config K) (p : Params K) (s : State K F L) (x : Fin F → K) (k : Nat) (hk : s.forest.roots.length < k ∨ k = 0) :
    ∀ r, predict c p s x (some k) ≠ .ok r := by
  intro r
  unfold predict
  cases (if c.extend = .ghost then .ok s.forest.nodes else Mondrian.updateCounts s.forest.nodes.length s.forest.roots s.forest.nodes : Res (List (Node K F L))) with
  | error e => simp [bind, Except.bind]
  | ok nodes => simp only [bind, Except.bind, if_pos hk]; simp

example : (exRun (cfg .phoenix 0 .ghost .none) [0] exOps).bind (fun r => (predict (cfg .phoenix 0 .ghost .none) exP r.1 (pt 2) none).map (fun q => q.2)) = .ok 1 := by
  decide +kernel

/-! ### C80 -/

/-- **C80** After every history, with every way to extend and trim, each tree is a binary tree over distinct nodes of the pool with right links to children and
parents, nodes of different trees are different, and the split times are between 0 and `lifetime` and do not decrease on the way down; leaves have the time
`lifetime`. -/
theorem C80_structure (c : Config K) (p : Params K) (ω : Nat → K) (maxSize sizeNode sizeBase : Nat) (junk : List Int) (last : Nat) (s0 : State K F L)
    (ops : List (Op K F L)) (h : Setting c p ω maxSize sizeNode sizeBase junk last s0 ops) (pos : Nat) (s : State K F L) (pos' : Nat)
    (hr : run c p ω ops s0 pos = .ok (s, pos')) :
    ∃ trees, HoldsAll s.forest trees ∧ trees.length = junk.length ∧
      (∀ i ∈ allIds trees, i < s0.forest.nodes.length) ∧ ∀ t, some t ∈ trees → Times (· ≤ ·) p.lifetime 0 t := by
  obtain ⟨trees, e2, e3, e4⟩ := h.reach hr True (fun _ => trivial) _ (kept_times c p.lifetime True junk.length)
  refine ⟨trees, e2.inv.mem.all, e3, fun i hi => by rw [← e2.nodes]; exact e2.inv.mem.ids_lt hi, fun t ht => ?_⟩
  obtain ⟨j, hj⟩ := List.mem_iff_getElem?.1 ht
  obtain ⟨b, hb, -⟩ := e2.base (lt_of_get hj)
  exact e4 j _ b hj hb t rfl

end Orp.Coarse
