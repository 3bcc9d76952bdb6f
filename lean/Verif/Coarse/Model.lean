import Verif.Mondrian.Model

/-!
Model of `CoarseMondrianForest` (`/repo/src/mondrian_coarse.hpp`): the constructor, `train`, `predict`, `tree_trim` and `tree_fade_counts` with everything
they call, for every kind of tree management, of extension and of trimming, with the default values of `split_trigger` (`SPLIT_TRIGGER_NONE`), `split_helper`
(`SPLIT_HELPER_NONE`) and `print_nodes` (false). The functions `split_node`, `split_barycenter` and what only they call are not reached then; they are modelled
in `Verif/Coarse/Split.lean`. The private
functions `tree_reset`, `tree_add`, `tree_delete`, `tree_chop`, `tree_reshape`, `split_leaf`, `relocate_node` are only called in branches under `if(false && …)`
or not at all. `otter` and the code under `DEBUG` are left out; for `UNBOUND_OPTIMIZE` see `Optimize.lean`, for `print_nodes` see `Print.lean`.

* The nodes and the roots are a `Mondrian.Forest`; the types, the links and `sample_block` are the same as in `mondrian.hpp` and so is `predict_tree`. The
  members `fading_score` and `forced_extend` of the nodes are kept in lists of their own, indexed by the place of the node.
* Numbers, random numbers, labels and features are as in `Verif/Mondrian/Model.lean`; `tree_count`, `total_count` and the counters do not overflow.
* The members `statistics`, `sum_contribution`, `count_contribution` are not used by the functions modelled, and left out; `sum_features`, `count_points` and
  `has_been_full` are used by the split helpers only, and part of `Verif/Coarse/Split.lean`.
* The member `size` of the trees is never initialised and never assigned (mondrian_coarse.hpp:202, 209-215); it is an arbitrary number here, given to the
  constructor.
* `last_returned_node` (mondrian_coarse.hpp:283) is a static variable, shared by all objects of the type; `Op.other` says that another object changed it.
* Loops and recursions get a bound; the theorems show that it is never reached.
-/

namespace Orp.Coarse

open Finset
open Mondrian (Node Box Forest Params Cut upd init extent cutAt bump sampleBlock)

variable {K : Type} [Field K] [LinearOrder K] [FloorRing K] {F L : Nat}

/-- `tree_management` (mondrian_coarse.hpp:127-131) -/
inductive Management where
  | cobble | optimisticCobble | robur | phoenix | pausingPhoenix
deriving DecidableEq

/-- `extend_type` (mondrian_coarse.hpp:147-152) -/
inductive Extend where
  | none | original | ghost | partialUpdate | counterNoUpdate | barycenter
deriving DecidableEq

/-- `trim_type` (mondrian_coarse.hpp:154-157) -/
inductive Trim where
  | none | random | fading | count
deriving DecidableEq

/-- The parameters of the constructor (mondrian_coarse.hpp:2836-2852) that are used -/
structure Config (K : Type) where
  management : Management
  sizeLimit : Int
  extend : Extend
  trim : Trim
  feParameter : K
  maximumTrimSize : K

/-- The default parameters (mondrian_coarse.hpp:2837-2852) -/
def Config.default : Config K :=
  { management := .cobble, sizeLimit := -1, extend := .none, trim := .none, feParameter := 1, maximumTrimSize := 1 }

/-- `tree_management == COBBLE_MANAGEMENT || tree_management == OPTIMISTIC_COBBLE_MANAGEMENT` -/
def Config.isCobble (c : Config K) : Bool := c.management = .cobble ∨ c.management = .optimisticCobble

/-- `TreeBase` (mondrian_coarse.hpp:200-231) without the root -/
structure Base where
  limit : Int
  size : Int

/-- Object state (mondrian_coarse.hpp:235-262) -/
structure State (K : Type) (F L : Nat) where
  forest : Forest K F L
  fading : List K
  forced : List Int
  bases : List Base
  /-- `node_available` -/
  free : Int
  /-- `last_returned_node` -/
  last : Nat
  /-- `total_count` -/
  total : Nat

/-- `MondrianNode::reset` (mondrian_coarse.hpp:43-55) -/
def resetNode : Node K F L :=
  { dim := none, split := some 0, box := some { lower := fun _ => 0, upper := fun _ => 0 }, left := none, right := none, parent := none, tau := -1, counts := fun _ => 0 }

/-- `node_count` (mondrian_coarse.hpp:2861-2863). If the trees alone do not fit into the buffer, their address is before the buffer and writing to them is
undefined behaviour. -/
def nodeCount (maxSize sizeNode sizeBase trees : Nat) : Res Nat :=
  if maxSize < trees * sizeBase then .error .ub
  else
    let remaining := maxSize - trees * sizeBase
    .ok ((remaining - remaining % sizeNode) / sizeNode)

/-- The limit of a tree and the new value of `size_limit` (mondrian_coarse.hpp:2869-2887) -/
def limitOf (m : Management) (nodes trees : Nat) (sizeLimit : Int) : Res (Int × Int) :=
  match m with
  | .robur => do
      let limit ← (if 0 < sizeLimit then .ok sizeLimit else Utils.divInt nodes trees : Res Int)
      let limit := if limit.tmod 2 = 0 then limit - 1 else limit
      return (limit, limit)
  | .cobble => .ok (sizeLimit, sizeLimit)
  | .optimisticCobble => .ok (sizeLimit, sizeLimit)
  | _ => .ok (nodes, sizeLimit)

/-- The loop over the trees in the constructor (mondrian_coarse.hpp:2868-2887); `junk` are the values found in the members `size` of the remaining trees. -/
def initBases (m : Management) (nodes trees : Nat) : (sizeLimit : Int) → (junk : List Int) → Res (List Base)
  | _, [] => .ok []
  | sizeLimit, j :: junk => do
      let (limit, sizeLimit) ← limitOf m nodes trees sizeLimit
      let bases ← initBases m nodes trees sizeLimit junk
      return { limit := limit, size := j } :: bases

/-- Constructor (mondrian_coarse.hpp:2836-2901), with `junk.length` trees; `last` is the value of the static variable. -/
def new (c : Config K) (maxSize sizeNode sizeBase : Nat) (junk : List Int) (last : Nat) : Res (State K F L) := do
  let n ← nodeCount maxSize sizeNode sizeBase junk.length
  let bases ← initBases c.management n junk.length c.sizeLimit junk
  return {
    forest := { nodes := List.replicate n resetNode, roots := List.replicate junk.length none }
    fading := List.replicate n 0
    forced := List.replicate n 0
    bases := bases
    free := n
    last := last
    total := 0 }

/-- The loop of `available_node` (mondrian_coarse.hpp:284-290) from `i`, `k` iterations left -/
def scan (nodes : List (Node K F L)) (last : Nat) : (i k : Nat) → Res (Option Nat)
  | _, 0 => .ok none
  | i, k + 1 => do
      let id := (i + last) % nodes.length
      let n ← rd nodes id
      if n.available then return some id
      else scan nodes last (i + 1) k

/-- `available_node` (mondrian_coarse.hpp:280-292), without the assignment to the static variable -/
def availableNode (s : State K F L) : Res (Option Nat) :=
  if s.free = 0 then .ok none else scan s.forest.nodes s.last 0 s.forest.nodes.length

/-- `available_node` (mondrian_coarse.hpp:280-292) -/
def takeNode (s : State K F L) : Res (Option Nat × State K F L) := do
  match ← availableNode s with
  | none => return (none, s)
  | some id => return (some id, { s with last := id })

/-- `stack[depth]` as an index -/
def level (depth : Int) : Res Nat := if depth < 0 then .error .ub else .ok depth.toNat

/-- The loop of `node_depth` (mondrian_coarse.hpp:2285-2325); the number of nodes it counts is not used by the callers modelled. -/
def depthLoop (nodes : List (Node K F L)) : (fuel i : Nat) → Option Nat → (depth maxDepth : Int) → (stack : List Int) → Res Int
  | 0, _, _, _, _, _ => .error .ub
  | fuel + 1, i, id, depth, maxDepth, stack =>
      if i < nodes.length ∧ 0 ≤ depth then do
        let node ← rd nodes (← init id)
        match node.dim with
        | none => depthLoop nodes fuel (i + 1) node.parent (depth - 1) (if maxDepth < depth then depth else maxDepth) stack
        | some _ => do
            let d ← level depth
            let st ← rd stack d
            if st = -1 then do
              let stack ← wr stack d 0
              depthLoop nodes fuel i node.right (depth + 1) maxDepth stack
            else if st = 0 then do
              let stack ← wr stack d 1
              depthLoop nodes fuel i node.left (depth + 1) maxDepth stack
            else do
              let stack ← wr stack d (-1)
              depthLoop nodes fuel (i + 1) node.parent (depth - 1) maxDepth stack
      else return maxDepth + 1

/-- `node_depth` (mondrian_coarse.hpp:2270-2325) with the stack of 100 entries -/
def nodeDepth (nodes : List (Node K F L)) (id : Nat) : Res Int :=
  depthLoop nodes (3 * nodes.length + 1) 0 (some id) 0 0 (List.replicate 100 (-1))

/-- `unravel` (mondrian_coarse.hpp:2640-2672); the check of the index is done by the reads. -/
def unravel (nodes : List (Node K F L)) : (fuel : Nat) → Nat → Res Nat
  | 0, _ => .error .ub
  | fuel + 1, id => do
      let node ← rd nodes id
      match node.parent with
      | none => return 0
      | some q => do
          let n ← unravel nodes fuel q
          return n + 1

/-- `pause_expension` (mondrian_coarse.hpp:323-333) with `is_paused` (mondrian_coarse.hpp:216-224) -/
def paused (c : Config K) (s : State K F L) (tree id : Nat) : Res Bool := do
  let base ← rd s.bases tree
  if c.isCobble then do
    let remaining ← nodeDepth s.forest.nodes id
    let distance ← unravel s.forest.nodes s.forest.nodes.length id
    return decide (base.limit < remaining + (distance : Int) + 1)
  else if c.management = .robur ∨ c.management = .pausingPhoenix then return decide (base.limit ≤ base.size)
  else return false

/-- `sum` (mondrian_coarse.hpp:312-317) -/
def extentSum (b : Box K F) (x : Fin F → K) : K := ∑ i, extent b x i

/-- The number `E` (mondrian_coarse.hpp:320) and the new position in the random sequence -/
def expo (p : Params K) (ω : Nat → K) (pos : Nat) (b : Box K F) (x : Fin F → K) : K × Nat :=
  if extentSum b x = 0 then (-1, pos) else (p.log (1 - ω pos) / (-extentSum b x), pos + 1)

/-- The choice of the dimension (mondrian_coarse.hpp:338-340). The index that `pick_from_distribution` returns is used without a check. -/
def pickDim (ω : Nat → K) (pos : Nat) (e : Fin F → K) (sum : K) : Res (Fin F × Nat) := do
  let probs ← Utils.turnIntoProbability (List.ofFn e) sum
  let d := Utils.pick probs (ω pos)
  if h : d < F then return (⟨d, h⟩, pos + 1) else .error .ub

/-- The choice of the dimension and of the split (mondrian_coarse.hpp:338-354, 390) -/
def drawCut (ω : Nat → K) (pos : Nat) (b : Box K F) (x : Fin F → K) (tau : K) : Res (Cut K F × Nat) := do
  let (dim, pos) ← pickDim ω pos (extent b x) (extentSum b x)
  cutAt ω pos b x dim tau

/-- The counters of the new parent (mondrian_coarse.hpp:371-372; 623-625; not assigned at 492-495, 746-749, 933-936) -/
def parentCounts (e : Extend) (own node : Fin L → Nat) (label : Fin L) : Fin L → Nat :=
  match e with
  | .original => fun i => Utils.min 1 (node i)
  | .ghost => bump node label
  | _ => own

/-- Introducing a parent and a sibling of node `id` (mondrian_coarse.hpp:355-402; 481-522; 608-654; 735-776; 923-976). The counters of the new parent are assigned
before its box and not after; the rest is the code of `mondrian.hpp`, lines 177-216. -/
def insert (c : Config K) (p : Params K) (s : State K F L) (id tree : Nat) (cut : Cut K F) (x : Fin F → K) (label : Fin L) : Res (State K F L) := do
  let (np, s) ← takeNode s
  let np ← init np
  let nodes ← upd s.forest.nodes np (fun n => { n with
    dim := some cut.dim
    split := some cut.split
    tau := cut.tau })
  let s := { s with forest := { s.forest with nodes := nodes } }
  let (ns, s) ← takeNode s
  let ns ← init ns
  let node ← rd s.forest.nodes id
  let nodes ← upd s.forest.nodes np (fun n => { n with counts := parentCounts c.extend n.counts node.counts label })
  let forest ← Mondrian.insertNodes p { s.forest with nodes := nodes } id tree np ns cut x label
  return { s with
    forest := forest
    free := s.free - 2 }

/-- `counters[label] += 1; fading_score += 1` for node `id` (mondrian_coarse.hpp:421-423) -/
def countAt (s : State K F L) (id : Nat) (label : Fin L) : Res (State K F L) := do
  let nodes ← upd s.forest.nodes id (fun n => { n with counts := bump n.counts label })
  let f ← rd s.fading id
  let fading ← wr s.fading id (f + 1)
  return { s with
    forest := { s.forest with nodes := nodes }
    fading := fading }

/-- The new box of a node that keeps the point (mondrian_coarse.hpp:405-411; 860-870 for `EXTEND_BARYCENTER`) -/
def newBox (c : Config K) (b : Box K F) (x : Fin F → K) : Box K F :=
  if c.extend = .barycenter then
    { lower := fun i => if x i < b.lower i then b.lower i - (b.lower i - x i) * c.feParameter else b.lower i
      upper := fun i => if b.upper i < x i then b.upper i + (x i - b.upper i) * c.feParameter else b.upper i }
  else b.extend x

/-- Going down from node `id`, or counting the point at a leaf (mondrian_coarse.hpp:412-424; 542-554; 664-677; 789-800; 874-897). `rec` is the recursive call. With
`EXTEND_GHOST` the counter of the node is increased after the call. -/
def descend (c : Config K) (x : Fin F → K) (label : Fin L) (rec : Nat → Nat → State K F L → Res (State K F L × Nat)) (id pos : Nat) (s : State K F L) :
    Res (State K F L × Nat) := do
  let node ← rd s.forest.nodes id
  match node.dim with
  | some dim => do
      let sp ← init node.split
      let child ← init (if x dim ≤ sp then node.left else node.right)
      let (s, pos) ← rec child pos s
      if c.extend = .ghost then do
        let nodes ← upd s.forest.nodes id (fun n => { n with counts := bump n.counts label })
        return ({ s with forest := { s.forest with nodes := nodes } }, pos)
      else return (s, pos)
  | none => do
      let s ← countAt s id label
      return (s, pos)

/-- `extend_block0` (mondrian_coarse.hpp:301-426, `EXTEND_ORIGINAL`), `extend_block2` (428-551, `EXTEND_PARTIAL_UPDATE`), `extend_block1` (553-680,
`EXTEND_GHOST`), `extend_block3` (682-805, `EXTEND_COUNTER_NO_UPDATE`) and `extend_block4` with `extend_node` (807-978, `EXTEND_BARYCENTER`): the same code up to
the branches on `c.extend`. `fuel` bounds the depth of the recursion. -/
def extendBlock (c : Config K) (p : Params K) (ω : Nat → K) (x : Fin F → K) (label : Fin L) (tree : Nat) : (fuel : Nat) → (id pos : Nat) → State K F L →
    Res (State K F L × Nat)
  | 0, _, _, _ => .error .ub
  | fuel + 1, id, pos, s => do
      let node ← rd s.forest.nodes id
      let parentTau ← (match node.parent with
        | some q => (rd s.forest.nodes q).map (·.tau)
        | none => .ok 0 : Res K)
      let b ← init node.box
      let e := (expo p ω pos b x).1
      let pos := (expo p ω pos b x).2
      let pause ← paused c s tree id
      if 0 ≤ e ∧ parentTau + e < node.tau ∧ 2 ≤ s.free ∧ pause = false then do
        let (cut, pos) ← drawCut ω pos b x (parentTau + e)
        let s ← insert c p s id tree cut x label
        if c.extend = .counterNoUpdate then descend c x label (extendBlock c p ω x label tree fuel) id pos s
        else return (s, pos)
      else if c.extend = .original ∨ c.extend = .barycenter ∨ e < 0 ∨ node.tau < parentTau + e then do
        let nodes ← wr s.forest.nodes id { node with box := some (newBox c b x) }
        let forced ← (if c.extend = .barycenter ∧ 0 ≤ e ∧ parentTau + e < node.tau then do
            let f ← rd s.forced id
            wr s.forced id (f + 1)
          else .ok s.forced : Res (List Int))
        descend c x label (extendBlock c p ω x label tree fuel) id pos { s with
          forest := { s.forest with nodes := nodes }
          forced := forced }
      else if c.extend = .ghost then do
        let s ← countAt s id label
        return (s, pos)
      else if c.extend = .counterNoUpdate then descend c x label (extendBlock c p ω x label tree fuel) id pos s
      else return (s, pos)

/-- `train_tree` (mondrian_coarse.hpp:2019-2071) -/
def trainTree (c : Config K) (p : Params K) (ω : Nat → K) (x : Fin F → K) (label : Fin L) (tree : Nat) (s : State K F L) (pos : Nat) :
    Res (State K F L × Nat × Bool) := do
  let root ← rd s.forest.roots tree
  match root with
  | none => do
      let (id, s) ← takeNode s
      match id with
      | none => return (s, pos, false)
      | some id => do
          let roots ← wr s.forest.roots tree (some id)
          let nodes ← upd s.forest.nodes id (fun n => { n with
            parent := none
            right := none
            left := none
            tau := 0 })
          let nodes ← sampleBlock p nodes id x label
          return ({ s with
            forest := { nodes := nodes, roots := roots }
            free := s.free - 1 }, pos, true)
  | some id =>
      if c.extend = .none then return (s, pos, decide (2 < s.free))
      else do
        let (s, pos) ← extendBlock c p ω x label tree s.forest.nodes.length id pos s
        return (s, pos, true)

/-- The loop over the nodes of a tree in `tree_trim` (mondrian_coarse.hpp:1776-1828) and in `tree_fade_counts` (mondrian_coarse.hpp:1859-1887), which only
differ in what they do at a leaf. Returns the depth at the end, -1 if the whole tree was visited; the loop is left early at depth 100, the size of the stack. -/
def walk {A : Type} (nodes : List (Node K F L)) (act : Nat → Node K F L → A → Res A) : (fuel i : Nat) → Option Nat → (depth : Int) → (stack : List Int) → A →
    Res (Int × A)
  | 0, _, _, _, _, _ => .error .ub
  | _ + 1, _, none, depth, _, a => .ok (depth, a)
  | fuel + 1, i, some id, depth, stack, a =>
      if i < nodes.length then do
        let node ← rd nodes id
        let d ← level depth
        match node.dim with
        | some _ => do
            let st ← rd stack d
            if st = -1 then do
              let stack ← wr stack d 0
              if 100 ≤ depth + 1 then return (depth + 1, a)
              else walk nodes act fuel i node.right (depth + 1) stack a
            else if st = 0 then do
              let stack ← wr stack d 1
              if 100 ≤ depth + 1 then return (depth + 1, a)
              else walk nodes act fuel i node.left (depth + 1) stack a
            else do
              let stack ← wr stack d (-1)
              walk nodes act fuel (i + 1) node.parent (depth - 1) stack a
        | none => do
            let stack ← wr stack d (-1)
            let a ← act id node a
            walk nodes act fuel (i + 1) node.parent (depth - 1) stack a
      else return (depth, a)

/-- The local variables of `tree_trim` (mondrian_coarse.hpp:1770-1775) and the position in the random sequence -/
structure Search (K : Type) where
  smallest : K
  id : Nat
  leaves : Nat
  sum : K
  pos : Nat

/-- Whether a leaf with the score `v` becomes the candidate, and the new position in the random sequence (mondrian_coarse.hpp:1804, 1811) -/
def better (ω : Nat → K) (v : K) (a : Search K) : Bool × Nat :=
  if a.smallest < 0 then (true, a.pos)
  else if v < a.smallest then (true, a.pos)
  else if v = a.smallest then (decide (ω a.pos < 1 / 2), a.pos + 1)
  else (false, a.pos)

/-- `tree_trim(tree_id)` at a leaf (mondrian_coarse.hpp:1797-1824) -/
def trimLeaf (c : Config K) (ω : Nat → K) (fading : List K) (id : Nat) (node : Node K F L) (a : Search K) : Res (Search K) :=
  let a := { a with leaves := a.leaves + 1 }
  match c.trim with
  | .none => .ok a
  | .count =>
      let v : K := ∑ i, (node.counts i : K)
      let (hit, pos) := better ω v a
      .ok { smallest := if hit then v else a.smallest, id := if hit then id else a.id, leaves := a.leaves, sum := a.sum + v, pos := pos }
  | .fading => do
      let v ← rd fading id
      let (hit, pos) := better ω v a
      return { smallest := if hit then v else a.smallest, id := if hit then id else a.id, leaves := a.leaves, sum := a.sum + v, pos := pos }
  | .random => .ok { a with
      id := if ω a.pos < 1 / (a.leaves : K) then id else a.id
      pos := a.pos + 1 }

/-- `tree_trim(tree_id)` (mondrian_coarse.hpp:1757-1834): the leaf to cut, `none` for a negative result, and the new position in the random sequence -/
def trimTree (c : Config K) (ω : Nat → K) (s : State K F L) (tree pos : Nat) : Res (Option Nat × Nat) := do
  let root ← rd s.forest.roots tree
  let (depth, a) ← walk s.forest.nodes (trimLeaf c ω s.fading) (3 * s.forest.nodes.length + 1) 0 root 0 (List.replicate 100 (-1))
    { smallest := -1, id := 0, leaves := 0, sum := 0, pos := pos }
  if depth ≠ -1 then return (none, a.pos)
  else if 0 < a.sum ∧ c.maximumTrimSize < a.smallest / a.sum then return (none, a.pos)
  else return (some a.id, a.pos)

/-- `MondrianNode::reset` of node `id` and `node_available += 1` -/
def release (s : State K F L) (id : Nat) : Res (State K F L) := do
  let nodes ← wr s.forest.nodes id resetNode
  let fading ← wr s.fading id 0
  let forced ← wr s.forced id 0
  return { s with
    forest := { s.forest with nodes := nodes }
    fading := fading
    forced := forced
    free := s.free + 1 }

/-- The loop of `node_reset` (mondrian_coarse.hpp:2359-2411) -/
def resetLoop (start : Nat) : (fuel i : Nat) → Option Nat → (depth : Int) → (stack : List Int) → State K F L → Res (State K F L × Bool)
  | 0, _, _, _, _, _ => .error .ub
  | _ + 1, _, none, depth, _, s => .ok (s, decide (depth = -1))
  | fuel + 1, i, some id, depth, stack, s =>
      if i < s.forest.nodes.length then do
        let node ← rd s.forest.nodes id
        match node.dim with
        | none => do
            let s ← release s id
            if id = start then return (s, decide (depth = -1))
            else resetLoop start fuel (i + 1) node.parent (depth - 1) stack s
        | some _ => do
            let d ← level depth
            let st ← rd stack d
            if st = -1 then do
              let stack ← wr stack d 0
              if 100 ≤ depth + 1 then return (s, false)
              else resetLoop start fuel i node.right (depth + 1) stack s
            else if st = 0 then do
              let stack ← wr stack d 1
              if 100 ≤ depth + 1 then return (s, false)
              else resetLoop start fuel i node.left (depth + 1) stack s
            else do
              let s ← release s id
              if id = start then return (s, decide (depth = -1))
              else do
                let stack ← wr stack d (-1)
                resetLoop start fuel (i + 1) node.parent (depth - 1) stack s
      else return (s, decide (depth = -1))

/-- `node_reset` (mondrian_coarse.hpp:2347-2416); the returned value is not used by the callers. -/
def nodeReset (s : State K F L) (id : Nat) : Res (State K F L) := do
  let (s, _) ← resetLoop id (3 * s.forest.nodes.length + 1) 0 (some id) 0 (List.replicate 100 (-1)) s
  return s

/-- `cut_block` (mondrian_coarse.hpp:1892-1922) -/
def cutBlock (s : State K F L) (id tree : Nat) : Res (State K F L) := do
  let node ← rd s.forest.nodes id
  let q ← init node.parent
  let parent ← rd s.forest.nodes q
  let sib ← init (if parent.right = some id then parent.left else parent.right)
  match parent.parent with
  | none => do
      let s ← release s q
      let s ← nodeReset s id
      let roots ← wr s.forest.roots tree (some sib)
      let nodes ← upd s.forest.nodes sib (fun n => { n with parent := none })
      return { s with forest := { nodes := nodes, roots := roots } }
  | some g => do
      let nodes ← upd s.forest.nodes g (fun n => if n.right = some q then { n with right := some sib } else { n with left := some sib })
      let nodes ← upd nodes sib (fun n => { n with parent := some g })
      let s ← release { s with forest := { s.forest with nodes := nodes } } q
      nodeReset s id

/-- The loop of `tree_trim()` (mondrian_coarse.hpp:1750-1754) from tree `i`, `k` trees left -/
def trimLoop (c : Config K) (ω : Nat → K) : (i k : Nat) → State K F L → Nat → Res (State K F L × Nat)
  | _, 0, s, pos => .ok (s, pos)
  | i, k + 1, s, pos => do
      let (id, pos) ← trimTree c ω s i pos
      let root ← rd s.forest.roots i
      let s ← (match id with
        | none => .ok s
        | some id => if root ≠ some id ∧ id < s.forest.nodes.length then cutBlock s id i else .ok s : Res (State K F L))
      trimLoop c ω (i + 1) k s pos

/-- `tree_trim()` (mondrian_coarse.hpp:1747-1755) -/
def treeTrim (c : Config K) (ω : Nat → K) (s : State K F L) (pos : Nat) : Res (State K F L × Nat) :=
  if c.trim = .none then .ok (s, pos) else trimLoop c ω 0 s.forest.roots.length s pos

/-- `tree_fade_counts(tree_id)` at a leaf (mondrian_coarse.hpp:1883); `nodes_fading_f` is 0.995 (mondrian_coarse.hpp:260). -/
def fadeLeaf (id : Nat) (_node : Node K F L) (fading : List K) : Res (List K) := do
  let f ← rd fading id
  wr fading id (f * (995 / 1000))

/-- The loop of `tree_fade_counts()` (mondrian_coarse.hpp:1835-1838) over the remaining roots, with `tree_fade_counts(tree_id)` (mondrian_coarse.hpp:1840-1889) -/
def fadeLoop (nodes : List (Node K F L)) : List (Option Nat) → List K → Res (List K)
  | [], fading => .ok fading
  | root :: roots, fading => do
      let (_, fading) ← walk nodes fadeLeaf (3 * nodes.length + 1) 0 root 0 (List.replicate 100 (-1)) fading
      fadeLoop nodes roots fading

/-- `tree_fade_counts()` (mondrian_coarse.hpp:1835-1838) -/
def treeFade (s : State K F L) : Res (State K F L) := do
  let fading ← fadeLoop s.forest.nodes s.forest.roots s.fading
  return { s with fading := fading }

/-- The loop of `train` over the trees (mondrian_coarse.hpp:2937-2944) from tree `i`, `k` trees left; `ok` is `fully_trained`. -/
def trainLoop (c : Config K) (p : Params K) (ω : Nat → K) (x : Fin F → K) (label : Fin L) : (i k : Nat) → State K F L → Nat → Bool →
    Res (State K F L × Nat × Bool)
  | _, 0, s, pos, ok => .ok (s, pos, ok)
  | i, k + 1, s, pos, ok => do
      let (s, pos, r) ← trainTree c p ω x label i s pos
      trainLoop c p ω x label (i + 1) k s pos (ok && r)

/-- `train` (mondrian_coarse.hpp:2908-3045) -/
def train (c : Config K) (p : Params K) (ω : Nat → K) (x : Fin F → K) (label : Fin L) (s : State K F L) (pos : Nat) : Res (State K F L × Nat × Bool) := do
  let s ← (if c.trim = .fading then treeFade s else .ok s : Res (State K F L))
  let (s, pos) ← (if c.trim ≠ .none ∧ s.free ≤ 1 ∧ s.total % 100 = 0 then treeTrim c ω s pos else .ok (s, pos) : Res (State K F L × Nat))
  let (s, pos, ok) ← trainLoop c p ω x label 0 s.forest.roots.length s pos true
  return ({ s with total := s.total + 1 }, pos, ok)

/-- `predict` (mondrian_coarse.hpp:3264-3293): new state and returned label. `use` is the argument `tree_to_use`, `none` if it is negative. The argument `scores` is
not used by the code. `compute_posterior_mean` (2078-2099), `predict_tree` (2108-2172, without a depth limit) and `update_posterior_count` (2216-2243) have the same
text as in `mondrian.hpp`. -/
def predict (c : Config K) (p : Params K) (s : State K F L) (x : Fin F → K) (use : Option Nat) : Res (State K F L × Nat) := do
  let nodes ← (if c.extend = .ghost then .ok s.forest.nodes
    else Mondrian.updateCounts s.forest.nodes.length s.forest.roots s.forest.nodes : Res (List (Node K F L)))
  let forest := { s.forest with nodes := nodes }
  let k := match use with
    | some k => k
    | none => forest.roots.length
  if forest.roots.length < k ∨ k = 0 then .error .ub
  else do
    let sum ← Mondrian.sumLoop p forest x (forest.roots.take k) (fun _ => 0)
    return ({ s with forest := forest }, Utils.indexMax (List.ofFn (fun i => sum i / (k : K))))

/-- A call of a member function, or the effect on the static variable of a call for another object -/
inductive Op (K : Type) (F L : Nat) where
  | train (x : Fin F → K) (label : Fin L)
  | predict (x : Fin F → K) (use : Option Nat)
  | trim
  | fade
  | other (last : Nat)

/-- Executes a call; the returned values are dropped. -/
def exec (c : Config K) (p : Params K) (ω : Nat → K) (op : Op K F L) (s : State K F L) (pos : Nat) : Res (State K F L × Nat) :=
  match op with
  | .train x label => do
      let (s, pos, _) ← train c p ω x label s pos
      return (s, pos)
  | .predict x use => do
      let (s, _) ← predict c p s x use
      return (s, pos)
  | .trim => treeTrim c ω s pos
  | .fade => do
      let s ← treeFade s
      return (s, pos)
  | .other last => .ok ({ s with last := last }, pos)

/-- A history of calls -/
def run (c : Config K) (p : Params K) (ω : Nat → K) : List (Op K F L) → State K F L → Nat → Res (State K F L × Nat)
  | [], s, pos => .ok (s, pos)
  | op :: ops, s, pos => do
      let (s, pos) ← exec c p ω op s pos
      run c p ω ops s pos

end Orp.Coarse
