import Verif.Coarse.Model

/-!
Model of the part of `CoarseMondrianForest` (`/repo/src/mondrian_coarse.hpp`) that is reached with `EXTEND_BARYCENTER` when `split_trigger` or `split_helper` are not
the default ones: `split_node`, `split_barycenter`, `count_sides`, `adjust_boxes`, `adjust_counters`, `pass_data_point_down`, `count_fe_down`, `find_barycenter`, and
of the public functions `count_data_point_tree` and `count_dead_supply_tree`, which have the same loop. The rest is the model in `Verif/Coarse/Model.lean`.

Divisions by zero of doubles are modelled by what the comparisons give for the infinite values and NaN; where a NaN is used as an index, undefined behaviour.
-/

namespace Orp.Coarse

open Finset
open Mondrian (Node Box Forest Params Cut upd init extent bump)

variable {K : Type} [Field K] [LinearOrder K] [FloorRing K] {F L : Nat}

/-- `fe_distribution` (mondrian_coarse.hpp:133-136) -/
inductive Distribution where
  | zero | split | proportional | decrement
deriving DecidableEq

/-- `fe_split_trigger` (mondrian_coarse.hpp:138-141) -/
inductive Trigger where
  | none | positive | total | sfe
deriving DecidableEq

/-- `split_helper` (mondrian_coarse.hpp:143-145) -/
inductive Helper where
  | none | avg | weighted
deriving DecidableEq

/-- The parameters of the constructor (mondrian_coarse.hpp:2842-2849) that are used for the splits -/
structure SplitConfig (K : Type) where
  distribution : Distribution
  trigger : Trigger
  helper : Helper
  fadingCount : K

/-- The loop over the nodes below `start` of `count_sides` (mondrian_coarse.hpp:1245-1306), `adjust_counters` (1448-1504), `count_dead_supply` (1563-1608),
`count_data_point_node` (1629-1670) and `find_barycenter` (1695-1741), which only differ in what they do at a leaf: `act` gives the new content of the leaf. Returns
whether all the nodes were visited; the loop is left early at depth 100, the size of the stack. -/
def tour {A : Type} (start : Nat) (act : Node K F L → A → Res (Node K F L × A)) : (fuel i : Nat) → Option Nat → (depth : Int) → (stack : List Int) →
    List (Node K F L) → A → Res (Bool × List (Node K F L) × A)
  | 0, _, _, _, _, _, _ => .error .ub
  | _ + 1, _, none, depth, _, nodes, a => .ok (decide (depth = -1), nodes, a)
  | fuel + 1, i, some id, depth, stack, nodes, a =>
      if i < nodes.length then do
        let node ← rd nodes id
        let d ← level depth
        match node.dim with
        | some _ => do
            let st ← rd stack d
            if st = -1 then do
              let stack ← wr stack d 0
              if 100 ≤ depth + 1 then return (false, nodes, a)
              else tour start act fuel i node.right (depth + 1) stack nodes a
            else if st = 0 then do
              let stack ← wr stack d 1
              if 100 ≤ depth + 1 then return (false, nodes, a)
              else tour start act fuel i node.left (depth + 1) stack nodes a
            else do
              let stack ← wr stack d (-1)
              if id = start then return (decide (depth - 1 = -1), nodes, a)
              else tour start act fuel (i + 1) node.parent (depth - 1) stack nodes a
        | none => do
            let stack ← wr stack d (-1)
            let (node', a) ← act node a
            let nodes ← wr nodes id node'
            if id = start then return (decide (depth - 1 = -1), nodes, a)
            else tour start act fuel (i + 1) node.parent (depth - 1) stack nodes a
      else return (decide (depth = -1), nodes, a)

/-- The loop from `start`, with the stack of 100 entries -/
def tourFrom {A : Type} (act : Node K F L → A → Res (Node K F L × A)) (nodes : List (Node K F L)) (start : Nat) (a : A) : Res (Bool × List (Node K F L) × A) :=
  tour start act (3 * nodes.length + 1) 0 (some start) 0 (List.replicate 100 (-1)) nodes a

/-- The sum of the counters of a node -/
def total (n : Node K F L) : Nat := ∑ i, n.counts i

/-- `count_sides` at a leaf (mondrian_coarse.hpp:1273-1297): the counts of the two sides and the position in the random sequence. The points of a box above the split
are counted on the left, and those of a box below on the right. -/
def sideLeaf (ω : Nat → K) (dim : Fin F) (v : K) (n : Node K F L) (a : Int × Int × Nat) : Res (Node K F L × Int × Int × Nat) := do
  let b ← init n.box
  let (l, r, pos) := a
  let count : Int := total n
  if b.lower dim < v ∧ v < b.upper dim then
    let percent := (v - b.lower dim) / (b.upper dim - b.lower dim)
    let left := Utils.trunc ((count : K) * percent)
    let right := Utils.trunc ((count : K) * (1 - percent))
    let err := count - left - right
    if err = 0 then return (n, l + left, r + right, pos)
    else if ω pos < 1 / 2 then return (n, l + left + err, r + right, pos + 1)
    else return (n, l + left, r + right + err, pos + 1)
  else if v ≤ b.lower dim then return (n, l + count, r, pos)
  else return (n, l, r + count, pos)

/-- The share of a leaf below the split (mondrian_coarse.hpp:1482-1484); the box may have no width. -/
def share (b : Box K F) (dim : Fin F) (v : K) : K :=
  if b.upper dim - b.lower dim = 0 then (if b.lower dim < v then 1 else 0)
  else Utils.min (Utils.max ((v - b.lower dim) / (b.upper dim - b.lower dim)) 0) 1

/-- `adjust_counters` at a leaf (mondrian_coarse.hpp:1481-1497); `a` is `to_remove`. -/
def counterLeaf (dim : Fin F) (v : K) (dischargeLeft : Bool) (n : Node K F L) (a : Fin L → Nat) : Res (Node K F L × (Fin L → Nat)) := do
  let b ← init n.box
  let percentage := if dischargeLeft then share b dim v else 1 - share b dim v
  return ({ n with counts := fun i => (Utils.round ((n.counts i : K) * (1 - percentage))).toNat },
    fun i => a i + (Utils.round ((n.counts i : K) * percentage)).toNat)

/-- The box with the bounds of one dimension moved to one side of the split (mondrian_coarse.hpp:1327-1338, 1416-1427) -/
def clip (onLeft : Bool) (dim : Fin F) (v : K) (b : Box K F) : Box K F :=
  if onLeft then { lower := Function.update b.lower dim (Utils.min (b.lower dim) v), upper := Function.update b.upper dim (Utils.min (b.upper dim) v) }
  else { lower := Function.update b.lower dim (Utils.max (b.lower dim) v), upper := Function.update b.upper dim (Utils.max (b.upper dim) v) }

/-- Whether the box of a node has no width in a dimension (mondrian_coarse.hpp:1337, 1362-1363) -/
def zeroed (n : Node K F L) (dim : Fin F) : Res Bool := do
  let b ← init n.box
  return decide (b.upper dim - b.lower dim = 0)

/-- `node_reset` of a child that may be missing -/
def resetChild (s : State K F L) : Option Nat → Res (State K F L)
  | none => .ok s
  | some id => nodeReset s id

/-- Changes of one node -/
def State.upd (s : State K F L) (id : Nat) (f : Node K F L → Node K F L) : Res (State K F L) := do
  let nodes ← Mondrian.upd s.forest.nodes id f
  return { s with forest := { s.forest with nodes := nodes } }

/-- The loop of `adjust_boxes` (mondrian_coarse.hpp:1320-1437); the returned value is not used. -/
def adjustLoop (start : Nat) (dim : Fin F) (v : K) (onLeft : Bool) (tree : Nat) : (fuel i : Nat) → Option Nat → (depth : Int) → (stack : List Int) → State K F L →
    Res (State K F L)
  | 0, _, _, _, _, _ => .error .ub
  | _ + 1, _, none, _, _, s => .ok s
  | fuel + 1, i, some id, depth, stack, s =>
      if i < s.forest.nodes.length then do
        let node ← rd s.forest.nodes id
        let d ← level depth
        match node.dim with
        | some _ => do
            let st ← rd stack d
            if st = -1 then do
              let b ← init node.box
              let s ← s.upd id (fun n => { n with box := some (clip onLeft dim v b) })
              if (clip onLeft dim v b).upper dim - (clip onLeft dim v b).lower dim = 0 then do
                let s ← resetChild s node.right
                let s ← resetChild s node.left
                adjustLoop start dim v onLeft tree fuel i node.parent (depth - 1) stack s
              else do
                let stack ← wr stack d 0
                if 100 ≤ depth + 1 then return s
                else adjustLoop start dim v onLeft tree fuel i node.right (depth + 1) stack s
            else if st = 0 then do
              let stack ← wr stack d 1
              if 100 ≤ depth + 1 then return s
              else adjustLoop start dim v onLeft tree fuel i node.left (depth + 1) stack s
            else do
              let stack ← wr stack d (-1)
              let l ← init node.left
              let r ← init node.right
              let lz ← zeroed (← rd s.forest.nodes l) dim
              let rz ← zeroed (← rd s.forest.nodes r) dim
              if lz = true ∨ rz = true then do
                let replacer := if lz then r else l
                let other := if lz then l else r
                match node.parent with
                | none => do
                    let roots ← wr s.forest.roots tree (some replacer)
                    let s ← release { s with forest := { s.forest with roots := roots } } other
                    let s ← release s id
                    s.upd replacer (fun n => { n with parent := none })
                | some q => do
                    let s ← s.upd q (fun n => if n.left = some id then { n with left := some replacer } else { n with right := some replacer })
                    let s ← s.upd replacer (fun n => { n with parent := some q })
                    let s ← release s other
                    let s ← release s id
                    if id = start then return s
                    else adjustLoop start dim v onLeft tree fuel (i + 1) (some q) (depth - 1) stack s
              else if id = start then return s
              else adjustLoop start dim v onLeft tree fuel (i + 1) node.parent (depth - 1) stack s
        | none => do
            let stack ← wr stack d (-1)
            let b ← init node.box
            let s ← s.upd id (fun n => { n with box := some (clip onLeft dim v b) })
            if id = start then return s
            else adjustLoop start dim v onLeft tree fuel (i + 1) node.parent (depth - 1) stack s
      else return s

/-- `adjust_boxes` (mondrian_coarse.hpp:1309-1437) -/
def adjustBoxes (s : State K F L) (start : Nat) (dim : Fin F) (v : K) (onLeft : Bool) (tree : Nat) : Res (State K F L) :=
  adjustLoop start dim v onLeft tree (3 * s.forest.nodes.length + 1) 0 (some start) 0 (List.replicate 100 (-1)) s

/-- `pass_data_point_down` (mondrian_coarse.hpp:1506-1530): the leaf and the new state -/
def passDown (x : Fin F → K) (label : Fin L) : (fuel : Nat) → Nat → State K F L → Res (Nat × State K F L)
  | 0, _, _ => .error .ub
  | fuel + 1, id, s => do
      let node ← rd s.forest.nodes id
      let b ← init node.box
      let s ← s.upd id (fun n => { n with box := some (b.extend x) })
      match node.dim with
      | none => do
          let s ← countAt s id label
          return (id, s)
      | some dim => do
          let sp ← init node.split
          let child ← init (if sp < x dim then node.right else node.left)
          passDown x label fuel child s

/-- `count_fe_down` (mondrian_coarse.hpp:1532-1549) -/
def countFe (s : State K F L) (x : Fin F → K) : (fuel : Nat) → Nat → Res Int
  | 0, _ => .error .ub
  | fuel + 1, id => do
      let node ← rd s.forest.nodes id
      let f ← rd s.forced id
      match node.dim with
      | none => return f
      | some dim => do
          let sp ← init node.split
          let child ← init (if sp < x dim then node.right else node.left)
          return f + (← countFe s x fuel child)

/-- `find_barycenter` at a leaf (mondrian_coarse.hpp:1722-1731): `avg_features` and `count`, which is the same for all features -/
def baryLeaf (n : Node K F L) (a : (Fin F → K) × K) : Res (Node K F L × (Fin F → K) × K) := do
  let b ← init n.box
  return (n, fun i => a.1 i + (b.upper i + b.lower i) * (1 / 2) * (total n : K), a.2 + (total n : K))

/-- `find_barycenter` (mondrian_coarse.hpp:1679-1746), `none` for NaN: no point was counted. If the tree is too deep the sums are not divided. -/
def findBarycenter (nodes : List (Node K F L)) (root : Nat) : Res (Option (Fin F → K)) := do
  let (done, _, avg, count) ← tourFrom baryLeaf nodes root (fun _ => 0, 0)
  if done = false then return some avg
  else if count = 0 then return none
  else return some (fun i => avg i / count)

/-- `forced_extend` of the split node and of the new sibling (mondrian_coarse.hpp:1058-1076). The ratio of `FE_DISTRIBUTION_PROPORTIONAL` is NaN, whose conversion to an
integer is undefined behaviour, if nothing was counted. -/
def distribute (dist : Distribution) (f left right : Int) : Res (Int × Int) :=
  match dist with
  | .zero => .ok (0, 0)
  | .split => .ok (Utils.trunc ((f : K) * (1 / 2)), Utils.trunc ((f : K) * (1 / 2)))
  | .proportional =>
      if left + right = 0 then .error .ub
      else .ok (Utils.trunc ((f : K) * ((left : K) / ((left + right : Int) : K))), Utils.trunc ((1 - (left : K) / ((left + right : Int) : K)) * (f : K)))
  | .decrement => .ok (f - 1, 0)

/-- The common part of `split_node` (mondrian_coarse.hpp:1000-1093) and `split_barycenter` (mondrian_coarse.hpp:1138-1231): node `id` gets a new parent, which splits at
`v` in dimension `dim` from time `tau` on, and a sibling, and the point is passed down. -/
def splitAt (sc : SplitConfig K) (p : Params K) (ω : Nat → K) (s : State K F L) (id tree pos : Nat) (dim : Fin F) (v tau : K) (x : Fin F → K) (label : Fin L) :
    Res (State K F L × Nat) := do
  let (np, s) ← takeNode s
  let np ← init np
  let s ← s.upd np (fun n => { n with tau := tau })
  let (ns, s) ← takeNode s
  let ns ← init ns
  let s ← s.upd ns (fun n => { n with tau := p.lifetime })
  let s := { s with free := s.free - 2 }
  let node ← rd s.forest.nodes id
  let b ← init node.box
  let s ← s.upd np (fun n => { n with
    dim := some dim
    split := some v
    box := some (b.extend x) })
  let s ← s.upd ns (fun n => { n with
    box := some b
    counts := fun _ => 0 })
  let forest ← Mondrian.relink s.forest id tree np
  let s := { s with forest := forest }
  let (_, _, left, right, pos) ← tourFrom (sideLeaf ω dim v) s.forest.nodes id (0, 0, pos)
  let onLeft := decide (right < left)
  let s ← (if onLeft then do
      let s ← s.upd np (fun n => { n with
        right := some ns
        left := some id })
      let s ← s.upd id (fun n => { n with box := some { b with upper := Function.update b.upper dim v } })
      s.upd ns (fun n => { n with box := some { b with lower := Function.update b.lower dim v } })
    else do
      let s ← s.upd np (fun n => { n with
        right := some id
        left := some ns })
      let s ← s.upd id (fun n => { n with box := some { b with lower := Function.update b.lower dim v } })
      s.upd ns (fun n => { n with box := some { b with upper := Function.update b.upper dim v } }) : Res (State K F L))
  let s ← s.upd np (fun n => { n with parent := node.parent })
  let s ← s.upd id (fun n => { n with parent := some np })
  let s ← s.upd ns (fun n => { n with parent := some np })
  let f ← rd s.forced id
  let (fn, fs) ← distribute (K := K) sc.distribution f left right
  let forced ← wr s.forced id fn
  let forced ← wr forced ns fs
  let forced ← wr forced np 0
  let s := { s with forced := forced }
  let (_, nodes, removed) ← tourFrom (counterLeaf dim v (!onLeft)) s.forest.nodes id (fun _ => 0)
  let s := { s with forest := { s.forest with nodes := nodes } }
  let s ← s.upd ns (fun n => { n with counts := fun i => n.counts i + removed i })
  let s ← adjustBoxes s id dim v onLeft tree
  let parent ← rd s.forest.nodes np
  let child ← init (if v < x dim then parent.right else parent.left)
  let (_, s) ← passDown x label s.forest.nodes.length child s
  return (s, pos)

/-- `split_node` (mondrian_coarse.hpp:980-1094) at time `tau`. If the box has no extent the probabilities are NaN, and the index picked is `feature_count`. -/
def splitNode (sc : SplitConfig K) (p : Params K) (ω : Nat → K) (s : State K F L) (id tree pos : Nat) (tau : K) (x : Fin F → K) (label : Fin L) :
    Res (State K F L × Nat) := do
  let node ← rd s.forest.nodes id
  let b ← init node.box
  let (dim, pos) ← pickDim ω pos (fun i => b.upper i - b.lower i) (∑ i, (b.upper i - b.lower i))
  let v := ω pos * (b.upper dim - b.lower dim) + b.lower dim
  splitAt sc p ω s id tree (pos + 1) dim v tau x label

/-- The values of the object that only the split helper uses: `sum_features`, `count_points` and `has_been_full` (mondrian_coarse.hpp:257-258, 262) -/
structure Extra (K : Type) (F : Nat) where
  sum : Fin F → K
  count : K
  full : Nat

/-- The barycenter used (mondrian_coarse.hpp:1101-1109), `none` for `SPLIT_HELPER_NONE` and for values that are not finite, for which the comparisons with the bounds of a
box are false (mondrian_coarse.hpp:1112) -/
def barycenter (sc : SplitConfig K) (ex : Extra K F) (s : State K F L) (tree : Nat) : Res (Option (Fin F → K)) :=
  match sc.helper with
  | .weighted => do
      let root ← init (← rd s.forest.roots tree)
      findBarycenter s.forest.nodes root
  | .avg => .ok (if ex.count = 0 then none else some (fun i => ex.sum i / ex.count))
  | .none => .ok none

/-- The weights of the dimensions (mondrian_coarse.hpp:1111-1119) -/
def baryWeight (b : Box K F) (m x : Fin F → K) (i : Fin F) : K := if b.lower i < m i ∧ m i < b.upper i then Utils.abs (m i - x i) else 0

/-- `split_barycenter` (mondrian_coarse.hpp:1095-1233): `none` for false -/
def splitBarycenter (sc : SplitConfig K) (p : Params K) (ω : Nat → K) (ex : Extra K F) (s : State K F L) (id tree pos : Nat) (parentTau : K) (x : Fin F → K)
    (label : Fin L) : Res (Option (State K F L × Nat)) := do
  match ← barycenter sc ex s tree with
  | none => return none
  | some m => do
      let node ← rd s.forest.nodes id
      let b ← init node.box
      let sum := ∑ i, baryWeight b m x i
      if sum = 0 then return none
      else do
        let (dim, pos) ← pickDim ω (pos + 1) (baryWeight b m x) sum
        let lower := Utils.min (m dim) (x dim)
        let upper := Utils.max (m dim) (x dim)
        let v := ω pos * (upper - lower) + lower
        let r ← splitAt sc p ω s id tree (pos + 1) dim v (parentTau + (node.tau - parentTau) * ω pos) x label
        return some r

/-- `split_instead` (mondrian_coarse.hpp:841-846) and the new position in the random sequence -/
def splitInstead (ω : Nat → K) (pos : Nat) (forced forcedSum : Int) : Bool × Nat :=
  if 0 < forcedSum then (decide (ω pos < (forced : K) / (forcedSum : K)), pos + 1) else (false, pos)

/-- Whether `split_node` is called (mondrian_coarse.hpp:847-857) -/
def splits (t : Trigger) (forced : Int) (instead : Bool) : Bool :=
  match t with
  | .none => false
  | .positive => decide (0 < forced)
  | .total => instead
  | .sfe => instead

/-- `extend_block4` (mondrian_coarse.hpp:807-900) -/
def extendSplit (c : Config K) (sc : SplitConfig K) (p : Params K) (ω : Nat → K) (ex : Extra K F) (x : Fin F → K) (label : Fin L) (tree : Nat) (forcedSum : Int) :
    (fuel : Nat) → (id pos : Nat) → State K F L → Res (State K F L × Nat)
  | 0, _, _, _ => .error .ub
  | fuel + 1, id, pos, s => do
      let node ← rd s.forest.nodes id
      let parentTau ← (match node.parent with
        | some q => (rd s.forest.nodes q).map (·.tau)
        | none => .ok 0 : Res K)
      let b ← init node.box
      let e := (expo p ω pos b x).1
      let pos := (expo p ω pos b x).2
      let pause ← paused c s tree id
      if 0 ≤ e ∧ parentTau + e < node.tau ∧ 2 ≤ s.free ∧ pause = false then do
        let f ← (if sc.trigger = .none then .ok 0 else rd s.forced id : Res Int)
        let instead := (splitInstead ω pos f forcedSum).1
        let pos := (splitInstead ω pos f forcedSum).2
        if splits sc.trigger f instead then splitNode sc p ω s id tree pos (parentTau + e) x label
        else do
          let (cut, pos) ← drawCut ω pos b x (parentTau + e)
          let s ← insert c p s id tree cut x label
          return (s, pos)
      else do
        let nodes ← wr s.forest.nodes id { node with box := some (newBox c b x) }
        let forced ← (if 0 ≤ e ∧ parentTau + e < node.tau then do
            let f ← rd s.forced id
            wr s.forced id (f + 1)
          else .ok s.forced : Res (List Int))
        let s := { s with
          forest := { s.forest with nodes := nodes }
          forced := forced }
        match node.dim with
        | some dim => do
            let sp ← init node.split
            let child ← init (if x dim ≤ sp then node.left else node.right)
            extendSplit c sc p ω ex x label tree forcedSum fuel child pos s
        | none => do
            let r ← (if 20 < ex.full ∧ e < 0 ∧ 2 ≤ s.free then splitBarycenter sc p ω ex s id tree pos parentTau x label else .ok none :
              Res (Option (State K F L × Nat)))
            match r with
            | some r => return r
            | none => do
                let s ← countAt s id label
                return (s, pos)

/-- `train_tree` (mondrian_coarse.hpp:2019-2071). The number `summy` is used by `extend_block4` only. -/
def trainTreeSplit (c : Config K) (sc : SplitConfig K) (p : Params K) (ω : Nat → K) (ex : Extra K F) (x : Fin F → K) (label : Fin L) (tree : Nat) (s : State K F L)
    (pos : Nat) : Res (State K F L × Nat × Bool) := do
  let root ← rd s.forest.roots tree
  match root with
  | none => trainTree c p ω x label tree s pos
  | some id =>
      if c.extend = .barycenter then do
        let sum ← (match sc.trigger with
          | .total => .ok (s.total : Int)
          | .sfe => countFe s x s.forest.nodes.length id
          | _ => .ok 0 : Res Int)
        let (s, pos) ← extendSplit c sc p ω ex x label tree sum s.forest.nodes.length id pos s
        return (s, pos, true)
      else trainTree c p ω x label tree s pos

/-- The loop of `train` over the trees (mondrian_coarse.hpp:2937-2944) from tree `i`, `k` trees left; `ok` is `fully_trained`. -/
def trainLoopSplit (c : Config K) (sc : SplitConfig K) (p : Params K) (ω : Nat → K) (ex : Extra K F) (x : Fin F → K) (label : Fin L) : (i k : Nat) → State K F L →
    Nat → Bool → Res (State K F L × Nat × Bool)
  | _, 0, s, pos, ok => .ok (s, pos, ok)
  | i, k + 1, s, pos, ok => do
      let (s, pos, r) ← trainTreeSplit c sc p ω ex x label i s pos
      trainLoopSplit c sc p ω ex x label (i + 1) k s pos (ok && r)

/-- `train` (mondrian_coarse.hpp:2908-3045) -/
def trainSplit (c : Config K) (sc : SplitConfig K) (p : Params K) (ω : Nat → K) (x : Fin F → K) (label : Fin L) (s : State K F L) (ex : Extra K F) (pos : Nat) :
    Res (State K F L × Extra K F × Nat × Bool) := do
  let ex := { ex with
    sum := fun i => ex.sum i * sc.fadingCount + x i
    count := ex.count * sc.fadingCount + 1 }
  let s ← (if c.trim = .fading then treeFade s else .ok s : Res (State K F L))
  let (s, pos) ← (if c.trim ≠ .none ∧ s.free ≤ 1 ∧ s.total % 100 = 0 then treeTrim c ω s pos else .ok (s, pos) : Res (State K F L × Nat))
  let (s, pos, ok) ← trainLoopSplit c sc p ω ex x label 0 s.forest.roots.length s pos true
  return ({ s with total := s.total + 1 }, if s.free ≤ 1 then { ex with full := ex.full + 1 } else ex, pos, ok)

/-- Executes a call; the returned values are dropped. -/
def execSplit (c : Config K) (sc : SplitConfig K) (p : Params K) (ω : Nat → K) (op : Op K F L) (s : State K F L) (ex : Extra K F) (pos : Nat) :
    Res (State K F L × Extra K F × Nat) :=
  match op with
  | .train x label => do
      let (s, ex, pos, _) ← trainSplit c sc p ω x label s ex pos
      return (s, ex, pos)
  | op => do
      let (s, pos) ← exec c p ω op s pos
      return (s, ex, pos)

/-- A history of calls -/
def runSplit (c : Config K) (sc : SplitConfig K) (p : Params K) (ω : Nat → K) : List (Op K F L) → State K F L → Extra K F → Nat → Res (State K F L × Extra K F × Nat)
  | [], s, ex, pos => .ok (s, ex, pos)
  | op :: ops, s, ex, pos => do
      let (s, ex, pos) ← execSplit c sc p ω op s ex pos
      runSplit c sc p ω ops s ex pos

/-- `count_data_point_tree` (mondrian_coarse.hpp:1672-1677, with `count_data_point_node`, 1617-1671) -/
def countPoints (s : State K F L) (tree : Nat) : Res Int := do
  match ← rd s.forest.roots tree with
  | none => return 0
  | some root => do
      let (done, _, sum) ← tourFrom (fun n (a : Nat) => .ok (n, a + total n)) s.forest.nodes root 0
      return if done then sum else -1

/-- `count_dead_supply_tree` (mondrian_coarse.hpp:1610-1615, with `count_dead_supply`, 1551-1609) -/
def countDead (s : State K F L) (tree : Nat) : Res Int := do
  match ← rd s.forest.roots tree with
  | none => return 0
  | some root => do
      let (done, _, sum) ← tourFrom (fun n (a : Nat) => .ok (n, if total n < 50 then a + 1 else a)) s.forest.nodes root 0
      return if done then sum else -1

end Orp.Coarse
