import Verif.Utils.Model
import Mathlib.Algebra.BigOperators.Fin
import Mathlib.Data.Fintype.BigOperators

/-!
Model of `MondrianForest` (`/repo/src/mondrian.hpp`, whole class except the `DEBUG` printing, the unused copy constructor of `Node` and the
unused `compute_branching_probability`).

* Numbers are elements of an ordered field `K`; `feature_type` is `double`. `func::exp` and `func::log` are arbitrary functions, `func::rand_uniform`
  is a sequence `ω` of numbers, of which the functions consume the next ones: they take the position in the sequence and return the new one.
* `feature_count` and `label_count` are `F` and `L`; the feature arrays of the caller have `F` entries and the labels are below `L`, as the
  template parameters require. Counters (`int` in the code) are natural numbers.
* The index `EMPTY_NODE` (-1) is `none`. Values that the code leaves uninitialised are `none`; reading one is undefined behaviour.
* The recursion and the loop over the nodes of a tree get the size of the pool as a bound on their depth; the theorems show that it is never reached.
-/

namespace Orp.Mondrian

open Finset

variable {K : Type} [Field K] [LinearOrder K] [FloorRing K] {F L : Nat}

/-- `bound_lower`, `bound_upper` (mondrian.hpp:27-28) -/
structure Box (K : Type) (F : Nat) where
  lower : Fin F → K
  upper : Fin F → K

/-- `Node` (mondrian.hpp:21-36) -/
structure Node (K : Type) (F L : Nat) where
  /-- `split_dimension`; the code only stores values below `feature_count` besides -1 -/
  dim : Option (Fin F)
  split : Option K
  box : Option (Box K F)
  left : Option Nat
  right : Option Nat
  parent : Option Nat
  tau : K
  counts : Fin L → Nat

/-- Constructor of `Node` (mondrian.hpp:40-47) -/
def blank : Node K F L :=
  { dim := none, split := none, box := none, left := none, right := none, parent := none, tau := -1, counts := fun _ => 0 }

/-- `available` (mondrian.hpp:83-85) -/
def Node.available (n : Node K F L) : Bool := decide (n.tau < 0)

/-- The parameters of the object and the functions supplied by the user (mondrian.hpp:103-107) -/
structure Params (K : Type) where
  lifetime : K
  base : K
  discount : K
  exp : K → K
  log : K → K

/-- Object state (mondrian.hpp:99-101) -/
structure Forest (K : Type) (F L : Nat) where
  nodes : List (Node K F L)
  roots : List (Option Nat)

/-- Constructor (mondrian.hpp:435-442): `maxNode` nodes in the pool, `treeCount` trees -/
def new (maxNode treeCount : Nat) : Forest K F L := { nodes := List.replicate maxNode blank, roots := List.replicate treeCount none }

/-- `available_node` (mondrian.hpp:111-116) -/
def availableNode (nodes : List (Node K F L)) : Option Nat := nodes.findIdx? (fun n => n.available)

/-- Changes some members of `nodes[i]` -/
def upd (nodes : List (Node K F L)) (i : Nat) (f : Node K F L → Node K F L) : Res (List (Node K F L)) := do
  let n ← rd nodes i
  wr nodes i (f n)

/-- Read of a variable or member that may be uninitialised -/
def init {α : Type} : Option α → Res α
  | some a => .ok a
  | none => .error .ub

/-- `e_lower[i] + e_upper[i]` (mondrian.hpp:135-137) -/
def extent (b : Box K F) (x : Fin F → K) (i : Fin F) : K :=
  (if b.lower i - x i > 0 then b.lower i - x i else 0) + (if x i - b.upper i > 0 then x i - b.upper i else 0)

/-- Where and when a new node is introduced above an existing one: dimension, split value, time, and whether the new point is on the right -/
structure Cut (K : Type) (F : Nat) where
  dim : Fin F
  split : K
  tau : K
  right : Bool

/-- The choice of the dimension (mondrian.hpp:144-149) -/
def pickDim (ω : Nat → K) (pos : Nat) (e : Fin F → K) (sum : K) : Res (Fin F × Nat) := do
  let probs ← Utils.turnIntoProbability (List.ofFn e) sum
  let d := Utils.pick probs (ω pos)
  if h : d < F then return (⟨d, h⟩, pos + 1)
  else
    let k := Utils.trunc (ω (pos + 1) * (F : K))
    if h : 0 ≤ k ∧ k.toNat < F then return (⟨k.toNat, h.2⟩, pos + 2)
    else .error .ub

/-- The choice of the split (mondrian.hpp:152-163, 207). If the point is not outside the box in dimension `dim`, the variables `lower_value` and
`upper_value` are uninitialised. -/
def cutAt (ω : Nat → K) (pos : Nat) (b : Box K F) (x : Fin F → K) (dim : Fin F) (tau : K) : Res (Cut K F × Nat) := do
  let (lo, up) ← (if b.upper dim < x dim then .ok (b.upper dim, x dim)
    else if x dim < b.lower dim then .ok (x dim, b.lower dim) else .error .ub : Res (K × K))
  return ({ dim := dim, split := ω pos * (up - lo) + lo, tau := tau, right := decide (x dim = up) }, pos + 1)

/-- The random choices of `extend_block` (mondrian.hpp:126-163) for a node with box `b` and time `tau`: `none` if no node is introduced -/
def draw (p : Params K) (ω : Nat → K) (pos : Nat) (b : Box K F) (x : Fin F → K) (parentTau tau : K) : Res (Option (Cut K F) × Nat) :=
  let sum := ∑ i, extent b x i
  if sum = 0 then .ok (none, pos)
  else
    let e := p.log (1 - ω pos) / (-sum)
    if 0 ≤ e ∧ parentTau + e < tau then do
      let (dim, pos) ← pickDim ω (pos + 1) (extent b x) sum
      let (cut, pos) ← cutAt ω pos b x dim (parentTau + e)
      return (some cut, pos)
    else .ok (none, pos + 1)

/-- The box extended by a point (mondrian.hpp:178-179, 233-236) -/
def Box.extend (b : Box K F) (x : Fin F → K) : Box K F :=
  { lower := fun i => if x i < b.lower i then x i else b.lower i
    upper := fun i => if b.upper i < x i then x i else b.upper i }

/-- `counters[label] += 1` -/
def bump (c : Fin L → Nat) (label : Fin L) : Fin L → Nat := Function.update c label (c label + 1)

/-- `sample_block` (mondrian.hpp:259-271) -/
def sampleBlock (p : Params K) (nodes : List (Node K F L)) (id : Nat) (x : Fin F → K) (label : Fin L) : Res (List (Node K F L)) :=
  upd nodes id (fun n => { n with
    box := some { lower := x, upper := x }
    counts := bump n.counts label
    tau := p.lifetime })

/-- The link from the parent of `id`, or from the root, is redirected to `np` (mondrian.hpp:192-201) -/
def relink (s : Forest K F L) (id tree np : Nat) : Res (Forest K F L) := do
  let node ← rd s.nodes id
  let root ← rd s.roots tree
  if node.parent = none ∧ root = some id then
    let roots ← wr s.roots tree (some np)
    return { s with roots := roots }
  else
    match node.parent with
    | none => .error .ub
    | some q =>
      let nodes ← upd s.nodes q (fun m => if m.left = some id then { m with left := some np } else { m with right := some np })
      return { s with nodes := nodes }

/-- Introducing the nodes `np` and `ns` (mondrian.hpp:177-216); lines 168-170 are done before. -/
def insertNodes (p : Params K) (s : Forest K F L) (id tree np ns : Nat) (cut : Cut K F) (x : Fin F → K) (label : Fin L) : Res (Forest K F L) := do
  let node ← rd s.nodes id
  let b ← init node.box
  let nodes ← upd s.nodes np (fun n => { n with box := some (b.extend x) })
  let nodes ← upd nodes ns (fun n => { n with counts := fun _ => 0 })
  let node ← rd nodes id
  let nodes ← upd nodes np (fun n => { n with parent := node.parent })
  let s ← relink { s with nodes := nodes } id tree np
  let nodes ← upd s.nodes id (fun n => { n with parent := some np })
  let nodes ← upd nodes ns (fun n => { n with parent := some np })
  let nodes ← (if cut.right then upd nodes np (fun n => { n with
      right := some ns
      left := some id })
    else upd nodes np (fun n => { n with
      left := some ns
      right := some id }) : Res (List (Node K F L)))
  let nodes ← sampleBlock p nodes ns x label
  return { s with nodes := nodes }

/-- The attempt to introduce two nodes (mondrian.hpp:166-224): the new state, and whether the box is to be updated instead. If only one node is
available it is marked as used and stays outside the tree. -/
def tryInsert (p : Params K) (s : Forest K F L) (id tree : Nat) (cut : Option (Cut K F)) (x : Fin F → K) (label : Fin L) : Res (Forest K F L × Bool) :=
  match cut with
  | none => .ok (s, true)
  | some cut =>
    match availableNode s.nodes with
    | none => .ok (s, true)
    | some np => do
      let nodes ← upd s.nodes np (fun n => { n with
        dim := some cut.dim
        split := some cut.split
        tau := cut.tau })
      match availableNode nodes with
      | none => return ({ s with nodes := nodes }, true)
      | some ns => do
        let s ← insertNodes p { s with nodes := nodes } id tree np ns cut x label
        return (s, false)

/-- `extend_block` (mondrian.hpp:124-252); `fuel` bounds the depth of the recursion. -/
def extendBlock (p : Params K) (ω : Nat → K) (x : Fin F → K) (label : Fin L) (tree : Nat) : (fuel : Nat) → (id : Nat) → (pos : Nat) → Forest K F L →
    Res (Forest K F L × Nat)
  | 0, _, _, _ => .error .ub
  | fuel + 1, id, pos, s => do
      let node ← rd s.nodes id
      let parentTau ← (match node.parent with
        | some q => (rd s.nodes q).map (·.tau)
        | none => .ok 0 : Res K)
      let b ← init node.box
      let (cut, pos) ← draw p ω pos b x parentTau node.tau
      let (s, updateBox) ← tryInsert p s id tree cut x label
      if updateBox then do
        let node ← rd s.nodes id
        let b ← init node.box
        let nodes ← wr s.nodes id { node with box := some (b.extend x) }
        match node.dim with
        | some dim => do
            let sp ← init node.split
            let child ← init (if x dim ≤ sp then node.left else node.right)
            extendBlock p ω x label tree fuel child pos { s with nodes := nodes }
        | none => do
            let nodes ← upd nodes id (fun n => { n with counts := bump n.counts label })
            return ({ s with nodes := nodes }, pos)
      else return (s, pos)

/-- `train_tree` (mondrian.hpp:279-300). It always returns true. If no node is available the code writes to `nodes[-1]`. -/
def trainTree (p : Params K) (ω : Nat → K) (x : Fin F → K) (label : Fin L) (tree : Nat) (s : Forest K F L) (pos : Nat) :
    Res (Forest K F L × Nat × Bool) := do
  let root ← rd s.roots tree
  match root with
  | none =>
      match availableNode s.nodes with
      | none => .error .ub
      | some id => do
          let roots ← wr s.roots tree (some id)
          let nodes ← upd s.nodes id (fun n => { n with
            parent := none
            right := none
            left := none
            tau := 0 })
          let nodes ← sampleBlock p nodes id x label
          return ({ nodes := nodes, roots := roots }, pos, true)
  | some id => do
      let (s, pos) ← extendBlock p ω x label tree s.nodes.length id pos s
      return (s, pos, true)

/-- The loop of `train` (mondrian.hpp:451-455) from tree `i`, `k` trees left. `res` is the variable `fully_trained`, initially uninitialised. -/
def trainLoop (p : Params K) (ω : Nat → K) (x : Fin F → K) (label : Fin L) : Nat → Nat → Forest K F L → Nat → Option Bool →
    Res (Forest K F L × Nat × Option Bool)
  | _, 0, s, pos, res => .ok (s, pos, res)
  | i, k + 1, s, pos, res => do
      let (s, pos, ok) ← trainTree p ω x label i s pos
      trainLoop p ω x label (i + 1) k s pos (if ok then res else some false)

/-- `train` (mondrian.hpp:449-457): new state, position in the random sequence, returned value; `none` is the indeterminate value of an
uninitialised variable. -/
def train (p : Params K) (ω : Nat → K) (x : Fin F → K) (label : Fin L) (s : Forest K F L) (pos : Nat) : Res (Forest K F L × Nat × Option Bool) :=
  trainLoop p ω x label 0 s.roots.length s pos none

/-- `compute_posterior_mean` (mondrian.hpp:306-327). The division is only made for a positive counter, so the sum of the counters is positive. -/
def computePosteriorMean (p : Params K) (nodes : List (Node K F L)) (node : Node K F L) (pm : Fin L → K) : Res (Fin L → K) := do
  let parentTau ← (match node.parent with
    | some q => (rd nodes q).map (·.tau)
    | none => .ok 0 : Res K)
  let disc := p.exp (p.discount * (node.tau - parentTau))
  let sumC : K := ∑ i, (node.counts i : K)
  let tab : Fin L → K := fun i => ((Utils.min (node.counts i) 1 : Nat) : K)
  let sumTab := ∑ i, tab i
  return fun i => if 0 < node.counts i then ((node.counts i : K) - disc * tab i) / sumC + (disc * sumTab * pm i) / sumC else pm i

/-- `eta` (mondrian.hpp:353-355) -/
def eta (b : Box K F) (x : Fin F → K) : K := ∑ i, (Utils.max (x i - b.upper i) 0 + Utils.max (b.lower i - x i) 0)

/-- The update of `smoothed_posterior_means` (mondrian.hpp:359-376). A division by zero is reported as undefined behaviour. -/
def smooth (p : Params K) (node : Node K F L) (pb deltaTau eta notSep : K) (pm sm : Fin L → K) : Res (Fin L → K) :=
  if 0 < pb then
    let d1 := eta + p.discount
    let d2 := -(p.exp (-(eta * deltaTau)) - 1)
    let c : Fin L → K := fun l => ((Utils.min (node.counts l) 1 : Nat) : K)
    let cSum := ∑ l, c l
    if d1 = 0 ∨ d2 = 0 ∨ cSum = 0 then .error .ub
    else
      let disc := (eta / d1) * -(p.exp (-(eta + p.discount) * deltaTau) - 1) / d2
      .ok (fun l => sm l + notSep * pb * ((1 / cSum) * (c l - disc * c l + cSum * pm l)))
  else .ok sm

/-- The loop of `predict_tree` (mondrian.hpp:349-394). The variable `parent_tau` stays 0. -/
def predictLoop (p : Params K) (nodes : List (Node K F L)) (x : Fin F → K) : (fuel : Nat) → Option Nat → (notSep : K) → (pm sm : Fin L → K) →
    Res (Fin L → K)
  | _, none, _, pm, _ => .ok pm
  | 0, some _, _, _, _ => .error .ub
  | fuel + 1, some id, notSep, pm, sm => do
      let node ← rd nodes id
      let b ← init node.box
      let parentTau : K := 0
      let deltaTau := node.tau - parentTau
      let eta := eta b x
      let pb := 1 - p.exp (-deltaTau * eta)
      let sm ← smooth p node pb deltaTau eta notSep pm sm
      let pm ← computePosteriorMean p nodes node pm
      match node.dim with
      | none => return fun l => sm l + notSep * (1 - pb) * pm l
      | some dim => do
          let sp ← init node.split
          predictLoop p nodes x fuel (if x dim ≤ sp then node.left else node.right) (notSep * (1 - pb)) pm sm

/-- `predict_tree` (mondrian.hpp:336-395) -/
def predictTree (p : Params K) (s : Forest K F L) (x : Fin F → K) (root : Option Nat) : Res (Fin L → K) :=
  predictLoop p s.nodes x s.nodes.length root 1 (fun _ => p.base) (fun _ => 0)

/-- `update_posterior_count(node_id)` (mondrian.hpp:401-418) -/
def updateCount : (fuel : Nat) → Nat → List (Node K F L) → Res (List (Node K F L))
  | 0, _, _ => .error .ub
  | fuel + 1, id, nodes => do
      let node ← rd nodes id
      match node.dim with
      | none => return nodes
      | some _ => do
          let l ← init node.left
          let r ← init node.right
          let nodes ← updateCount fuel l nodes
          let nodes ← updateCount fuel r nodes
          let nl ← rd nodes l
          let nr ← rd nodes r
          upd nodes id (fun n => { n with counts := fun i => Utils.min 1 (nl.counts i) + Utils.min 1 (nr.counts i) })

/-- The loop of `update_posterior_count()` (mondrian.hpp:422-427) over the remaining roots -/
def updateCounts (fuel : Nat) : List (Option Nat) → List (Node K F L) → Res (List (Node K F L))
  | [], nodes => .ok nodes
  | none :: rs, nodes => updateCounts fuel rs nodes
  | some r :: rs, nodes => do
      let nodes ← updateCount fuel r nodes
      updateCounts fuel rs nodes

/-- The loop of `predict` over the trees (mondrian.hpp:470-477) -/
def sumLoop (p : Params K) (s : Forest K F L) (x : Fin F → K) : List (Option Nat) → (Fin L → K) → Res (Fin L → K)
  | [], acc => .ok acc
  | r :: rs, acc => do
      let pm ← predictTree p s x r
      sumLoop p s x rs (fun k => acc k + pm k)

/-- `predict` (mondrian.hpp:463-489): new state and returned label. The argument `scores` is not used by the code. -/
def predict (p : Params K) (s : Forest K F L) (x : Fin F → K) : Res (Forest K F L × Nat) := do
  let nodes ← updateCounts s.nodes.length s.roots s.nodes
  let s := { s with nodes := nodes }
  let sum ← sumLoop p s x s.roots (fun _ => 0)
  if s.roots.length = 0 then .error .ub
  else return (s, Utils.indexMax (List.ofFn (fun k => sum k / (s.roots.length : K))))

/-- A call of a member function -/
inductive Op (K : Type) (F L : Nat) where
  | train (x : Fin F → K) (label : Fin L)
  | predict (x : Fin F → K)

/-- Executes a call; the returned values are dropped. -/
def exec (p : Params K) (ω : Nat → K) (op : Op K F L) (s : Forest K F L) (pos : Nat) : Res (Forest K F L × Nat) :=
  match op with
  | .train x label => do
      let (s, pos, _) ← train p ω x label s pos
      return (s, pos)
  | .predict x => do
      let (s, _) ← predict p s x
      return (s, pos)

/-- A history of calls -/
def run (p : Params K) (ω : Nat → K) : List (Op K F L) → Forest K F L → Nat → Res (Forest K F L × Nat)
  | [], s, pos => .ok (s, pos)
  | op :: ops, s, pos => do
      let (s, pos) ← exec p ω op s pos
      run p ω ops s pos

end Orp.Mondrian
