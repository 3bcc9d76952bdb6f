import Verif.Mondrian.Model

/-!
Model of `MondrianForestUnbound` (`/repo/src/mondrian_unbound.hpp`, whole class). The nodes are allocated with `new`.

* The heap is a list of nodes; a pointer is an index, `nullptr` is `none`, `new` appends. Nodes are only freed by the destructor, see `destroy`.
* `LeafNode` and `InternalNode` are both `Mondrian.Node`; a node is an `InternalNode` exactly if its `dim` is not `none`, and the calls of virtual
  functions look at that. `split_dimension` of an `InternalNode` is set immediately after its construction (lines 265-271), so the value -1 of the
  constructor is not modelled.
* The counters of internal nodes are of type `char` in the code and at most 2; counters are natural numbers here.
* Numbers, random numbers and the bounds on the recursion are as in `Verif.Mondrian.Model`. Functions of `mondrian.hpp` whose text is the same in
  `mondrian_unbound.hpp`, up to pointers instead of indices, are shared; the comments give both places.
-/

namespace Orp.Unbound

open Finset Mondrian

variable {K : Type} [Field K] [LinearOrder K] [FloorRing K] {F L : Nat}

/-- Object state (mondrian_unbound.hpp:210-220) and heap -/
structure Forest (K : Type) (F L : Nat) where
  heap : List (Node K F L)
  roots : List (Option Nat)
  /-- `count_internal_nodes` -/
  internals : Nat
  /-- `count_leaf_nodes` -/
  leaves : Nat
  /-- `count_data_point` -/
  points : Nat

/-- Constructor (mondrian_unbound.hpp:446-453) -/
def new (treeCount : Nat) : Forest K F L := { heap := [], roots := List.replicate treeCount none, internals := 0, leaves := 0, points := 0 }

/-- Constructor of `LeafNode` (mondrian_unbound.hpp:37-43, 134-137) -/
def blankLeaf : Node K F L := { (blank : Node K F L) with box := some { lower := fun _ => 0, upper := fun _ => 0 } }

/-- Constructor of `InternalNode` and the assignments after it (mondrian_unbound.hpp:37-43, 159-164, 270-272) -/
def blankInternal (cut : Cut K F) : Node K F L :=
  { (blank : Node K F L) with
    box := some { lower := fun _ => 0, upper := fun _ => 0 }
    dim := some cut.dim
    split := some cut.split
    tau := cut.tau }

/-- The counters of an internal node recomputed from those of its children: for one label (mondrian_unbound.hpp:186-190) or for all of them (195-201) -/
def recomputed (what : Option (Fin L)) (old l r : Fin L → Nat) : Fin L → Nat :=
  match what with
  | some k => Function.update old k (Utils.min 1 (l k) + Utils.min 1 (r k))
  | none => fun k => Utils.min 1 (l k) + Utils.min 1 (r k)

/-- `update_counters(label, 1)` (`what = some label`; mondrian_unbound.hpp:138-142, 183-193) and `update_counters()` (`what = none`; 143-146, 194-204)
of the node at a pointer, if that is not null: the function goes up to the root. -/
def updateCounters (what : Option (Fin L)) : (fuel : Nat) → Option Nat → List (Node K F L) → Res (List (Node K F L))
  | _, none, heap => .ok heap
  | 0, some _, _ => .error .ub
  | fuel + 1, some id, heap => do
      let node ← rd heap id
      let heap ← (match node.dim with
        | none => match what with
          | some k => upd heap id (fun n => { n with counts := bump n.counts k })
          | none => .ok heap
        | some _ => do
          let l ← init node.left
          let r ← init node.right
          let nl ← rd heap l
          let nr ← rd heap r
          upd heap id (fun n => { n with counts := recomputed what n.counts nl.counts nr.counts }) : Res (List (Node K F L)))
      updateCounters what fuel node.parent heap

/-- The choice of the dimension (mondrian_unbound.hpp:248-250). With `dimension = feature_count`, line 254 reads past the arrays. -/
def pickDim (ω : Nat → K) (pos : Nat) (e : Fin F → K) (sum : K) : Res (Fin F × Nat) := do
  let probs ← Utils.turnIntoProbability (List.ofFn e) sum
  let d := Utils.pick probs (ω pos)
  if h : d < F then return (⟨d, h⟩, pos + 1) else .error .ub

/-- The random choices of `extend_block` (mondrian_unbound.hpp:233-264); the choice of the split value (253-264, 300) is that of mondrian.hpp:152-163. -/
def draw (p : Params K) (ω : Nat → K) (pos : Nat) (b : Box K F) (x : Fin F → K) (parentTau tau : K) : Res (Option (Cut K F) × Nat) :=
  let sum := ∑ i, extent b x i
  if sum = 0 then .ok (none, pos)
  else
    let e := p.log (1 - ω pos) / (-sum)
    if 0 ≤ e ∧ parentTau + e < tau then do
      let (dim, pos) ← pickDim ω (pos + 1) (extent b x) sum
      let (cut, pos) ← cutAt ω pos b x dim (parentTau + e)
      return (some cut, pos)
    else .ok (none, pos + 1)

/-- `sample_block` (mondrian_unbound.hpp:344-351) -/
def sampleBlock (p : Params K) (heap : List (Node K F L)) (id : Nat) (x : Fin F → K) (label : Fin L) : Res (List (Node K F L)) := do
  let heap ← upd heap id (fun n => { n with box := some { lower := x, upper := x } })
  let heap ← updateCounters (some label) heap.length (some id) heap
  upd heap id (fun n => { n with tau := p.lifetime })

/-- The new nodes (mondrian_unbound.hpp:265-307), before `sample_block`; the redirection of the link to `node` (286-294) is that of
mondrian.hpp:192-201. -/
def insertNodes (s : Forest K F L) (id tree : Nat) (cut : Cut K F) (x : Fin F → K) : Res (Forest K F L) := do
  let np := s.heap.length
  let ns := s.heap.length + 1
  let heap := s.heap ++ [blankInternal cut, blankLeaf]
  let node ← rd heap id
  let b ← init node.box
  let heap ← upd heap np (fun n => { n with box := some (b.extend x) })
  let node ← rd heap id
  let heap ← upd heap np (fun n => { n with parent := node.parent })
  let f ← relink { nodes := heap, roots := s.roots } id tree np
  let heap ← upd f.nodes id (fun n => { n with parent := some np })
  let heap ← upd heap ns (fun n => { n with parent := some np })
  let heap ← (if cut.right then upd heap np (fun n => { n with
      right := some ns
      left := some id })
    else upd heap np (fun n => { n with
      left := some ns
      right := some id }) : Res (List (Node K F L)))
  return { heap := heap, roots := f.roots, internals := s.internals + 1, leaves := s.leaves + 1, points := s.points }

/-- `extend_block` (mondrian_unbound.hpp:229-337); `fuel` bounds the depth of the recursion. -/
def extendBlock (p : Params K) (ω : Nat → K) (x : Fin F → K) (label : Fin L) (tree : Nat) : (fuel : Nat) → (id : Nat) → (pos : Nat) → Forest K F L →
    Res (Forest K F L × Nat)
  | 0, _, _, _ => .error .ub
  | fuel + 1, id, pos, s => do
      let node ← rd s.heap id
      let parentTau ← (match node.parent with
        | some q => (rd s.heap q).map (·.tau)
        | none => .ok 0 : Res K)
      let b ← init node.box
      let (cut, pos) ← draw p ω pos b x parentTau node.tau
      match cut with
      | some cut => do
        let np := s.heap.length
        let s ← insertNodes s id tree cut x
        let heap ← sampleBlock p s.heap (np + 1) x label
        let heap ← updateCounters none heap.length (some np) heap
        return ({ s with heap := heap }, pos)
      | none => do
        let heap ← upd s.heap id (fun n => { n with box := some (b.extend x) })
        match node.dim with
        | some dim => do
            let sp ← init node.split
            let child ← init (if x dim ≤ sp then node.left else node.right)
            extendBlock p ω x label tree fuel child pos { s with heap := heap }
        | none => do
            let heap ← updateCounters (some label) heap.length (some id) heap
            return ({ s with heap := heap }, pos)

/-- `train_tree` (mondrian_unbound.hpp:359-374); it always returns true. -/
def trainTree (p : Params K) (ω : Nat → K) (x : Fin F → K) (label : Fin L) (tree : Nat) (s : Forest K F L) (pos : Nat) :
    Res (Forest K F L × Nat × Bool) := do
  let root ← rd s.roots tree
  match root with
  | none => do
      let id := s.heap.length
      let roots ← wr s.roots tree (some id)
      let heap ← sampleBlock p (s.heap ++ [blankLeaf]) id x label
      return ({ s with
        heap := heap
        roots := roots
        leaves := s.leaves + 1 }, pos, true)
  | some id => do
      let (s, pos) ← extendBlock p ω x label tree s.heap.length id pos s
      return (s, pos, true)

/-- The loop of `train` (mondrian_unbound.hpp:461-466) from tree `i`, `k` trees left. `res` is the variable `fully_trained`, initially uninitialised. -/
def trainLoop (p : Params K) (ω : Nat → K) (x : Fin F → K) (label : Fin L) : Nat → Nat → Forest K F L → Nat → Option Bool →
    Res (Forest K F L × Nat × Option Bool)
  | _, 0, s, pos, res => .ok (s, pos, res)
  | i, k + 1, s, pos, res => do
      let (s, pos, ok) ← trainTree p ω x label i s pos
      trainLoop p ω x label (i + 1) k s pos (if ok then res else some false)

/-- `train` (mondrian_unbound.hpp:460-469): new state, position in the random sequence, returned value; `none` is the indeterminate value of an
uninitialised variable. -/
def train (p : Params K) (ω : Nat → K) (x : Fin F → K) (label : Fin L) (s : Forest K F L) (pos : Nat) :
    Res (Forest K F L × Nat × Option Bool) := do
  let (s, pos, res) ← trainLoop p ω x label 0 s.roots.length s pos none
  return ({ s with points := s.points + 1 }, pos, res)

/-- `predict` (mondrian_unbound.hpp:475-498), which does not change the state. `predict_tree` (383-438) is that of mondrian.hpp:336-395, with
`compute_eta` (84-89) and `compute_posterior_mean` (90-114); the loop over the trees (478-486) is that of mondrian.hpp:470-477. -/
def predict (p : Params K) (s : Forest K F L) (x : Fin F → K) : Res Nat := do
  let sum ← sumLoop p { nodes := s.heap, roots := s.roots } x s.roots (fun _ => 0)
  if s.roots.length = 0 then .error .ub
  else return Utils.indexMax (List.ofFn (fun k => sum k / (s.roots.length : K)))

/-- Executes a call; the returned values are dropped. -/
def exec (p : Params K) (ω : Nat → K) (op : Op K F L) (s : Forest K F L) (pos : Nat) : Res (Forest K F L × Nat) :=
  match op with
  | .train x label => do
      let (s, pos, _) ← train p ω x label s pos
      return (s, pos)
  | .predict x => do
      let _ ← predict p s x
      return (s, pos)

/-- A history of calls -/
def run (p : Params K) (ω : Nat → K) : List (Op K F L) → Forest K F L → Nat → Res (Forest K F L × Nat)
  | [], s, pos => .ok (s, pos)
  | op :: ops, s, pos => do
      let (s, pos) ← exec p ω op s pos
      run p ω ops s pos

/-- `delete` of a pointer to a node (mondrian_unbound.hpp:119-122): `freed` are the nodes freed so far. A null pointer is ignored; deleting a node
twice is undefined behaviour. -/
def destroyNode (heap : List (Node K F L)) : (fuel : Nat) → Option Nat → (freed : List Nat) → Res (List Nat)
  | _, none, freed => .ok freed
  | 0, some _, _ => .error .ub
  | fuel + 1, some id, freed =>
      if id ∈ freed then .error .ub
      else do
        let node ← rd heap id
        let freed ← destroyNode heap fuel node.left freed
        let freed ← destroyNode heap fuel node.right freed
        if id ∈ freed then .error .ub else return id :: freed

/-- Destructor (mondrian_unbound.hpp:499-503): the nodes freed, the last one first -/
def destroy (s : Forest K F L) : List (Option Nat) → (freed : List Nat) → Res (List Nat)
  | [], freed => .ok freed
  | r :: rs, freed => do
      let freed ← destroyNode s.heap s.heap.length r freed
      destroy s rs freed

end Orp.Unbound
