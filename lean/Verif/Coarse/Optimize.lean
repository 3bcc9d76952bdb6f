import Verif.Coarse.Model

/-!
Model of the code of `CoarseMondrianForest` under `UNBOUND_OPTIMIZE` (`/repo/src/mondrian_coarse.hpp`): with this macro `train` updates the counters of the split
nodes above the leaf of the point, and `predict` does not compute the counters of all split nodes.
-/

namespace Orp.Coarse

open Mondrian (Node Forest Params upd init)

variable {K : Type} [Field K] [LinearOrder K] [FloorRing K] {F L : Nat}

/-- The loop of `get_leaf` (mondrian_coarse.hpp:2179-2188) -/
def getLeaf (nodes : List (Node K F L)) (x : Fin F → K) : (fuel : Nat) → Nat → Res Nat
  | 0, _ => .error .ub
  | fuel + 1, id => do
      let node ← rd nodes id
      match node.dim with
      | none => return id
      | some dim => do
          let sp ← init node.split
          let child ← init (if sp < x dim then node.right else node.left)
          getLeaf nodes x fuel child

/-- The loop of `update_posterior_count(tree_id, features, label)` (mondrian_coarse.hpp:2200-2209). Node 0 ends it. -/
def pathLoop (label : Fin L) : (fuel : Nat) → Option Nat → List (Node K F L) → Res (List (Node K F L))
  | _, none, nodes => .ok nodes
  | 0, some _, _ => .error .ub
  | fuel + 1, some id, nodes =>
      if 0 < id ∧ id < nodes.length then do
        let node ← rd nodes id
        let l ← rd nodes (← init node.left)
        let r ← rd nodes (← init node.right)
        let nodes ← upd nodes id (fun n => { n with counts := Function.update n.counts label (Utils.min 1 (l.counts label) + Utils.min 1 (r.counts label)) })
        pathLoop label fuel node.parent nodes
      else .ok nodes

/-- `update_posterior_count(tree_id, features, label)` (mondrian_coarse.hpp:2196-2210) with `get_leaf` (mondrian_coarse.hpp:2173-2189). For an empty tree `nodes()[-1]` is
read. -/
def updatePath (s : State K F L) (tree : Nat) (x : Fin F → K) (label : Fin L) : Res (State K F L) := do
  let root ← init (← rd s.forest.roots tree)
  let leaf ← getLeaf s.forest.nodes x s.forest.nodes.length root
  let node ← rd s.forest.nodes leaf
  let nodes ← pathLoop label s.forest.nodes.length node.parent s.forest.nodes
  return { s with forest := { s.forest with nodes := nodes } }

/-- The loop of `train` over the trees (mondrian_coarse.hpp:2937-2944) with `UNBOUND_OPTIMIZE`, from tree `i`, `k` trees left -/
def trainLoopOpt (c : Config K) (p : Params K) (ω : Nat → K) (x : Fin F → K) (label : Fin L) : (i k : Nat) → State K F L → Nat → Bool →
    Res (State K F L × Nat × Bool)
  | _, 0, s, pos, ok => .ok (s, pos, ok)
  | i, k + 1, s, pos, ok => do
      let (s, pos, r) ← trainTree c p ω x label i s pos
      let s ← updatePath s i x label
      trainLoopOpt c p ω x label (i + 1) k s pos (ok && r)

/-- `train` (mondrian_coarse.hpp:2908-3045) with `UNBOUND_OPTIMIZE` -/
def trainOpt (c : Config K) (p : Params K) (ω : Nat → K) (x : Fin F → K) (label : Fin L) (s : State K F L) (pos : Nat) : Res (State K F L × Nat × Bool) := do
  let s ← (if c.trim = .fading then treeFade s else .ok s : Res (State K F L))
  let (s, pos) ← (if c.trim ≠ .none ∧ s.free ≤ 1 ∧ s.total % 100 = 0 then treeTrim c ω s pos else .ok (s, pos) : Res (State K F L × Nat))
  let (s, pos, ok) ← trainLoopOpt c p ω x label 0 s.forest.roots.length s pos true
  return ({ s with total := s.total + 1 }, pos, ok)

/-- `predict` (mondrian_coarse.hpp:3264-3293) with `UNBOUND_OPTIMIZE`: it changes nothing. -/
def predictOpt (p : Params K) (s : State K F L) (x : Fin F → K) (use : Option Nat) : Res Nat :=
  let k := match use with
    | some k => k
    | none => s.forest.roots.length
  if s.forest.roots.length < k ∨ k = 0 then .error .ub
  else do
    let sum ← Mondrian.sumLoop p s.forest x (s.forest.roots.take k) (fun _ => 0)
    return Utils.indexMax (List.ofFn (fun i => sum i / (k : K)))

/-- Executes a call with `UNBOUND_OPTIMIZE`; the returned values are dropped. -/
def execOpt (c : Config K) (p : Params K) (ω : Nat → K) (op : Op K F L) (s : State K F L) (pos : Nat) : Res (State K F L × Nat) :=
  match op with
  | .train x label => do
      let (s, pos, _) ← trainOpt c p ω x label s pos
      return (s, pos)
  | .predict x use => do
      let _ ← predictOpt p s x use
      return (s, pos)
  | .trim => treeTrim c ω s pos
  | .fade => do
      let s ← treeFade s
      return (s, pos)
  | .other last => .ok ({ s with last := last }, pos)

/-- A history of calls with `UNBOUND_OPTIMIZE` -/
def runOpt (c : Config K) (p : Params K) (ω : Nat → K) : List (Op K F L) → State K F L → Nat → Res (State K F L × Nat)
  | [], s, pos => .ok (s, pos)
  | op :: ops, s, pos => do
      let (s, pos) ← execOpt c p ω op s pos
      runOpt c p ω ops s pos

end Orp.Coarse
