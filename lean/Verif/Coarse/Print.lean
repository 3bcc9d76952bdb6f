import Verif.Coarse.Model

/-!
Model of the output of `CoarseMondrianForest` with `print_nodes` (`/repo/src/mondrian_coarse.hpp`): `scory` before and `printy` after the training in `train`. A line of output
is a value of `Line`; how numbers are written is not modelled.
-/

namespace Orp.Coarse

open Mondrian (Node Forest Params upd init)

variable {K : Type} [Field K] [LinearOrder K] [FloorRing K] {F L : Nat}

/-- A line of output: of `node_csv` (mondrian_coarse.hpp:3155-3166), which writes all members of a node, or of `scory` (mondrian_coarse.hpp:3236, 3244), where tree -1 is `none` -/
inductive Line (K : Type) (F L : Nat) where
  | node (total tree id depth : Nat) (leaf : Bool) (content : Node K F L) (forced : Int)
  | score (total : Nat) (tree : Option Nat) (label : Fin L) (prediction : Nat) (scores : Fin L → K)

/-- The loop of `scory` (mondrian_coarse.hpp:3231-3242) from tree `i` over the remaining roots. Returns the lines and `sum_scores`, `none` while it is not set. -/
def scoreLoop (p : Params K) (s : Forest K F L) (x : Fin F → K) (label : Fin L) (total : Nat) : (i : Nat) → List (Option Nat) → Option (Fin L → K) →
    Res (List (Line K F L) × Option (Fin L → K))
  | _, [], sum => .ok ([], sum)
  | i, r :: rs, _ => do
      let scores ← Mondrian.predictTree p s x r
      let (lines, sum) ← scoreLoop p s x label total (i + 1) rs (some scores)
      return (.score total (some i) label (Utils.indexMax (List.ofFn scores)) scores :: lines, sum)

/-- `scory` (mondrian_coarse.hpp:3226-3249) -/
def scory (p : Params K) (s : State K F L) (x : Fin F → K) (label : Fin L) : Res (State K F L × List (Line K F L)) := do
  let nodes ← Mondrian.updateCounts s.forest.nodes.length s.forest.roots s.forest.nodes
  let forest := { s.forest with nodes := nodes }
  let (lines, sum) ← scoreLoop p forest x label s.total 0 forest.roots none
  let sum ← init sum
  return ({ s with forest := forest }, lines ++ [.score s.total none label (Utils.indexMax (List.ofFn sum)) sum])

/-- The loop of `tree_printy` (mondrian_coarse.hpp:3183-3220). `max_depth` and `depth_id` are not used. -/
def printLoop (nodes : List (Node K F L)) (forced : List Int) (total tree : Nat) : (fuel i : Nat) → Option Nat → (depth : Int) → (stack : List Int) →
    List (Line K F L) → Res (List (Line K F L))
  | 0, _, _, _, _, _ => .error .ub
  | fuel + 1, i, id, depth, stack, out =>
      if i < nodes.length ∧ 0 ≤ depth then do
        let id ← init id
        let node ← rd nodes id
        let fe ← rd forced id
        let d ← level depth
        match node.dim with
        | none => printLoop nodes forced total tree fuel (i + 1) node.parent (depth - 1) stack (out ++ [.node total tree id d true node fe])
        | some _ => do
            let st ← rd stack d
            if st = -1 then do
              let stack ← wr stack d 0
              printLoop nodes forced total tree fuel i node.right (depth + 1) stack (out ++ [.node total tree id d false node fe])
            else if st = 0 then do
              let stack ← wr stack d 1
              printLoop nodes forced total tree fuel i node.left (depth + 1) stack out
            else do
              let stack ← wr stack d (-1)
              printLoop nodes forced total tree fuel (i + 1) node.parent (depth - 1) stack out
      else return out

/-- `printy` (mondrian_coarse.hpp:3222-3225) with `tree_printy` (mondrian_coarse.hpp:3167-3221), from tree `i` over the remaining roots -/
def printRoots (s : State K F L) : (i : Nat) → List (Option Nat) → Res (List (Line K F L))
  | _, [] => .ok []
  | i, r :: rs => do
      let a ← printLoop s.forest.nodes s.forced s.total i (3 * s.forest.nodes.length + 1) 0 r 0 (List.replicate 100 (-1)) []
      let b ← printRoots s (i + 1) rs
      return a ++ b

/-- `printy` (mondrian_coarse.hpp:3222-3225) -/
def printy (s : State K F L) : Res (List (Line K F L)) := printRoots s 0 s.forest.roots

/-- `train` (mondrian_coarse.hpp:2908-3045) with `print_nodes`: 2913-2915, the rest, 2986-2988 -/
def trainPrint (c : Config K) (p : Params K) (ω : Nat → K) (x : Fin F → K) (label : Fin L) (s : State K F L) (pos : Nat) :
    Res (State K F L × Nat × Bool × List (Line K F L)) := do
  let (s, out) ← scory p s x label
  let (s, pos, ok) ← train c p ω x label s pos
  let out' ← (if 0 < s.total ∧ (s.total ≤ 500 ∨ s.total % 5 = 0) then printy s else .ok [] : Res (List (Line K F L)))
  return (s, pos, ok, out ++ out')

/-- Executes a call with `print_nodes`; the returned values are dropped. -/
def execPrint (c : Config K) (p : Params K) (ω : Nat → K) (op : Op K F L) (s : State K F L) (pos : Nat) : Res (State K F L × Nat × List (Line K F L)) :=
  match op with
  | .train x label => do
      let (s, pos, _, out) ← trainPrint c p ω x label s pos
      return (s, pos, out)
  | op => do
      let (s, pos) ← exec c p ω op s pos
      return (s, pos, [])

/-- A history of calls with `print_nodes` -/
def runPrint (c : Config K) (p : Params K) (ω : Nat → K) : List (Op K F L) → State K F L → Nat → Res (State K F L × Nat × List (Line K F L))
  | [], s, pos => .ok (s, pos, [])
  | op :: ops, s, pos => do
      let (s, pos, out) ← execPrint c p ω op s pos
      let (s, pos, out') ← runPrint c p ω ops s pos
      return (s, pos, out ++ out')

end Orp.Coarse
