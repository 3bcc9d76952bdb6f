import Verif.Coarse.Public

/-!
Model of `otter`, which judges the forest with a labelled point.
-/

set_option linter.unusedSectionVars false

namespace Orp.Coarse

open Mondrian (Node Forest Params init)

variable {K : Type} [Field K] [LinearOrder K] [IsStrictOrderedRing K] [FloorRing K] {F L : Nat}

/-- The variables `otter` keeps: `count_direction`, `sum_direction` (mondrian_coarse.hpp:239-240), and for each tree `count_contribution` and `sum_contribution`
(mondrian_coarse.hpp:205-206). No other modelled function uses them. -/
structure Gauge (K : Type) where
  count : K
  sum : K
  trees : List (K × K)

/-- The values of a new object (mondrian_coarse.hpp:205-206,215-216,239-240) -/
def gauge0 (n : Nat) : Gauge K := ⟨0, 0, List.replicate n (0, 0)⟩

/-- The loop of `predict_tree` (mondrian_coarse.hpp:2108-2172) with `depth_limit` -/
def limitLoop (p : Params K) (nodes : List (Node K F L)) (x : Fin F → K) (limit : Int) : (fuel depth : Nat) → Option Nat → (notSep : K) → (pm sm : Fin L → K) →
    Res (Fin L → K)
  | _, _, none, _, pm, _ => .ok pm
  | 0, _, some _, _, _, _ => .error .ub
  | fuel + 1, depth, some id, notSep, pm, sm => do
      let node ← rd nodes id
      let b ← init node.box
      let parentTau : K := 0
      let deltaTau := node.tau - parentTau
      let eta := Mondrian.eta b x
      let pb := 1 - p.exp (-deltaTau * eta)
      let sm ← Mondrian.smooth p node pb deltaTau eta notSep pm sm
      let pm ← Mondrian.computePosteriorMean p nodes node pm
      if limit ≤ (depth : Int) + 1 ∧ 0 ≤ limit then return fun l => sm l + notSep * (1 - pb) * pm l
      else match node.dim with
        | none => return fun l => sm l + notSep * (1 - pb) * pm l
        | some dim => do
            let sp ← init node.split
            limitLoop p nodes x limit fuel (depth + 1) (if x dim ≤ sp then node.left else node.right) (notSep * (1 - pb)) pm sm

/-- `tree_depth` (mondrian_coarse.hpp:2255-2268) without the count of the nodes -/
def treeDepth (nodes : List (Node K F L)) : Option Nat → Res Int
  | none => .ok 0
  | some id => nodeDepth nodes id

/-- The first loops of `otter` (mondrian_coarse.hpp:3064-3076): for each tree `scores` and `scores_pre`. -/
def judgeLoop (p : Params K) (s : Forest K F L) (x : Fin F → K) : List (Option Nat) → Res (List ((Fin L → K) × (Fin L → K)))
  | [] => .ok []
  | r :: rs => do
      let depth ← treeDepth s.nodes r
      let scores ← Mondrian.predictTree p s x r
      let pre ← limitLoop p s.nodes x (depth - 1) s.nodes.length 0 r 1 (fun _ => p.base) (fun _ => 0)
      let rows ← judgeLoop p s x rs
      return (scores, pre) :: rows

/-- `full_forest_eval > full_depth_eval` (mondrian_coarse.hpp:3072-3097). With one tree the scores without that tree are 0/0, not a number, and the comparison is false. -/
def comesOut (rows : List ((Fin L → K) × (Fin L → K))) (label : Fin L) : Bool :=
  let n : K := (rows.length : K)
  let forest : Fin L → K := fun j => (rows.map (·.2 j)).sum
  let full : Fin L → K := fun j => (rows.map (·.1 j)).sum
  if rows.length = 1 then false
  else decide ((rows.map (fun r => evalScores (fun j => (full j - r.1 j) / (n - 1)) label)).sum / n < evalScores forest label)

/-- The array `S` (mondrian_coarse.hpp:3126-3136) -/
def changes (rows : List ((Fin L → K) × (Fin L → K))) (label : Fin L) : List K :=
  let n : K := (rows.length : K)
  let full : Fin L → K := fun j => (rows.map (·.1 j)).sum / n
  rows.map (fun r => evalScores (fun j => full j - r.1 j / n) label - evalScores full label)

/-- the update of the kept variables (mondrian_coarse.hpp:3096-3100,3139-3140) -/
def Gauge.next (g : Gauge K) (up : Bool) (changes : List K) : Gauge K where
  count := g.count + 1
  sum := if up then g.sum + 1 else g.sum - 1
  trees := List.zipWith (fun b S => (b.1 * (95 / 100) + 1, b.2 * (95 / 100) + S)) g.trees changes

/-- `otter` (mondrian_coarse.hpp:3046-3144) without the output of debugging. Without trees the arrays have no elements, which is undefined. Besides the object the array
`S` is returned, for the statements. -/
def otter (p : Params K) (s : State K F L) (g : Gauge K) (x : Fin F → K) (label : Fin L) : Res (State K F L × Gauge K × List K) := do
  if s.forest.roots.length = 0 then .error .ub
  else
    let nodes ← Mondrian.updateCounts s.forest.nodes.length s.forest.roots s.forest.nodes
    let forest := { s.forest with nodes := nodes }
    let rows ← judgeLoop p forest x forest.roots
    let S := changes rows label
    return ({ s with forest := forest }, g.next (comesOut rows label) S, S)

/-- a call of a history: a modelled operation, or `otter` -/
inductive Call (K : Type) (F L : Nat) where
  | op (o : Op K F L)
  | judge (x : Fin F → K) (label : Fin L)

/-- a history with calls of `otter`; returns also the arrays `S` of these calls -/
def runJudge (c : Config K) (p : Params K) (ω : Nat → K) : List (Call K F L) → State K F L → Gauge K → Nat → Res (State K F L × Gauge K × Nat × List (List K))
  | [], s, g, pos => .ok (s, g, pos, [])
  | .op o :: calls, s, g, pos => do
      let (s, pos) ← exec c p ω o s pos
      runJudge c p ω calls s g pos
  | .judge x label :: calls, s, g, pos => do
      let (s, g, S) ← otter p s g x label
      let (s, g, pos, Ss) ← runJudge c p ω calls s g pos
      return (s, g, pos, S :: Ss)

end Orp.Coarse
