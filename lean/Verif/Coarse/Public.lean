import Verif.Coarse.Split

/-!
Further public functions of `CoarseMondrianForest` (mondrian_coarse.hpp): `eval_scores`, `count_sides`, `adjust_counters`.
-/

set_option linter.unusedSectionVars false

namespace Orp.Coarse

open Finset
open Mondrian (Node)

variable {K : Type} [Field K] [LinearOrder K] [IsStrictOrderedRing K] [FloorRing K] {F L : Nat}

/-- The loop of `eval_scores` (mondrian_coarse.hpp:3251-3254): `idx_max` starts at 0, also if `label` is 0. -/
def secondBest (score : Fin L → K) (label : Fin L) : Fin L :=
  ((List.finRange L).drop 1).foldl (fun idx i => if i ≠ label ∧ score idx < score i then i else idx) ⟨0, label.pos⟩

/-- `eval_scores` (mondrian_coarse.hpp:3249-3258) -/
def evalScores (score : Fin L → K) (label : Fin L) : K :=
  let best := Utils.indexMax (List.ofFn score)
  if best = label.val then score label - score (secondBest score label)
  else score label - (List.ofFn score).getD best 0

/-- `count_sides` (mondrian_coarse.hpp:1235-1307) with counts 0 at the start: the returned value is 0 if all nodes were visited and -1 otherwise; then the counts of the two
sides and the position in the random sequence. `splitAt` contains the same call. -/
def countSides (ω : Nat → K) (s : State K F L) (start : Nat) (dim : Fin F) (v : K) (pos : Nat) : Res (Int × Int × Int × Nat) := do
  let (done, _, l, r, pos) ← tourFrom (sideLeaf ω dim v) s.forest.nodes start (0, 0, pos)
  return (if done then 0 else -1, l, r, pos)

/-- `adjust_counters` (mondrian_coarse.hpp:1438-1505) with `to_remove` 0 at the start: the returned value, the state and `to_remove`. `splitAt` contains the same call. -/
def adjustCounters (s : State K F L) (start : Nat) (dim : Fin F) (v : K) (dischargeLeft : Bool) : Res (Int × State K F L × (Fin L → Nat)) := do
  let (done, nodes, removed) ← tourFrom (counterLeaf dim v dischargeLeft) s.forest.nodes start (fun _ => 0)
  return (if done then 0 else -1, { s with forest := { s.forest with nodes := nodes } }, removed)

end Orp.Coarse
